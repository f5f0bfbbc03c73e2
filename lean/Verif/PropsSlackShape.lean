import Verif.IneqToEqSuccess
import Verif.PropsIneqToEq
import Verif.SlackSpec

/-!
# C17, C18: the form of programs with slack variables

Which constraints and variables `InequalityToEquality.convert` makes, one by one.
-/

namespace Verif

/-- Whether the inequality gets an integer slack variable: in the modes `integer` and `auto` if all its coefficients are
integers (mode `integer` rejects others). -/
def UsesInteger (mode : SlackMode) (c : Cst) : Prop := mode ≠ .continuous ∧ c.IntCoeffs

/-- The variable is a slack variable of the inequality. -/
structure IsSlack (mode : SlackMode) (c : Cst) (v : Variable) : Prop where
  sense : c.sense ≠ .eq
  bounds : v.lb = 0 ∧ 0 < v.ub
  int : UsesInteger mode c → v.name = c.name ++ "@int_slack" ∧ v.vartype = .integer
  cont : ¬ UsesInteger mode c → v.name = c.name ++ "@continuous_slack" ∧ v.vartype = .continuous

/-- `c'` is the equality made of `c`: the same name, the same left-hand side up to a new slack variable, and the same
right-hand side, rounded if the slack variable is an integer. -/
structure SlackForm (mode : SlackMode) (src dst : QP) (c c' : Cst) : Prop where
  name : c.name ≠ "" → c'.name = c.name
  sense : c'.sense = .eq
  eqn : c.sense = .eq → c'.rhs = c.rhs ∧ ∀ y, c'.val y = c.val y
  rhs : ¬ UsesInteger mode c → c'.rhs = c.rhs
  floor : UsesInteger mode c → c.sense = .le → c'.rhs = ⌊c.rhs⌋
  ceil : UsesInteger mode c → c.sense = .ge → c'.rhs = ⌈c.rhs⌉
  lhs : c.sense ≠ .eq → (∀ y, c'.val y = c.val y) ∨ ∃ (k : Nat) (v : Variable), src.numVars ≤ k ∧ dst.vars[k]? = some v ∧
    IsSlack mode c v ∧ ∀ y, c'.val y = c.val y + if c.sense = .le then y k else -y k

/-- `c'` is the equality made of `c`, exactly: name, right-hand side and left-hand side are determined by the constraint,
the bounds of the variables and the mode. -/
structure ExactForm (mode : SlackMode) (src dst : QP) (c c' : Cst) : Prop where
  name : c.name ≠ "" → c'.name = c.name
  sense : c'.sense = .eq
  rhs : c'.rhs = c.target mode
  none : c.slack mode src = [] → ∀ y, c'.val y = c.val y
  some : ∀ (k : Nat) (v : Variable), c.slack mode src = [v] → dst.vars[k]? = some v →
    ∀ y, c'.val y = c.val y + if c.sense = .le then y k else -y k

theorem delim_int (s : String) : s ++ delim ++ "int_slack" = s ++ "@int_slack" := by
  rw [String.append_assoc]; rfl

theorem delim_cont (s : String) : s ++ delim ++ "continuous_slack" = s ++ "@continuous_slack" := by
  rw [String.append_assoc]; rfl

theorem roundRhs_ge (r : ℚ) : roundRhs .ge r = ⌈r⌉ := by
  have : r.ceil = ⌈r⌉ := eq_of_forall_ge_iff fun z => by rw [Rat.ceil_le_iff, Int.ceil_le]
  simp only [roundRhs, this]

/-- What one constraint does to the program under construction. -/
structure FormStep (mode : SlackMode) (src d d' : QP) (c c' : Cst) : Prop where
  starts : Starts src d'
  name : d'.name = d.name
  vars : d.vars <+: d'.vars
  form : ∀ dst : QP, d'.vars <+: dst.vars → SlackForm mode src dst c c'
  slack : ∀ (k : Nat) (v : Variable), d.numVars ≤ k → d'.vars[k]? = some v → IsSlack mode c v
  added : d'.vars = d.vars ++ c.slack mode src
  rhs : c'.rhs = c.target mode
  lhs : ∀ y, c'.val y = c.val y + if c.slack mode src = [] then 0 else if c.sense = .le then y d.numVars else -y d.numVars

/-- The slack variables of the model and those of the specification. -/
theorem slackVars_exact {mode : SlackMode} {src : QP} {c : Cst} {t : VarType} {nm : String} {r : ℚ}
    (hse : c.sense ≠ .eq)
    (ht : (UsesInteger mode c ∧ nm = c.name ++ delim ++ "int_slack" ∧ t = .integer ∧ r = roundRhs c.sense c.rhs) ∨
      (¬ UsesInteger mode c ∧ nm = c.name ++ delim ++ "continuous_slack" ∧ t = .continuous ∧ r = c.rhs)) :
    r = c.target mode ∧ slackVars t nm c.sense r (c.low src) (c.high src) = c.slack mode src ∧
      ∀ z, slackTerm c.sense r (c.low src) (c.high src) z =
        if c.slack mode src = [] then 0 else if c.sense = .le then z else -z := by
  have hr : r = c.target mode := by
    unfold Cst.target
    rcases ht with ⟨h1, -, -, h⟩ | ⟨h1, -, -, h⟩
    · rw [if_pos (by rw [Cst.allInt_iff]; exact h1), h]
      cases hs : c.sense with
      | le => rfl
      | ge => exact roundRhs_ge _
      | eq => exact absurd hs hse
    · rw [if_neg (by rw [Cst.allInt_iff]; exact h1), h]
  have hv : (if mode ≠ .continuous ∧ c.allInt = true then (⟨c.name ++ "@int_slack", 0, c.room mode src, .integer⟩ : Variable)
      else ⟨c.name ++ "@continuous_slack", 0, c.room mode src, .continuous⟩) = ⟨nm, 0, c.room mode src, t⟩ := by
    rcases ht with ⟨h1, h2, h3, -⟩ | ⟨h1, h2, h3, -⟩
    · rw [if_pos (by rw [Cst.allInt_iff]; exact h1), h2, h3, delim_int]
    · rw [if_neg (by rw [Cst.allInt_iff]; exact h1), h2, h3, delim_cont]
  refine ⟨hr, ?_, ?_⟩
  · unfold Cst.slack
    rw [hv, hr]
    cases hs : c.sense with
    | le =>
      simp only [slackVars, Cst.room, hs, sub_pos]
      by_cases h : c.target mode ≤ c.low src
      · rw [if_pos h, if_neg (not_lt.mpr h)]
      · rw [if_neg h, if_pos (not_le.mp h)]
    | ge =>
      simp only [slackVars, Cst.room, hs, sub_pos]
      by_cases h : c.high src ≤ c.target mode
      · rw [if_pos h, if_neg (not_lt.mpr h)]
      · rw [if_neg h, if_pos (not_le.mp h)]
    | eq => exact absurd hs hse
  · intro z
    rw [hr]
    cases hs : c.sense with
    | le =>
      simp only [slackTerm, Cst.slack, Cst.room, hs, sub_pos]
      by_cases h : c.target mode ≤ c.low src
      · rw [if_pos h, if_neg (not_lt.mpr h), if_pos rfl]
      · rw [if_neg h, if_pos (not_le.mp h), if_neg (by simp), if_pos trivial]
    | ge =>
      simp only [slackTerm, Cst.slack, Cst.room, hs, sub_pos]
      by_cases h : c.high src ≤ c.target mode
      · rw [if_pos h, if_neg (not_lt.mpr h), if_pos rfl]
      · rw [if_neg h, if_pos (not_le.mp h), if_neg (by simp), if_neg (by simp)]
    | eq => exact absurd hs hse

theorem getElem?_prefix {α : Type} {l l' : List α} (h : l <+: l') {i : Nat} {a : α} (hi : l[i]? = some a) :
    l'[i]? = some a := by
  obtain ⟨t, rfl⟩ := h
  rw [List.getElem?_append_left (List.getElem?_eq_some_iff.mp hi).1]; exact hi

/-- An inequality. -/
theorem formStep_slack {mode : SlackMode} {src d d' : QP} (hst : Starts src d) (hst' : Starts src d') {c c' : Cst}
    {t : VarType} {nm : String} {r lb ub : ℚ} (hse : c.sense ≠ .eq) (hlb : lb = c.low src) (hub : ub = c.high src)
    (hname : d'.name = d.name)
    (hvars : d'.vars = d.vars ++ slackVars t nm c.sense r lb ub) (hn : c.name ≠ "" → c'.name = c.name)
    (hc : c'.sense = .eq) (hr : c'.rhs = r)
    (hval : ∀ y, c'.val y = c.val y + slackTerm c.sense r lb ub (y d.numVars))
    (ht : (UsesInteger mode c ∧ nm = c.name ++ delim ++ "int_slack" ∧ t = .integer ∧ r = roundRhs c.sense c.rhs) ∨
      (¬ UsesInteger mode c ∧ nm = c.name ++ delim ++ "continuous_slack" ∧ t = .continuous ∧ r = c.rhs)) :
    FormStep mode src d d' c c' := by
  have hsl : ∀ v ∈ slackVars t nm c.sense r lb ub, IsSlack mode c v := by
    intro v hv
    have hv' : v.name = nm ∧ v.vartype = t ∧ v.lb = 0 ∧ 0 < v.ub := by
      unfold slackVars at hv
      cases hs : c.sense with
      | le =>
        rw [hs] at hv
        simp only at hv
        split at hv
        · simp at hv
        · rw [List.mem_singleton] at hv; subst hv; exact ⟨rfl, rfl, rfl, by simp only; linarith⟩
      | ge =>
        rw [hs] at hv
        simp only at hv
        split at hv
        · simp at hv
        · rw [List.mem_singleton] at hv; subst hv; exact ⟨rfl, rfl, rfl, by simp only; linarith⟩
      | eq => exact absurd hs hse
    obtain ⟨a1, a2, a3, a4⟩ := hv'
    refine ⟨hse, ⟨a3, a4⟩, ?_, ?_⟩
    · intro hi
      rcases ht with ⟨_, h2, h3, _⟩ | ⟨h1, _⟩
      · exact ⟨by rw [a1, h2, delim_int], by rw [a2, h3]⟩
      · exact absurd hi h1
    · intro hi
      rcases ht with ⟨h1, _⟩ | ⟨_, h2, h3, _⟩
      · exact absurd h1 hi
      · exact ⟨by rw [a1, h2, delim_cont], by rw [a2, h3]⟩
  obtain ⟨x1, x2, x3⟩ := slackVars_exact (src := src) hse ht
  refine ⟨hst', hname, ⟨_, hvars.symm⟩, ?_, ?_, by rw [hvars, hlb, hub, x2], by rw [hr, x1],
    fun y => by rw [hval, hlb, hub, x3]⟩
  · intro dst hdst
    refine ⟨hn, hc, fun h => absurd h hse, ?_, ?_, ?_, ?_⟩
    · intro hi
      rcases ht with ⟨h1, _⟩ | ⟨_, _, _, h4⟩
      · exact absurd h1 hi
      · rw [hr, h4]
    · intro hi hle
      rcases ht with ⟨_, _, _, h4⟩ | ⟨h1, _⟩
      · rw [hr, h4, hle]; rfl
      · exact absurd hi h1
    · intro hi hge
      rcases ht with ⟨_, _, _, h4⟩ | ⟨h1, _⟩
      · rw [hr, h4, hge, roundRhs_ge]
      · exact absurd hi h1
    · intro _
      have key : ∀ v : Variable, slackVars t nm c.sense r lb ub = [v] →
          (∀ y : Nat → ℚ, slackTerm c.sense r lb ub (y d.numVars) = if c.sense = .le then y d.numVars else -y d.numVars) →
          ∃ (k : Nat) (v : Variable), src.numVars ≤ k ∧ dst.vars[k]? = some v ∧
            IsSlack mode c v ∧ ∀ y, c'.val y = c.val y + if c.sense = .le then y k else -y k := by
        intro v hv hterm
        refine ⟨d.numVars, v, hst.le, ?_, hsl v (by rw [hv]; simp), fun y => by rw [hval, hterm]⟩
        refine getElem?_prefix hdst ?_
        rw [hvars, hv]; simp [QP.numVars]
      cases hs : c.sense with
      | le =>
        by_cases hb : r ≤ lb
        · left; intro y; rw [hval, hs]; simp [slackTerm, hb]
        · right
          have := key ⟨nm, 0, r - lb, t⟩ (by rw [hs]; simp [slackVars, hb]) (fun y => by rw [hs]; simp [slackTerm, hb])
          rwa [hs] at this
      | ge =>
        by_cases hb : ub ≤ r
        · left; intro y; rw [hval, hs]; simp [slackTerm, hb]
        · right
          have := key ⟨nm, 0, ub - r, t⟩ (by rw [hs]; simp [slackVars, hb]) (fun y => by rw [hs]; simp [slackTerm, hb])
          rwa [hs] at this
      | eq => exact absurd hs hse
  · intro k v hk hv
    apply hsl
    rw [hvars, List.getElem?_append_right hk] at hv
    exact List.mem_of_getElem? hv

/-- An equality. -/
theorem formStep_eq {mode : SlackMode} {src d d' : QP} (hst' : Starts src d') {c c' : Cst}
    (hse : c.sense = .eq) (hname : d'.name = d.name) (hvars : d'.vars = d.vars)
    (hn : c.name ≠ "" → c'.name = c.name) (hc : c'.sense = .eq) (hr : c'.rhs = c.rhs) (hval : ∀ y, c'.val y = c.val y) :
    FormStep mode src d d' c c' := by
  have hsl : c.slack mode src = [] := by simp [Cst.slack, Cst.room, hse]
  refine ⟨hst', hname, ⟨[], by rw [hvars]; simp⟩, ?_, ?_, by rw [hvars, hsl]; simp, by rw [hr, Cst.target, hse]; simp,
    fun y => by rw [hval, hsl]; simp⟩
  · intro dst _
    exact ⟨hn, hc, fun _ => ⟨hr, hval⟩, fun _ => hr, fun _ h => by rw [hse] at h; simp at h,
      fun _ h => by rw [hse] at h; simp at h, fun h => absurd hse h⟩
  · intro k v hk hv
    have := (List.getElem?_eq_some_iff.mp hv).1
    rw [hvars] at this
    exact absurd this (not_lt.mpr hk)

theorem chooseName_keeps {ix : Assoc String Nat} {n : Nat} {pre nm nm' : String}
    (h : chooseName ix n pre (some nm) = .ok nm') (hne : nm ≠ "") : nm' = nm := by
  simp only [chooseName, if_neg hne] at h
  split at h
  · simp at h
  · exact (Except.ok.inj h).symm

theorem linPart_form {mode : SlackMode} {src d d1 d2 : QP} (hs : src.WF) (hst : Starts src d) {k : LinCst}
    (hk : k.linear.Fits src.numVars) {t : VarType} {sn : String} {r lb ub : ℚ} {o : Option (String × ℚ)}
    (hse : k.sense ≠ .eq) (hlb : lb = (Cst.lin k).low src) (hub : ub = (Cst.lin k).high src)
    (hsl : slackVar d t sn k.sense r lb ub = .ok (o, d1)) {c : LinCst}
    (hc : d1.linearConstraint (linNames (withSlack (k.linear.toDictNames src.vars) o)) (.str "==") r (some k.name) =
      (.ok c, d2))
    (ht : (UsesInteger mode (.lin k) ∧ sn = k.name ++ delim ++ "int_slack" ∧ t = .integer ∧ r = roundRhs k.sense k.rhs) ∨
      (¬ UsesInteger mode (.lin k) ∧ sn = k.name ++ delim ++ "continuous_slack" ∧ t = .continuous ∧ r = k.rhs)) :
    FormStep mode src d d2 (.lin k) (.lin c) ∧ d2.lins = d.lins ++ [c] ∧ d2.quads = d.quads := by
  obtain ⟨a1, a2, a3, a4, a5, a6⟩ := (slackVar_ok hst.wf.cons hsl).spec hst hs.cons
    (fun a ha => toDictNames_keys hk ha) (toDictNames_nodup hs.cons hk)
  have hst1 := hst.grows a2
  obtain ⟨le, e1, e2, e3, e4⟩ := linNames_spec hst1.wf.cons a3 a4
  have hwf2 := linearConstraint_wf hc hst1.wf trivial
  obtain ⟨nm', le', s', h1, h2, h3, rfl, rfl⟩ := linearConstraint_ok hc
  rw [e1, Except.ok.injEq] at h3
  subst h3
  rw [eqeq_convert, Except.ok.injEq] at h2
  subst h2
  refine ⟨formStep_slack (c := .lin k) (c' := .lin ⟨nm', le, .eq, r⟩) (t := t) (nm := sn) (r := r) (lb := lb) (ub := ub)
    hst ⟨hwf2, hst1.vars⟩ hse hlb hub a2.name a2.vars (fun hne => chooseName_keeps h1 hne) rfl rfl ?_ ht, ?_, ?_⟩
  · intro y
    show le.val y = k.linear.val y + _
    rw [e4, a6, sum_toDictNames hs.cons hk]; rfl
  · show d1.lins ++ _ = _
    rw [a2.lins]
  · exact a2.quads

theorem quadPart_form {mode : SlackMode} {src d d1 d2 : QP} (hs : src.WF) (hst : Starts src d) {k : QuadCst}
    (hk : k.linear.Fits src.numVars) (hq : k.quadratic.Fits src.numVars) {t : VarType} {sn : String} {r lb ub : ℚ}
    {o : Option (String × ℚ)}
    (hse : k.sense ≠ .eq) (hlb : lb = (Cst.quad k).low src) (hub : ub = (Cst.quad k).high src)
    (hsl : slackVar d t sn k.sense r lb ub = .ok (o, d1)) {c : QuadCst}
    (hc : d1.quadraticConstraint (linNames (withSlack (k.linear.toDictNames src.vars) o))
      (quadNames (k.quadratic.toDictNames src.vars)) (.str "==") r (some k.name) = (.ok c, d2))
    (ht : (UsesInteger mode (.quad k) ∧ sn = k.name ++ delim ++ "int_slack" ∧ t = .integer ∧ r = roundRhs k.sense k.rhs) ∨
      (¬ UsesInteger mode (.quad k) ∧ sn = k.name ++ delim ++ "continuous_slack" ∧ t = .continuous ∧ r = k.rhs)) :
    FormStep mode src d d2 (.quad k) (.quad c) ∧ d2.quads = d.quads ++ [c] ∧ d2.lins = d.lins := by
  obtain ⟨a1, a2, a3, a4, a5, a6⟩ := (slackVar_ok hst.wf.cons hsl).spec hst hs.cons
    (fun a ha => toDictNames_keys hk ha) (toDictNames_nodup hs.cons hk)
  have hst1 := hst.grows a2
  obtain ⟨le, e1, e2, e3, e4⟩ := linNames_spec hst1.wf.cons a3 a4
  obtain ⟨qe, f1, f2, f3, f4⟩ := quadNames_spec hst1.wf.cons (toDictNames_nodup2 hs.cons hq)
    (fun a ha => ⟨hst1.names (toDictNames_keys2 hq ha).1, hst1.names (toDictNames_keys2 hq ha).2⟩)
  have hwf2 := quadraticConstraint_wf hc hst1.wf trivial trivial
  obtain ⟨nm', le', qe', s', h1, h2, h3, h4, rfl, rfl⟩ := quadraticConstraint_ok hc
  rw [e1, Except.ok.injEq] at h3
  subst h3
  rw [f1, Except.ok.injEq] at h4
  subst h4
  rw [eqeq_convert, Except.ok.injEq] at h2
  subst h2
  refine ⟨formStep_slack (c := .quad k) (c' := .quad ⟨nm', le, qe, .eq, r⟩) (t := t) (nm := sn) (r := r) (lb := lb)
    (ub := ub) hst ⟨hwf2, hst1.vars⟩ hse hlb hub a2.name a2.vars (fun hne => chooseName_keeps h1 hne) rfl rfl ?_ ht, ?_, ?_⟩
  · intro y
    show le.val y + qe.val y = k.linear.val y + k.quadratic.val y + _
    rw [e4, a6, sum_toDictNames hs.cons hk, f4, quadSum_starts hs hst1 hq]
    show _ = _ + slackTerm k.sense r lb ub (y d.numVars)
    ring
  · show d1.quads ++ _ = _
    rw [a2.quads]
  · exact a2.lins

theorem usesInteger_lin {mode : SlackMode} {src : QP} {k : LinCst}
    (h : anyFloat (k.linear.toDictNames src.vars).values = false) (hm : mode ≠ .continuous) :
    UsesInteger mode (.lin k) := by
  refine ⟨hm, ?_⟩
  rw [anyFloat_false, toDictNames_values] at h
  exact fun q hq => h q.2 (List.mem_map_of_mem hq)

theorem not_usesInteger_lin {mode : SlackMode} {src : QP} {k : LinCst}
    (h : mode = .continuous ∨ anyFloat (k.linear.toDictNames src.vars).values = true) :
    ¬ UsesInteger mode (.lin k) := by
  rintro ⟨hm, hi⟩
  rcases h with h | h
  · exact hm h
  · have : anyFloat (k.linear.toDictNames src.vars).values = false := by
      rw [anyFloat_false, toDictNames_values]
      intro v hv
      obtain ⟨q, hq, rfl⟩ := List.mem_map.mp hv
      exact hi q hq
    rw [this] at h; simp at h

theorem usesInteger_quad {mode : SlackMode} {src : QP} {k : QuadCst}
    (h : (anyFloat (k.linear.toDictNames src.vars).values || anyFloat (k.quadratic.toDictNames src.vars).values) = false)
    (hm : mode ≠ .continuous) : UsesInteger mode (.quad k) := by
  refine ⟨hm, ?_⟩
  rw [Bool.or_eq_false_iff, anyFloat_false, anyFloat_false, toDictNames_values, toDictNames_values2] at h
  exact ⟨fun q hq => h.1 q.2 (List.mem_map_of_mem hq), fun q hq => h.2 q.2 (List.mem_map_of_mem hq)⟩

theorem not_usesInteger_quad {mode : SlackMode} {src : QP} {k : QuadCst}
    (h : mode = .continuous ∨
      (anyFloat (k.linear.toDictNames src.vars).values || anyFloat (k.quadratic.toDictNames src.vars).values) = true) :
    ¬ UsesInteger mode (.quad k) := by
  rintro ⟨hm, hi⟩
  rcases h with h | h
  · exact hm h
  · have : (anyFloat (k.linear.toDictNames src.vars).values ||
        anyFloat (k.quadratic.toDictNames src.vars).values) = false := by
      rw [Bool.or_eq_false_iff, anyFloat_false, anyFloat_false, toDictNames_values, toDictNames_values2]
      constructor
      · intro v hv
        obtain ⟨q, hq, rfl⟩ := List.mem_map.mp hv
        exact hi.1 q hq
      · intro v hv
        obtain ⟨q, hq, rfl⟩ := List.mem_map.mp hv
        exact hi.2 q hq
    rw [this] at h; simp at h

theorem i2eLinOne_form {mode : SlackMode} {src d d' : QP} (hs : src.WF) (hst : Starts src d) {k : LinCst}
    (hk : k.linear.Fits src.numVars) (h : i2eLinOne mode src d k = .ok d') :
    ∃ c, FormStep mode src d d' (.lin k) (.lin c) ∧ d'.lins = d.lins ++ [c] ∧ d'.quads = d.quads := by
  have hint : k.sense ≠ .eq → mode ≠ .continuous →
      intSlackLin src d (k.linear.toDictNames src.vars) k.sense k.rhs k.name = .ok d' →
      ∃ c, FormStep mode src d d' (.lin k) (.lin c) ∧ d'.lins = d.lins ++ [c] ∧ d'.quads = d.quads := by
    intro hse hm h
    unfold intSlackLin at h
    split at h
    · simp at h
    · rename_i hfl
      simp only [linBounds_exact hs.cons hk] at h
      split at h
      · simp at h
      · rename_i hsl
        split at h
        · simp at h
        · rename_i c d2 hc
          simp only [Except.ok.injEq] at h
          subst h
          exact ⟨c, linPart_form hs hst hk hse rfl rfl hsl hc (Or.inl ⟨usesInteger_lin (by simpa using hfl) hm, rfl, rfl, rfl⟩)⟩
  have hcont : k.sense ≠ .eq → (mode = .continuous ∨ anyFloat (k.linear.toDictNames src.vars).values = true) →
      contSlackLin src d (k.linear.toDictNames src.vars) k.sense k.rhs k.name = .ok d' →
      ∃ c, FormStep mode src d d' (.lin k) (.lin c) ∧ d'.lins = d.lins ++ [c] ∧ d'.quads = d.quads := by
    intro hse hm h
    unfold contSlackLin at h
    simp only [linBounds_exact hs.cons hk] at h
    split at h
    · simp at h
    · rename_i hsl
      split at h
      · simp at h
      · rename_i c d2 hc
        simp only [Except.ok.injEq] at h
        subst h
        exact ⟨c, linPart_form hs hst hk hse rfl rfl hsl hc (Or.inr ⟨not_usesInteger_lin hm, rfl, rfl, rfl⟩)⟩
  have hno : k.sense ≠ .eq → (match mode with
      | .integer => intSlackLin src d (k.linear.toDictNames src.vars) k.sense k.rhs k.name
      | .continuous => contSlackLin src d (k.linear.toDictNames src.vars) k.sense k.rhs k.name
      | .auto => autoSlackLin src d (k.linear.toDictNames src.vars) k.sense k.rhs k.name
      | .other => .error .optimization) = .ok d' →
      ∃ c, FormStep mode src d d' (.lin k) (.lin c) ∧ d'.lins = d.lins ++ [c] ∧ d'.quads = d.quads := by
    intro hse h
    cases mode with
    | integer => exact hint hse (by simp) h
    | continuous => exact hcont hse (Or.inl rfl) h
    | auto =>
      simp only [autoSlackLin] at h
      split at h
      · rename_i hfl; exact hcont hse (Or.inr hfl) h
      · exact hint hse (by simp) h
    | other => simp at h
  unfold i2eLinOne at h
  simp only at h
  cases hse : k.sense with
  | eq =>
    rw [hse] at h
    simp only at h
    split at h
    · simp at h
    · rename_i c d2 hc
      simp only [Except.ok.injEq] at h
      subst h
      obtain ⟨le, e1, e2, e3, e4⟩ := linNames_spec hst.wf.cons (toDictNames_nodup hs.cons hk)
        (fun a ha => hst.names (toDictNames_keys hk ha))
      have hwf2 := linearConstraint_wf hc hst.wf trivial
      obtain ⟨nm', le', s', h1, h2, h3, rfl, rfl⟩ := linearConstraint_ok hc
      rw [e1, Except.ok.injEq] at h3
      subst h3
      simp only [Sense.convert, Except.ok.injEq] at h2
      subst h2
      refine ⟨⟨nm', le, .eq, k.rhs⟩, formStep_eq ⟨hwf2, hst.vars⟩ hse rfl rfl (fun hne => chooseName_keeps h1 hne) rfl rfl ?_,
        rfl, rfl⟩
      intro y
      show le.val y = k.linear.val y
      rw [e4, linSum_starts hs hst hk]
  | le => rw [hse] at hno h; exact hno (by simp) h
  | ge => rw [hse] at hno h; exact hno (by simp) h

theorem i2eQuadOne_form {mode : SlackMode} {src d d' : QP} (hs : src.WF) (hst : Starts src d) {k : QuadCst}
    (hk : k.linear.Fits src.numVars) (hq : k.quadratic.Fits src.numVars) (h : i2eQuadOne mode src d k = .ok d') :
    ∃ c, FormStep mode src d d' (.quad k) (.quad c) ∧ d'.quads = d.quads ++ [c] ∧ d'.lins = d.lins := by
  have hint : k.sense ≠ .eq → mode ≠ .continuous →
      intSlackQuad src d (k.linear.toDictNames src.vars) (k.quadratic.toDictNames src.vars) k.sense k.rhs k.name = .ok d' →
      ∃ c, FormStep mode src d d' (.quad k) (.quad c) ∧ d'.quads = d.quads ++ [c] ∧ d'.lins = d.lins := by
    intro hse hm h
    unfold intSlackQuad at h
    split at h
    · simp at h
    · rename_i hfl
      simp only [quadBounds_exact hs.cons hk hq] at h
      split at h
      · simp at h
      · rename_i hsl
        split at h
        · simp at h
        · rename_i c d2 hc
          simp only [Except.ok.injEq] at h
          subst h
          exact ⟨c, quadPart_form hs hst hk hq hse rfl rfl hsl hc
              (Or.inl ⟨usesInteger_quad (by rw [Bool.not_eq_true] at hfl; exact hfl) hm, rfl, rfl, rfl⟩)⟩
  have hcont : k.sense ≠ .eq → (mode = .continuous ∨ (anyFloat (k.linear.toDictNames src.vars).values ||
        anyFloat (k.quadratic.toDictNames src.vars).values) = true) →
      contSlackQuad src d (k.linear.toDictNames src.vars) (k.quadratic.toDictNames src.vars) k.sense k.rhs k.name = .ok d' →
      ∃ c, FormStep mode src d d' (.quad k) (.quad c) ∧ d'.quads = d.quads ++ [c] ∧ d'.lins = d.lins := by
    intro hse hm h
    unfold contSlackQuad at h
    simp only [quadBounds_exact hs.cons hk hq] at h
    split at h
    · simp at h
    · rename_i hsl
      split at h
      · simp at h
      · rename_i c d2 hc
        simp only [Except.ok.injEq] at h
        subst h
        exact ⟨c, quadPart_form hs hst hk hq hse rfl rfl hsl hc (Or.inr ⟨not_usesInteger_quad hm, rfl, rfl, rfl⟩)⟩
  have hno : k.sense ≠ .eq → (match mode with
      | .integer => intSlackQuad src d (k.linear.toDictNames src.vars) (k.quadratic.toDictNames src.vars) k.sense k.rhs
          k.name
      | .continuous => contSlackQuad src d (k.linear.toDictNames src.vars) (k.quadratic.toDictNames src.vars) k.sense
          k.rhs k.name
      | .auto => autoSlackQuad src d (k.linear.toDictNames src.vars) (k.quadratic.toDictNames src.vars) k.sense k.rhs
          k.name
      | .other => .error .optimization) = .ok d' →
      ∃ c, FormStep mode src d d' (.quad k) (.quad c) ∧ d'.quads = d.quads ++ [c] ∧ d'.lins = d.lins := by
    intro hse h
    cases mode with
    | integer => exact hint hse (by simp) h
    | continuous => exact hcont hse (Or.inl rfl) h
    | auto =>
      simp only [autoSlackQuad] at h
      split at h
      · rename_i hfl; exact hcont hse (Or.inr hfl) h
      · exact hint hse (by simp) h
    | other => simp at h
  unfold i2eQuadOne at h
  simp only at h
  cases hse : k.sense with
  | eq =>
    rw [hse] at h
    simp only at h
    split at h
    · simp at h
    · rename_i c d2 hc
      simp only [Except.ok.injEq] at h
      subst h
      obtain ⟨le, e1, e2, e3, e4⟩ := linNames_spec hst.wf.cons (toDictNames_nodup hs.cons hk)
        (fun a ha => hst.names (toDictNames_keys hk ha))
      obtain ⟨qe, f1, f2, f3, f4⟩ := quadNames_spec hst.wf.cons (toDictNames_nodup2 hs.cons hq)
        (fun a ha => ⟨hst.names (toDictNames_keys2 hq ha).1, hst.names (toDictNames_keys2 hq ha).2⟩)
      have hwf2 := quadraticConstraint_wf hc hst.wf trivial trivial
      obtain ⟨nm', le', qe', s', h1, h2, h3, h4, rfl, rfl⟩ := quadraticConstraint_ok hc
      rw [e1, Except.ok.injEq] at h3
      subst h3
      rw [f1, Except.ok.injEq] at h4
      subst h4
      simp only [Sense.convert, Except.ok.injEq] at h2
      subst h2
      refine ⟨⟨nm', le, qe, .eq, k.rhs⟩, formStep_eq ⟨hwf2, hst.vars⟩ hse rfl rfl (fun hne => chooseName_keeps h1 hne) rfl
        rfl ?_, rfl, rfl⟩
      intro y
      show le.val y + qe.val y = k.linear.val y + k.quadratic.val y
      rw [e4, linSum_starts hs hst hk, f4, quadSum_starts hs hst hq]
  | le => rw [hse] at hno h; exact hno (by simp) h
  | ge => rw [hse] at hno h; exact hno (by simp) h

/-- What several constraints do. -/
structure FormSteps (mode : SlackMode) (src d d' : QP) (cs cs' : List Cst) : Prop where
  starts : Starts src d'
  name : d'.name = d.name
  vars : d.vars <+: d'.vars
  form : ∀ dst : QP, d'.vars <+: dst.vars → List.Forall₂ (SlackForm mode src dst) cs cs'
  slack : ∀ (k : Nat) (v : Variable), d.numVars ≤ k → d'.vars[k]? = some v → ∃ c ∈ cs, IsSlack mode c v
  added : d'.vars = d.vars ++ cs.flatMap (Cst.slack mode src)
  exact : ∀ dst : QP, dst.Consistent → d'.vars <+: dst.vars → List.Forall₂ (ExactForm mode src dst) cs cs'

theorem FormStep.exactForm {mode : SlackMode} {src d d' : QP} {c c' : Cst} (h : FormStep mode src d d' c c') {dst : QP}
    (hd : dst.Consistent) (hp : d'.vars <+: dst.vars) : ExactForm mode src dst c c' := by
  refine ⟨(h.form dst hp).name, (h.form dst hp).sense, h.rhs, ?_, ?_⟩
  · intro he y
    rw [h.lhs, if_pos he, add_zero]
  · intro k v hv hk y
    have hv' : v ∈ c.slack mode src := by rw [hv]; exact List.mem_singleton_self _
    have hat : dst.vars[d.numVars]? = some v := by
      refine getElem?_prefix hp ?_
      rw [h.added, hv]; simp [QP.numVars]
    have hkd : k = d.numVars := by
      obtain ⟨a1, b1⟩ := List.getElem?_eq_some_iff.mp hk
      obtain ⟨a2, b2⟩ := List.getElem?_eq_some_iff.mp hat
      have hnd := hd.vars.2
      refine (List.Nodup.getElem_inj_iff (i := k) (j := d.numVars) hnd (hi := by simpa using a1)
        (hj := by simpa using a2)).mp ?_
      simp [b1, b2]
    rw [h.lhs, if_neg (by rw [hv]; simp), hkd]

theorem FormSteps.nil {mode : SlackMode} {src d : QP} (h : Starts src d) : FormSteps mode src d d [] [] := by
  refine ⟨h, rfl, List.prefix_refl _, fun _ _ => .nil, ?_, by simp, fun _ _ _ => .nil⟩
  intro k v hk hv
  exact absurd (List.getElem?_eq_some_iff.mp hv).1 (not_lt.mpr hk)

theorem FormStep.cons {mode : SlackMode} {src d d1 d' : QP} {c c' : Cst} {cs cs' : List Cst}
    (h : FormStep mode src d d1 c c') (h' : FormSteps mode src d1 d' cs cs') :
    FormSteps mode src d d' (c :: cs) (c' :: cs') := by
  refine ⟨h'.starts, h'.name.trans h.name, h.vars.trans h'.vars, ?_, ?_, ?_, ?_⟩
  · intro dst hd
    exact .cons (h.form dst (h'.vars.trans hd)) (h'.form dst hd)
  · intro k v hk hv
    by_cases hk1 : d1.numVars ≤ k
    · obtain ⟨c, hc, hs⟩ := h'.slack k v hk1 hv
      exact ⟨c, List.mem_cons_of_mem _ hc, hs⟩
    · refine ⟨c, List.mem_cons_self, h.slack k v hk ?_⟩
      have hlt : k < d1.vars.length := not_le.mp hk1
      have h1 := getElem?_prefix h'.vars (List.getElem?_eq_getElem hlt)
      rw [h1, Option.some.injEq] at hv
      rw [List.getElem?_eq_getElem hlt, hv]
  · rw [h'.added, h.added]; simp
  · intro dst hc hd
    exact .cons (h.exactForm hc (h'.vars.trans hd)) (h'.exact dst hc hd)

theorem i2eLins_form {mode : SlackMode} {src d d' : QP} (hs : src.WF) (hst : Starts src d) (ks : List LinCst)
    (hk : ∀ k ∈ ks, k.linear.Fits src.numVars) (h : i2eLins mode src ks d = .ok d') :
    ∃ new, FormSteps mode src d d' (ks.map .lin) (new.map .lin) ∧ d'.lins = d.lins ++ new ∧ d'.quads = d.quads := by
  induction ks generalizing d with
  | nil =>
    simp only [i2eLins, Except.ok.injEq] at h
    subst h
    exact ⟨[], FormSteps.nil hst, by simp, rfl⟩
  | cons k ks ih =>
    rw [List.forall_mem_cons] at hk
    simp only [i2eLins] at h
    split at h
    · simp at h
    · rename_i d1 h1
      obtain ⟨c, a1, a2, a3⟩ := i2eLinOne_form hs hst hk.1 h1
      obtain ⟨new, b1, b2, b3⟩ := ih a1.starts hk.2 h
      exact ⟨c :: new, a1.cons b1, by rw [b2, a2]; simp, b3.trans a3⟩

theorem i2eQuads_form {mode : SlackMode} {src d d' : QP} (hs : src.WF) (hst : Starts src d) (ks : List QuadCst)
    (hk : ∀ k ∈ ks, k.linear.Fits src.numVars ∧ k.quadratic.Fits src.numVars) (h : i2eQuads mode src ks d = .ok d') :
    ∃ new, FormSteps mode src d d' (ks.map .quad) (new.map .quad) ∧ d'.quads = d.quads ++ new ∧ d'.lins = d.lins := by
  induction ks generalizing d with
  | nil =>
    simp only [i2eQuads, Except.ok.injEq] at h
    subst h
    exact ⟨[], FormSteps.nil hst, by simp, rfl⟩
  | cons k ks ih =>
    rw [List.forall_mem_cons] at hk
    simp only [i2eQuads] at h
    split at h
    · simp at h
    · rename_i d1 h1
      obtain ⟨c, a1, a2, a3⟩ := i2eQuadOne_form hs hst hk.1.1 hk.1.2 h1
      obtain ⟨new, b1, b2, b3⟩ := ih a1.starts hk.2 h
      exact ⟨c :: new, a1.cons b1, by rw [b2, a2]; simp, b3.trans a3⟩

theorem ineqToEq_form {mode : SlackMode} {src dst : QP} (hs : src.WF) (h : src.ineqToEq mode = .ok dst) :
    dst.WF ∧ dst.vars = src.vars.map plainVar ++ src.allCsts.flatMap (Cst.slack mode src) ∧
    List.Forall₂ (ExactForm mode src dst) (src.lins.map .lin) (dst.lins.map .lin) ∧
    List.Forall₂ (ExactForm mode src dst) (src.quads.map .quad) (dst.quads.map .quad) := by
  unfold QP.ineqToEq at h
  split at h
  · simp at h
  · rename_i d0 h0
    have hg := copyAllVars_grows h0
    have hst0 : Starts src d0 := ⟨hg.wf (QP.empty_wf src.name), [], by simpa [QP.empty] using hg.vars⟩
    have hv0 : d0.vars = src.vars.map plainVar := by simpa [QP.empty] using hg.vars
    split at h
    · simp at h
    · rename_i u d1 h1
      have hwf1 := setObjective_wf h1 hst0.wf trivial trivial
      obtain ⟨le, qe, e1, e2, rfl⟩ := setObjective_ok h1
      have hst1 : Starts src { d0 with objective := ⟨src.objective.constant, le, qe, src.objective.sense⟩ } :=
        ⟨hwf1, [], by simpa using hv0⟩
      split at h
      · simp at h
      · rename_i d2 h2
        obtain ⟨newl, a1, a2, a3⟩ := i2eLins_form hs hst1 src.lins hs.lins h2
        obtain ⟨newq, b1, b2, b3⟩ := i2eQuads_form hs a1.starts src.quads hs.quads h
        have hl0 : d0.lins = [] := by rw [hg.lins]; rfl
        have hq0 : d0.quads = [] := by rw [hg.quads]; rfl
        have hlins : dst.lins = newl := by rw [b3, a2]; show d0.lins ++ newl = newl; rw [hl0]; rfl
        have hquads : dst.quads = newq := by rw [b2, a3]; show d0.quads ++ newq = newq; rw [hq0]; rfl
        have hwf := b1.starts.wf
        refine ⟨hwf, ?_, by rw [hlins]; exact a1.exact dst hwf.cons b1.vars,
          by rw [hquads]; exact b1.exact dst hwf.cons (List.prefix_refl _)⟩
        have hav : d2.vars = d0.vars ++ (src.lins.map Cst.lin).flatMap (Cst.slack mode src) := a1.added
        rw [b1.added, hav, hv0]
        unfold QP.allCsts
        rw [List.flatMap_append, List.append_assoc]

/-- **C17, C18** (exact form): the variables are those of the program and one slack variable for each inequality that has
room for one, in the order of the constraints, each with the upper bound `Cst.room`: the distance of the (rounded)
right-hand side from the sum of the least (greatest) values of the terms of the left-hand side.  The right-hand side is
rounded exactly if the mode is not `continuous` and all coefficients are integers, and the slack variable is added for `≤`
and subtracted for `≥`. -/
theorem C17_exact (mode : SlackMode) (src dst : QP) (hs : src.WF) (h : src.ineqToEq mode = .ok dst) :
    dst.vars = src.vars.map (fun v => if v.vartype = .binary then ⟨v.name, 0, 1, .binary⟩ else v) ++
      src.allCsts.flatMap (Cst.slack mode src) ∧
    List.Forall₂ (ExactForm mode src dst) (src.lins.map .lin) (dst.lins.map .lin) ∧
    List.Forall₂ (ExactForm mode src dst) (src.quads.map .quad) (dst.quads.map .quad) :=
  (ineqToEq_form hs h).2

example : slackQP.WF ∧ slackQP.ineqToEq .auto = .ok slackDst ∧
    slackDst.vars = slackQP.vars ++ slackQP.allCsts.flatMap (Cst.slack .auto slackQP) ∧
    (slackQP.allCsts.map (Cst.slack .auto slackQP)).map (List.map fun v => (v.name, v.ub)) =
      [[("c@int_slack", 6)], [("r@int_slack", 9)], [("q@int_slack", 9)]] := by
  decide +kernel

/-- **C17, C18** (form): whatever the mode, the result has the name of the program, its linear constraints one by one as
linear equalities and its quadratic constraints one by one as quadratic equalities, each with its name and its left-hand
side plus or minus a slack variable of its own (or none, if the bounds leave no room); right-hand sides are rounded for
integer slack variables only.  Variables of the program keep their place (binary ones get the bounds zero and one).
All variables behind those of the program are slack variables of inequalities; they are
integers exactly if the mode is not `continuous` and the coefficients are integers. -/
theorem C17_form (mode : SlackMode) (src dst : QP) (hs : src.WF) (h : src.ineqToEq mode = .ok dst) :
    dst.name = src.name ∧
    List.Forall₂ (SlackForm mode src dst) (src.lins.map .lin) (dst.lins.map .lin) ∧
    List.Forall₂ (SlackForm mode src dst) (src.quads.map .quad) (dst.quads.map .quad) ∧
    (∀ (k : Nat) (v : Variable), src.vars[k]? = some v →
      dst.vars[k]? = some (if v.vartype = .binary then ⟨v.name, 0, 1, .binary⟩ else v)) ∧
    ∀ (k : Nat) (v : Variable), src.numVars ≤ k → dst.vars[k]? = some v → ∃ c ∈ src.allCsts, IsSlack mode c v := by
  unfold QP.ineqToEq at h
  split at h
  · simp at h
  · rename_i d0 h0
    have hg := copyAllVars_grows h0
    have hst0 : Starts src d0 := ⟨hg.wf (QP.empty_wf src.name), [], by simpa [QP.empty] using hg.vars⟩
    have hv0 : d0.vars = src.vars.map plainVar := by simpa [QP.empty] using hg.vars
    split at h
    · simp at h
    · rename_i u d1 h1
      have hwf1 := setObjective_wf h1 hst0.wf trivial trivial
      obtain ⟨le, qe, e1, e2, rfl⟩ := setObjective_ok h1
      have hst1 : Starts src { d0 with objective := ⟨src.objective.constant, le, qe, src.objective.sense⟩ } :=
        ⟨hwf1, [], by simpa using hv0⟩
      split at h
      · simp at h
      · rename_i d2 h2
        obtain ⟨newl, a1, a2, a3⟩ := i2eLins_form hs hst1 src.lins hs.lins h2
        obtain ⟨newq, b1, b2, b3⟩ := i2eQuads_form hs a1.starts src.quads hs.quads h
        have hl0 : d0.lins = [] := by rw [hg.lins]; rfl
        have hq0 : d0.quads = [] := by rw [hg.quads]; rfl
        have hlins : dst.lins = newl := by rw [b3, a2]; show d0.lins ++ newl = newl; rw [hl0]; rfl
        have hquads : dst.quads = newq := by rw [b2, a3]; show d0.quads ++ newq = newq; rw [hq0]; rfl
        refine ⟨?_, ?_, ?_, ?_, ?_⟩
        · rw [b1.name, a1.name]; exact hg.name
        · rw [hlins]; exact a1.form dst b1.vars
        · rw [hquads]; exact b1.form dst (List.prefix_refl _)
        · intro k v hv
          refine getElem?_prefix (a1.vars.trans b1.vars) ?_
          show d0.vars[k]? = _
          rw [hv0, List.getElem?_map, hv]
          rfl
        · intro k v hk hv
          by_cases hk2 : d2.numVars ≤ k
          · obtain ⟨c, hc, hsl⟩ := b1.slack k v hk2 hv
            exact ⟨c, List.mem_append_right _ hc, hsl⟩
          · have hlt : k < d2.vars.length := not_le.mp hk2
            have h1' := getElem?_prefix b1.vars (List.getElem?_eq_getElem hlt)
            rw [h1', Option.some.injEq] at hv
            have hn : ({ d0 with objective := ⟨src.objective.constant, le, qe, src.objective.sense⟩ } : QP).numVars ≤ k := by
              show d0.vars.length ≤ k
              rw [hv0, List.length_map]; exact hk
            obtain ⟨c, hc, hsl⟩ := a1.slack k v hn (by rw [List.getElem?_eq_getElem hlt, hv])
            exact ⟨c, List.mem_append_left _ hc, hsl⟩

example : slackQP.WF ∧ slackQP.ineqToEq .auto = .ok slackDst ∧ UsesInteger .auto (.lin ⟨"c", ⟨2, [(0, 2), (1, -1)]⟩, .le, 7 / 2⟩) ∧
    slackQP.lins.map (fun c => (c.name, c.linear.coeffs, c.sense, c.rhs)) =
      [("c", [(0, 2), (1, -1)], .le, 7 / 2), ("r", [(0, 1), (1, 1)], .ge, -5)] ∧
    slackDst.lins.map (fun c => (c.name, c.linear.coeffs, c.sense, c.rhs)) =
      [("c", [(0, 2), (1, -1), (2, 1)], .eq, 3), ("r", [(0, 1), (1, 1), (3, -1)], .eq, -5)] := by
  refine ⟨by decide +kernel, by decide +kernel, ⟨by simp, ?_⟩, by decide +kernel, by decide +kernel⟩
  intro q hq
  simp only [List.mem_cons, List.not_mem_nil, or_false] at hq
  rcases hq with rfl | rfl
  · exact ⟨2, by norm_num⟩
  · exact ⟨-1, by norm_num⟩

end Verif

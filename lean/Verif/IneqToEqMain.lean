import Verif.IneqToEqLemmas

/-!
# Helper lemmas: the whole conversion of inequalities to equalities
-/

namespace Verif

/-! ## Integrality -/

theorem den_one_iff (q : ℚ) : q.den = 1 ↔ ∃ z : Int, q = z := by
  constructor
  · intro h; exact ⟨q.num, (Rat.coe_int_num_of_den_eq_one h).symm⟩
  · rintro ⟨z, rfl⟩; exact Rat.den_intCast z

theorem isInt_add {a b : ℚ} (ha : ∃ z : Int, a = z) (hb : ∃ z : Int, b = z) : ∃ z : Int, a + b = z := by
  obtain ⟨z, rfl⟩ := ha; obtain ⟨w, rfl⟩ := hb; exact ⟨z + w, by push_cast; rfl⟩

theorem isInt_sub {a b : ℚ} (ha : ∃ z : Int, a = z) (hb : ∃ z : Int, b = z) : ∃ z : Int, a - b = z := by
  obtain ⟨z, rfl⟩ := ha; obtain ⟨w, rfl⟩ := hb; exact ⟨z - w, by push_cast; rfl⟩

theorem isInt_mul {a b : ℚ} (ha : ∃ z : Int, a = z) (hb : ∃ z : Int, b = z) : ∃ z : Int, a * b = z := by
  obtain ⟨z, rfl⟩ := ha; obtain ⟨w, rfl⟩ := hb; exact ⟨z * w, by push_cast; rfl⟩

theorem isInt_min {a b : ℚ} (ha : ∃ z : Int, a = z) (hb : ∃ z : Int, b = z) : ∃ z : Int, min a b = z := by
  rcases min_choice a b with h | h <;> rw [h] <;> assumption

theorem isInt_max {a b : ℚ} (ha : ∃ z : Int, a = z) (hb : ∃ z : Int, b = z) : ∃ z : Int, max a b = z := by
  rcases max_choice a b with h | h <;> rw [h] <;> assumption

theorem Dict.sum_int {κ : Type} [DecidableEq κ] (d : Dict κ) (f : κ → ℚ)
    (h : ∀ p ∈ d, (∃ z : Int, p.2 = z) ∧ ∃ z : Int, f p.1 = z) : ∃ z : Int, Dict.sum d f = z := by
  induction d with
  | nil => exact ⟨0, by simp⟩
  | cons p d ih =>
    rw [List.forall_mem_cons] at h
    rw [Dict.sum_cons]
    exact isInt_add (isInt_mul h.1.1 h.1.2) (ih h.2)

theorem roundRhs_int {s : Sense} (h : s ≠ .eq) (r : ℚ) : ∃ z : Int, roundRhs s r = z := by
  cases s with
  | le => exact ⟨_, rfl⟩
  | ge => exact ⟨_, rfl⟩
  | eq => exact absurd rfl h

theorem roundRhs_rel {s : Sense} {a r : ℚ} (ha : ∃ z : Int, a = z) : s.rel a (roundRhs s r) ↔ s.rel a r := by
  obtain ⟨z, rfl⟩ := ha
  cases s with
  | le => simp only [Sense.rel, roundRhs, Int.cast_le]; exact Rat.le_floor_iff
  | ge => simp only [Sense.rel, roundRhs, Int.cast_le]; exact Rat.ceil_le_iff
  | eq => rfl

theorem anyFloat_false {l : List ℚ} : anyFloat l = false ↔ ∀ v ∈ l, ∃ z : Int, v = z := by
  simp only [anyFloat, List.any_eq_false, decide_eq_true_eq, not_not, den_one_iff]

theorem calcLinBounds_int {src : QP} (hs : src.Consistent) (hv : ∀ v ∈ src.vars, (∃ z : Int, v.lb = z) ∧ ∃ z : Int, v.ub = z)
    {l : Dict String} (hl : ∀ p ∈ l, ∃ z : Int, p.2 = z) {a b lb ub : ℚ}
    (h : calcLinBounds src l (a, b) = .ok (lb, ub)) (ha : ∃ z : Int, a = z) (hb : ∃ z : Int, b = z) :
    (∃ z : Int, lb = z) ∧ ∃ z : Int, ub = z := by
  induction l generalizing a b with
  | nil => simp only [calcLinBounds, Except.ok.injEq, Prod.mk.injEq] at h; obtain ⟨rfl, rfl⟩ := h; exact ⟨ha, hb⟩
  | cons p l ih =>
    obtain ⟨s, v⟩ := p
    rw [List.forall_mem_cons] at hl
    simp only [calcLinBounds] at h
    split at h
    · simp at h
    · rename_i w hw
      obtain ⟨i, hd, hi⟩ := (getVariable_iff hs _ _).mp hw
      obtain ⟨v1, v2⟩ := hv w (List.mem_of_getElem? hi)
      exact ih hl.2 h (isInt_add ha (isInt_min (isInt_mul v1 hl.1) (isInt_mul v2 hl.1)))
        (isInt_add hb (isInt_max (isInt_mul v1 hl.1) (isInt_mul v2 hl.1)))

theorem toDictNames_values {p : QP} {e : LinExpr} : (e.toDictNames p.vars).values = e.coeffs.map Prod.snd := by
  simp [Dict.values, LinExpr.toDictNames]

theorem toDictNames_values2 {p : QP} {e : QuadExpr} : (e.toDictNames p.vars).values = e.coeffs.map Prod.snd := by
  simp [Dict.values, QuadExpr.toDictNames]

theorem eqeq_convert : Sense.convert (.str "==") = .ok .eq := by decide +kernel

/-! ## One constraint -/

/-- The result of handling an inequality with left-hand side `f`, sense `s`, right-hand side `r` (rounded if
necessary), with a slack variable of type `t`. -/
structure Slacked (src d d' : QP) (t : VarType) (nm : String) (f : (Nat → ℚ) → ℚ) (s : Sense) (r lb ub : ℚ)
    (newl : List LinCst) (newq : List QuadCst) : Prop where
  sense : s ≠ .eq
  bounds : ∀ x, src.InBounds x → lb ≤ f x ∧ f x ≤ ub
  step : Step d d' (slackVars t nm s r lb ub) newl newq
    (fun y => f y + slackTerm s r lb ub (y d.numVars) = r)
  eqs : (∀ c ∈ newl, c.sense = .eq ∧ c.rhs = r) ∧ ∀ c ∈ newq, c.sense = .eq ∧ c.rhs = r

theorem intSlackLin_ok {src d d' : QP} (hs : src.WF) (hst : Starts src d) {e : LinExpr} (he : e.Fits src.numVars)
    {s : Sense} {r : ℚ} {nm : String} (h : intSlackLin src d (e.toDictNames src.vars) s r nm = .ok d') :
    (∀ q ∈ e.coeffs, ∃ z : Int, q.2 = z) ∧ ∃ lb ub c,
      Slacked src d d' .integer (nm ++ delim ++ "int_slack") e.val s (roundRhs s r) lb ub [c] [] ∧
      (∀ q ∈ c.linear.coeffs, ∃ z : Int, q.2 = z) ∧
      ((∀ v ∈ src.vars, (∃ z : Int, v.lb = z) ∧ ∃ z : Int, v.ub = z) → (∃ z : Int, lb = z) ∧ ∃ z : Int, ub = z) := by
  unfold intSlackLin at h
  split at h
  · simp at h
  · rename_i hfl
    rw [Bool.not_eq_true, anyFloat_false, toDictNames_values] at hfl
    have hint : ∀ q ∈ e.coeffs, ∃ z : Int, q.2 = z := fun q hq => hfl q.2 (List.mem_map_of_mem hq)
    have hint' : ∀ q ∈ e.toDictNames src.vars, ∃ z : Int, q.2 = z := by
      intro q hq
      apply hfl
      rw [← toDictNames_values (p := src)]
      exact List.mem_map_of_mem hq
    refine ⟨hint, ?_⟩
    split at h
    · simp at h
    · rename_i lb ub hb
      split at h
      · simp at h
      · rename_i o d1 hsl
        split at h
        · simp at h
        · rename_i c d2 hc
          simp only [Except.ok.injEq] at h
          subst h
          obtain ⟨a1, a2, a3, a4, a5, a6⟩ := (slackVar_ok hst.wf.cons hsl).spec hst hs.cons
            (fun a ha => toDictNames_keys he ha) (toDictNames_nodup hs.cons he)
          obtain ⟨b1, b2, b3, b4⟩ := linStep a2 (a2.wf hst.wf) a3 a4 eqeq_convert hc
          refine ⟨lb, ub, c, ⟨a1, ?_, ?_, ?_⟩, ?_, ?_⟩
          · intro x hx
            have := calcLinBounds_ok hs.cons hb hx
            rw [sum_toDictNames hs.cons he] at this
            simpa using this
          · have : (fun y => Dict.sum (withSlack (e.toDictNames src.vars) o) (nameVal d1.varsIndex y) = roundRhs s r) =
                fun y => e.val y + slackTerm s (roundRhs s r) lb ub (y d.numVars) = roundRhs s r := by
              funext y; rw [a6, sum_toDictNames hs.cons he]
            rw [← this]; exact b1
          · exact ⟨by simp [b2, b3], by simp⟩
          · intro q hq
            obtain ⟨q', hq', hh⟩ := b4 q hq
            rw [hh]
            rcases a5 q' hq' with h | h | h
            · exact hint' q' h
            · exact ⟨1, by simp [h]⟩
            · exact ⟨-1, by simp [h]⟩
          · intro hv
            exact calcLinBounds_int hs.cons hv hint' hb ⟨0, by simp⟩ ⟨0, by simp⟩

theorem contSlackLin_ok {src d d' : QP} (hs : src.WF) (hst : Starts src d) {e : LinExpr} (he : e.Fits src.numVars)
    {s : Sense} {r : ℚ} {nm : String} (h : contSlackLin src d (e.toDictNames src.vars) s r nm = .ok d') :
    ∃ lb ub c, Slacked src d d' .continuous (nm ++ delim ++ "continuous_slack") e.val s r lb ub [c] [] := by
  unfold contSlackLin at h
  split at h
  · simp at h
  · rename_i lb ub hb
    split at h
    · simp at h
    · rename_i o d1 hsl
      split at h
      · simp at h
      · rename_i c d2 hc
        simp only [Except.ok.injEq] at h
        subst h
        obtain ⟨a1, a2, a3, a4, a5, a6⟩ := (slackVar_ok hst.wf.cons hsl).spec hst hs.cons
          (fun a ha => toDictNames_keys he ha) (toDictNames_nodup hs.cons he)
        obtain ⟨b1, b2, b3, b4⟩ := linStep a2 (a2.wf hst.wf) a3 a4 eqeq_convert hc
        refine ⟨lb, ub, c, ⟨a1, ?_, ?_, ?_⟩⟩
        · intro x hx
          have := calcLinBounds_ok hs.cons hb hx
          rw [sum_toDictNames hs.cons he] at this
          simpa using this
        · have : (fun y => Dict.sum (withSlack (e.toDictNames src.vars) o) (nameVal d1.varsIndex y) = r) =
              fun y => e.val y + slackTerm s r lb ub (y d.numVars) = r := by
            funext y; rw [a6, sum_toDictNames hs.cons he]
          rw [← this]; exact b1
        · exact ⟨by simp [b2, b3], by simp⟩

theorem quadSum_starts {src d : QP} (hs : src.WF) (hst : Starts src d) {q : QuadExpr} (hq : q.Fits src.numVars)
    (y : Nat → ℚ) : Dict.sum (q.toDictNames src.vars) (fun k => nameVal d.varsIndex y k.1 * nameVal d.varsIndex y k.2) =
      q.val y := by
  rw [← sum_toDictNames2 hs.cons hq]
  apply Dict.sum_congr
  intro k hk
  have := toDictNames_keys2 hq hk
  rw [hst.nameVal hs.cons y this.1, hst.nameVal hs.cons y this.2]

theorem linSum_starts {src d : QP} (hs : src.WF) (hst : Starts src d) {e : LinExpr} (he : e.Fits src.numVars)
    (y : Nat → ℚ) : Dict.sum (e.toDictNames src.vars) (nameVal d.varsIndex y) = e.val y := by
  rw [← sum_toDictNames hs.cons he]
  exact Dict.sum_congr fun k hk => hst.nameVal hs.cons y (toDictNames_keys he hk)

theorem contSlackQuad_core {src d d' : QP} (hs : src.WF) (hst : Starts src d) {e : LinExpr} (he : e.Fits src.numVars)
    {q : QuadExpr} (hq : q.Fits src.numVars) {s : Sense} {r : ℚ} {nm : String} {t : VarType} {sn : String}
    {lb ub : ℚ} (hb : calcQuadBounds src (e.toDictNames src.vars) (q.toDictNames src.vars) = .ok (lb, ub))
    {o : Option (String × ℚ)} {d1 : QP} (hsl : slackVar d t sn s r lb ub = .ok (o, d1)) {c : QuadCst}
    (hc : d1.quadraticConstraint (linNames (withSlack (e.toDictNames src.vars) o)) (quadNames (q.toDictNames src.vars))
      (.str "==") r (some nm) = (.ok c, d')) :
    Slacked src d d' t sn (fun y => e.val y + q.val y) s r lb ub [] [c] := by
  obtain ⟨a1, a2, a3, a4, a5, a6⟩ := (slackVar_ok hst.wf.cons hsl).spec hst hs.cons
    (fun a ha => toDictNames_keys he ha) (toDictNames_nodup hs.cons he)
  have hst1 := hst.grows a2
  obtain ⟨b1, b2, b3⟩ := quadStep a2 (a2.wf hst.wf) a3 a4 (toDictNames_nodup2 hs.cons hq)
    (fun a ha => ⟨hst1.names (toDictNames_keys2 hq ha).1, hst1.names (toDictNames_keys2 hq ha).2⟩) eqeq_convert hc
  refine ⟨a1, ?_, ?_, by simp, by simp [b2, b3]⟩
  · intro x hx
    have := calcQuadBounds_ok hs.cons hb hx
    rw [sum_toDictNames hs.cons he, sum_toDictNames2 hs.cons hq] at this
    exact this
  · have : (fun y => Dict.sum (withSlack (e.toDictNames src.vars) o) (nameVal d1.varsIndex y) +
          Dict.sum (q.toDictNames src.vars) (fun k => nameVal d1.varsIndex y k.1 * nameVal d1.varsIndex y k.2) = r) =
        fun y => e.val y + q.val y + slackTerm s r lb ub (y d.numVars) = r := by
      funext y; rw [a6, sum_toDictNames hs.cons he, quadSum_starts hs hst1 hq]; apply congrArg (· = r); ring
    rw [← this]; exact b1

theorem intSlackQuad_ok {src d d' : QP} (hs : src.WF) (hst : Starts src d) {e : LinExpr} (he : e.Fits src.numVars)
    {q : QuadExpr} (hq : q.Fits src.numVars) {s : Sense} {r : ℚ} {nm : String}
    (h : intSlackQuad src d (e.toDictNames src.vars) (q.toDictNames src.vars) s r nm = .ok d') :
    ((∀ p ∈ e.coeffs, ∃ z : Int, p.2 = z) ∧ ∀ p ∈ q.coeffs, ∃ z : Int, p.2 = z) ∧ ∃ lb ub c,
      Slacked src d d' .integer (nm ++ delim ++ "int_slack") (fun y => e.val y + q.val y) s (roundRhs s r) lb ub [] [c] := by
  unfold intSlackQuad at h
  split at h
  · simp at h
  · rename_i hfl
    rw [Bool.not_eq_true, Bool.or_eq_false_iff, anyFloat_false, anyFloat_false, toDictNames_values,
      toDictNames_values2] at hfl
    refine ⟨⟨fun p hp => hfl.1 p.2 (List.mem_map_of_mem hp), fun p hp => hfl.2 p.2 (List.mem_map_of_mem hp)⟩, ?_⟩
    split at h
    · simp at h
    · rename_i lb ub hb
      split at h
      · simp at h
      · rename_i o d1 hsl
        split at h
        · simp at h
        · rename_i c d2 hc
          simp only [Except.ok.injEq] at h
          subst h
          exact ⟨lb, ub, c, contSlackQuad_core hs hst he hq hb hsl hc⟩

theorem contSlackQuad_ok {src d d' : QP} (hs : src.WF) (hst : Starts src d) {e : LinExpr} (he : e.Fits src.numVars)
    {q : QuadExpr} (hq : q.Fits src.numVars) {s : Sense} {r : ℚ} {nm : String}
    (h : contSlackQuad src d (e.toDictNames src.vars) (q.toDictNames src.vars) s r nm = .ok d') :
    ∃ lb ub c,
      Slacked src d d' .continuous (nm ++ delim ++ "continuous_slack") (fun y => e.val y + q.val y) s r lb ub [] [c] := by
  unfold contSlackQuad at h
  split at h
  · simp at h
  · rename_i lb ub hb
    split at h
    · simp at h
    · rename_i o d1 hsl
      split at h
      · simp at h
      · rename_i c d2 hc
        simp only [Except.ok.injEq] at h
        subst h
        exact ⟨lb, ub, c, contSlackQuad_core hs hst he hq hb hsl hc⟩

/-! ## Extending a point -/

/-- The point can be extended to a feasible point of `d`. -/
def Extensible (n : Nat) (d : QP) (x : Nat → ℚ) : Prop := ∃ y, (∀ i < n, y i = x i) ∧ d.Feas y

theorem Step.starts {src d d' : QP} {vs : List Variable} {newl : List LinCst} {newq : List QuadCst}
    {new : (Nat → ℚ) → Prop} (h : Step d d' vs newl newq new) (hst : Starts src d) : Starts src d' := by
  obtain ⟨more, hm⟩ := hst.vars
  exact ⟨h.wf, more ++ vs, by rw [h.vars, hm, List.append_assoc]⟩

theorem feas_iff_admits (d : QP) (y : Nat → ℚ) :
    d.Feas y ↔ (∀ (i : Nat) (v : Variable), d.vars[i]? = some v → v.Admits (y i)) ∧ d.Sat y := by
  unfold QP.Feas; rw [← and_assoc, admits_iff]

theorem Step.feas_iff {d d' : QP} {vs : List Variable} {newl : List LinCst} {newq : List QuadCst}
    {new : (Nat → ℚ) → Prop} (h : Step d d' vs newl newq new) (y : Nat → ℚ) :
    d'.Feas y ↔ d.Feas y ∧ (∀ (i : Nat) (v : Variable), vs[i]? = some v → v.Admits (y (d.numVars + i))) ∧ new y := by
  rw [feas_iff_admits, feas_iff_admits, h.sat, h.vars]
  have : (∀ (i : Nat) (v : Variable), (d.vars ++ vs)[i]? = some v → v.Admits (y i)) ↔
      (∀ (i : Nat) (v : Variable), d.vars[i]? = some v → v.Admits (y i)) ∧
        ∀ (i : Nat) (v : Variable), vs[i]? = some v → v.Admits (y (d.numVars + i)) := by
    constructor
    · intro hh
      refine ⟨fun i v hv => hh i v ?_, fun i v hv => hh _ v ?_⟩
      · rw [List.getElem?_append_left (List.getElem?_eq_some_iff.mp hv).1, hv]
      · rw [List.getElem?_append_right (by simp [QP.numVars])]
        simpa [QP.numVars] using hv
    · rintro ⟨h1, h2⟩ i v hv
      by_cases hi : i < d.numVars
      · rw [List.getElem?_append_left (by simpa [QP.numVars] using hi)] at hv
        exact h1 i v hv
      · rw [List.getElem?_append_right (by simpa [QP.numVars] using hi)] at hv
        have := h2 (i - d.numVars) v hv
        rwa [Nat.add_sub_cancel' (not_lt.mp hi)] at this
  rw [this]
  constructor
  · rintro ⟨⟨a, b⟩, c, e⟩; exact ⟨⟨a, c⟩, b, e⟩
  · rintro ⟨⟨a, c⟩, b, e⟩; exact ⟨⟨a, b⟩, c, e⟩

theorem feas_congr {d : QP} (hd : d.WF) {y z : Nat → ℚ} (h : ∀ i < d.numVars, y i = z i) : d.Feas y ↔ d.Feas z := by
  rw [feas_iff_admits, feas_iff_admits, QP.sat_congr hd h]
  refine and_congr_left' ?_
  constructor
  · intro hh i v hv
    rw [← h i (List.getElem?_eq_some_iff.mp hv).1]; exact hh i v hv
  · intro hh i v hv
    rw [h i (List.getElem?_eq_some_iff.mp hv).1]; exact hh i v hv

theorem extensible_eq {src d d' : QP} {newl : List LinCst} {newq : List QuadCst} {f : (Nat → ℚ) → ℚ} {r : ℚ}
    (hf : ∀ x y, (∀ i < src.numVars, x i = y i) → f x = f y)
    (h : Step d d' [] newl newq (fun y => f y = r)) (x : Nat → ℚ) :
    Extensible src.numVars d' x ↔ Extensible src.numVars d x ∧ f x = r := by
  constructor
  · rintro ⟨y, hy, hfe⟩
    obtain ⟨h1, _, h3⟩ := (h.feas_iff y).mp hfe
    exact ⟨⟨y, hy, h1⟩, by rw [← h3]; exact hf _ _ (fun i hi => (hy i hi).symm)⟩
  · rintro ⟨⟨y, hy, hfe⟩, hr⟩
    exact ⟨y, hy, (h.feas_iff y).mpr ⟨hfe, by simp, by rw [← hr]; exact hf _ _ hy⟩⟩

theorem Slacked.extensible {src d d' : QP} (hst : Starts src d) {t : VarType} {nm : String} {f : (Nat → ℚ) → ℚ}
    {s : Sense} {r lb ub : ℚ} {newl : List LinCst} {newq : List QuadCst}
    (h : Slacked src d d' t nm f s r lb ub newl newq)
    (hf : ∀ x y, (∀ i < src.numVars, x i = y i) → f x = f y) {x : Nat → ℚ} (hx : src.InBounds x)
    (ht : t ≠ .continuous → (∃ z : Int, f x = z) ∧ ∃ z : Int, r = z) :
    Extensible src.numVars d' x ↔ Extensible src.numVars d x ∧ s.rel (f x) r := by
  obtain ⟨hb1, hb2⟩ := h.bounds x hx
  have hle := hst.le
  -- the old point with a slack value
  have put : ∀ y : Nat → ℚ, ∀ z : ℚ, (∀ i < src.numVars, y i = x i) → d.Feas y →
      (∀ i < src.numVars, Function.update y d.numVars z i = x i) ∧ d.Feas (Function.update y d.numVars z) ∧
        f (Function.update y d.numVars z) = f x := by
    intro y z hy hfe
    have h1 : ∀ i < d.numVars, y i = Function.update y d.numVars z i := by
      intro i hi
      rw [Function.update_of_ne (by omega)]
    have h2 : ∀ i < src.numVars, Function.update y d.numVars z i = x i := fun i hi => by
      rw [← h1 i (by omega)]; exact hy i hi
    exact ⟨h2, (feas_congr hst.wf h1).mp hfe, hf _ _ h2⟩
  constructor
  · rintro ⟨y, hy, hfe⟩
    obtain ⟨h1, h2, h3⟩ := (h.step.feas_iff y).mp hfe
    have hfx : f y = f x := hf _ _ hy
    refine ⟨⟨y, hy, h1⟩, ?_⟩
    rw [← hfx] at hb1 hb2 ⊢
    cases s with
    | le =>
      simp only [slackTerm] at h3
      simp only [slackVars] at h2
      simp only [Sense.rel]
      split at h3
      · linarith
      · rename_i hc
        rw [if_neg hc] at h2
        have := (h2 0 _ rfl).1.1
        simp only [Nat.add_zero] at this
        linarith
    | ge =>
      simp only [slackTerm] at h3
      simp only [slackVars] at h2
      simp only [Sense.rel]
      split at h3
      · linarith
      · rename_i hc
        rw [if_neg hc] at h2
        have := (h2 0 _ rfl).1.1
        simp only [Nat.add_zero] at this
        linarith
    | eq => exact absurd rfl h.sense
  · rintro ⟨⟨y, hy, hfe⟩, hrel⟩
    cases s with
    | le =>
      simp only [Sense.rel] at hrel
      obtain ⟨p1, p2, p3⟩ := put y (r - f x) hy hfe
      refine ⟨_, p1, (h.step.feas_iff _).mpr ⟨p2, ?_, ?_⟩⟩
      · intro i v hv
        simp only [slackVars] at hv
        split at hv
        · simp at hv
        · have hi : i = 0 := by
            have := (List.getElem?_eq_some_iff.mp hv).1
            simpa using this
          subst hi
          simp only [List.getElem?_cons_zero, Option.some.injEq] at hv
          subst hv
          rw [Nat.add_zero, Function.update_self]
          refine ⟨⟨by simp only; linarith, by simp only; linarith⟩, fun htt => isInt_sub (ht htt).2 (ht htt).1⟩
      · simp only [slackTerm, p3, Function.update_self]
        split <;> linarith
    | ge =>
      simp only [Sense.rel] at hrel
      obtain ⟨p1, p2, p3⟩ := put y (f x - r) hy hfe
      refine ⟨_, p1, (h.step.feas_iff _).mpr ⟨p2, ?_, ?_⟩⟩
      · intro i v hv
        simp only [slackVars] at hv
        split at hv
        · simp at hv
        · have hi : i = 0 := by
            have := (List.getElem?_eq_some_iff.mp hv).1
            simpa using this
          subst hi
          simp only [List.getElem?_cons_zero, Option.some.injEq] at hv
          subst hv
          rw [Nat.add_zero, Function.update_self]
          refine ⟨⟨by simp only; linarith, by simp only; linarith⟩, fun htt => isInt_sub (ht htt).1 (ht htt).2⟩
      · simp only [slackTerm, p3, Function.update_self]
        split <;> linarith
    | eq => exact absurd rfl h.sense

end Verif

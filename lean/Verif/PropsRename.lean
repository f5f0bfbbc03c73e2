import Verif.RenameSolve
import Verif.PropsScale
import Mathlib.Data.List.TakeWhile

/-!
# C114: programs with other names
-/

namespace Verif

/-- No `@` in a name. -/
def NoAt (s : String) : Prop := '@' ∉ s.toList

instance noAtDecidable (s : String) : Decidable (NoAt s) := inferInstanceAs (Decidable (_ ∉ _))

/-- New names for the plain names: different names stay different, stay plain, and stay non-empty. -/
structure PlainRenaming (ρ : String → String) : Prop where
  inj : ∀ s t, NoAt s → NoAt t → ρ s = ρ t → s = t
  plain : ∀ s, NoAt s → NoAt (ρ s)
  empty : ρ "" = ""

/-- What comes before the first `@`. -/
def nameHead (s : String) : String := String.ofList (s.toList.takeWhile (· ≠ '@'))

/-- The rest, from the first `@` on. -/
def nameRest (s : String) : List Char := s.toList.dropWhile (· ≠ '@')

/-- Is the name that of a slack variable, or of a bit of one? -/
def ofSlack (r : List Char) : Bool :=
  match r with
  | [] => false
  | _ :: r =>
    let t := String.ofList (r.takeWhile (· ≠ '@'))
    t == "int_slack" || t == "continuous_slack"

/-- New names for all names: the part before the first `@` is renamed in a way that depends on the rest, which stays. -/
def liftName (g : List Char → String → String) (s : String) : String := g (nameRest s) (nameHead s) ++ String.ofList (nameRest s)

/-- The names of the variables in the converted programs. -/
def liftVar (ρ σ : String → String) : String → String := liftName fun r => if ofSlack r then σ else ρ

/-- The names of the constraints. -/
def liftCst (ρ σ : String → String) : String → String := liftName fun r => if r = [] || ofSlack r then σ else ρ

theorem plain_head (s : String) : NoAt (nameHead s) := by
  unfold NoAt nameHead
  rw [String.toList_ofList]
  intro h
  have := List.mem_takeWhile_imp h
  simp at this

theorem head_plain {s : String} (h : NoAt s) : nameHead s = s ∧ nameRest s = [] := by
  unfold nameHead nameRest
  have h' : ∀ c ∈ s.toList, (decide (c ≠ '@')) = true := by
    intro c hc
    simp only [ne_eq, decide_eq_true_eq]
    rintro rfl
    exact h hc
  rw [List.takeWhile_eq_self_iff.mpr h', List.dropWhile_eq_nil_iff.mpr h']
  exact ⟨String.ofList_toList, rfl⟩

theorem rest_at (s : String) : nameRest s = [] ∨ ∃ r, nameRest s = '@' :: r := by
  unfold nameRest
  induction s.toList with
  | nil => exact Or.inl rfl
  | cons c l ih =>
    rw [List.dropWhile_cons]
    split
    · exact ih
    · rename_i h
      simp only [ne_eq, decide_not, Bool.not_eq_true', decide_eq_false_iff_not, not_not] at h
      exact Or.inr ⟨l, by rw [h]⟩

theorem name_eq (s : String) : s.toList = (nameHead s).toList ++ nameRest s := by
  unfold nameHead nameRest
  rw [String.toList_ofList]
  exact (List.takeWhile_append_dropWhile).symm

theorem split_unique {a b : List Char} {r q : List Char} (ha : '@' ∉ a) (hb : '@' ∉ b) (hr : r = [] ∨ ∃ t, r = '@' :: t)
    (hq : q = [] ∨ ∃ t, q = '@' :: t) (h : a ++ r = b ++ q) : a = b ∧ r = q := by
  induction a generalizing b with
  | nil =>
    cases b with
    | nil => exact ⟨rfl, h⟩
    | cons c b =>
      rcases hr with rfl | ⟨t, rfl⟩
      · simp at h
      · simp only [List.nil_append, List.cons_append, List.cons.injEq] at h
        exact absurd (by rw [← h.1]; exact List.mem_cons_self) hb
  | cons c a ih =>
    cases b with
    | nil =>
      rcases hq with rfl | ⟨t, rfl⟩
      · simp at h
      · simp only [List.nil_append, List.cons_append, List.cons.injEq] at h
        exact absurd (by rw [h.1]; exact List.mem_cons_self) ha
    | cons d b =>
      simp only [List.cons_append, List.cons.injEq] at h
      obtain ⟨h1, h2⟩ := ih (fun x => ha (List.mem_cons_of_mem _ x)) (fun x => hb (List.mem_cons_of_mem _ x)) h.2
      exact ⟨by rw [h.1, h1], h2⟩

theorem name_ext {s t : String} (h : nameHead s = nameHead t) (h' : nameRest s = nameRest t) : s = t := by
  rw [← String.toList_inj, name_eq s, name_eq t, h, h']

theorem appended (s t : String) : nameHead (s ++ delim ++ t) = nameHead s ∧ nameRest (s ++ delim ++ t) =
    nameRest s ++ '@' :: t.toList := by
  have h := name_eq (s ++ delim ++ t)
  rw [String.toList_append, String.toList_append, show delim.toList = ['@'] from rfl, name_eq s] at h
  have hh : '@' ∉ (nameHead s).toList := plain_head s
  have hg : '@' ∉ (nameHead (s ++ delim ++ t)).toList := plain_head _
  rw [show (nameHead s).toList ++ nameRest s ++ ['@'] ++ t.toList = (nameHead s).toList ++ (nameRest s ++ '@' :: t.toList) by
    simp] at h
  obtain ⟨h1, h2⟩ := split_unique hh hg (by
    rcases rest_at s with e | ⟨r, e⟩
    · rw [e]; exact Or.inr ⟨_, rfl⟩
    · rw [e]; exact Or.inr ⟨_, rfl⟩) (rest_at _) h
  exact ⟨(String.toList_inj.mp h1).symm, h2.symm⟩

theorem ofSlack_append {s : String} (t : List Char) (h : nameRest s ≠ []) :
    ofSlack (nameRest s ++ '@' :: t) = ofSlack (nameRest s) := by
  rcases rest_at s with e | ⟨r, e⟩
  · exact absurd e h
  · rw [e]
    have : (r ++ '@' :: t).takeWhile (· ≠ '@') = r.takeWhile (· ≠ '@') := by
      clear e
      induction r with
      | nil => simp
      | cons c r ih =>
        rw [List.cons_append, List.takeWhile_cons, List.takeWhile_cons]
        split
        · rw [ih]
        · rfl
    simp only [List.cons_append, ofSlack, this]

theorem liftName_inj {g : List Char → String → String} (hg : ∀ r, PlainRenaming (g r)) (s t : String)
    (h : liftName g s = liftName g t) : s = t := by
  unfold liftName at h
  have h' := congrArg String.toList h
  rw [String.toList_append, String.toList_append, String.toList_ofList, String.toList_ofList] at h'
  obtain ⟨h1, h2⟩ := split_unique ((hg _).plain _ (plain_head s)) ((hg _).plain _ (plain_head t)) (rest_at s) (rest_at t) h'
  rw [String.toList_inj, h2] at h1
  exact name_ext ((hg _).inj _ _ (plain_head s) (plain_head t) h1) h2

theorem liftName_append {g g' : List Char → String → String} {s t : String}
    (h : g (nameRest s ++ '@' :: t.toList) (nameHead s) = g' (nameRest s) (nameHead s)) :
    liftName g (s ++ delim ++ t) = liftName g' s ++ delim ++ t := by
  unfold liftName
  obtain ⟨h1, h2⟩ := appended s t
  rw [h1, h2, h, ← String.toList_inj]
  simp [show delim.toList = ['@'] from rfl]

theorem ofSlack_nat (k : Nat) : ofSlack ('@' :: (toString k).toList) = false := by
  have hd : ∀ c ∈ (toString k).toList, c.isDigit = true := by
    intro c hc
    rw [show toString k = Nat.repr k from rfl, Nat.repr_eq_ofList_toDigits, String.toList_ofList] at hc
    exact Nat.isDigit_of_mem_toDigits (by norm_num) (by norm_num) hc
  have hm : ∀ (l : List Char) (c : Char), c ∈ l → c.isDigit = false →
      String.ofList ((toString k).toList.takeWhile (· ≠ '@')) ≠ String.ofList l := by
    intro l c hc hn h
    have h' := congrArg String.toList h
    rw [String.toList_ofList, String.toList_ofList] at h'
    have := hd c ((List.takeWhile_prefix _).subset (h' ▸ hc))
    rw [hn] at this
    exact Bool.noConfusion this
  have h1 := hm "int_slack".toList 'i' (by decide) (by decide)
  have h2 := hm "continuous_slack".toList 'c' (by decide) (by decide)
  rw [String.ofList_toList] at h1 h2
  simp only [ofSlack, Bool.or_eq_false_iff, beq_eq_false_iff_ne]
  exact ⟨h1, h2⟩

/-- Every pair of renamings of plain names gives a renaming of all names. -/
theorem lift_renaming {ρ σ : String → String} (hρ : PlainRenaming ρ) (hσ : PlainRenaming σ) :
    Renaming (liftVar ρ σ) (liftCst ρ σ) := by
  have hs : ∀ (s t : String), ofSlack ('@' :: t.toList) = true → liftVar ρ σ (s ++ delim ++ t) = liftCst ρ σ s ++ delim ++ t := by
    intro s t ht
    apply liftName_append
    by_cases h : nameRest s = []
    · rw [h, List.nil_append, ht]; rfl
    · rw [ofSlack_append _ h]
      simp [h]
  refine ⟨liftName_inj fun r => ?_, liftName_inj fun r => ?_, fun s k => ?_, fun s => hs s _ (by decide +kernel),
    fun s => hs s _ (by decide +kernel), ?_, ?_⟩
  · split
    · exact hσ
    · exact hρ
  · split
    · exact hσ
    · exact hρ
  · apply liftName_append
    by_cases h : nameRest s = []
    · rw [h, List.nil_append, ofSlack_nat]; rfl
    · rw [ofSlack_append _ h]
  · show (liftName _ "") = ""
    unfold liftName
    rw [show nameRest "" = [] from rfl, show nameHead "" = "" from rfl]
    show σ "" ++ "" = ""
    rw [hσ.empty]; rfl
  · show (liftName _ "") = ""
    unfold liftName
    rw [show nameRest "" = [] from rfl, show nameHead "" = "" from rfl]
    show ρ "" ++ "" = ""
    rw [hρ.empty]; rfl

/-- The names of a program are plain. -/
structure QP.PlainNames (p : QP) : Prop where
  vars : ∀ v ∈ p.vars, NoAt v.name
  lins : ∀ c ∈ p.lins, NoAt c.name
  quads : ∀ c ∈ p.quads, NoAt c.name

theorem liftVar_plain {ρ σ : String → String} {s : String} (h : NoAt s) : liftVar ρ σ s = ρ s := by
  unfold liftVar liftName
  rw [(head_plain h).1, (head_plain h).2]
  show ρ s ++ "" = _
  exact String.append_empty

theorem liftCst_plain {ρ σ : String → String} {s : String} (h : NoAt s) : liftCst ρ σ s = σ s := by
  unfold liftCst liftName
  rw [(head_plain h).1, (head_plain h).2]
  show σ s ++ "" = _
  exact String.append_empty

theorem mapKeys_congr {f g : String → String} {d : Assoc String Nat} (h : ∀ k ∈ Assoc.keys d, f k = g k) : mapKeys f d = mapKeys g d := by
  unfold mapKeys
  exact List.map_congr_left fun p hp => by rw [h p.1 (List.mem_map_of_mem hp)]

/-- On a program with plain names the renaming of all names is the given one. -/
theorem rename_lift {p : QP} (hp : p.Consistent) (hn : p.PlainNames) (ρ σ : String → String) :
    p.rename (liftVar ρ σ) (liftCst ρ σ) = p.rename ρ σ := by
  have hv : p.vars.map (Variable.rename (liftVar ρ σ)) = p.vars.map (Variable.rename ρ) :=
    List.map_congr_left fun v h => by simp only [Variable.rename, liftVar_plain (hn.vars v h)]
  have hl : p.lins.map (LinCst.rename (liftCst ρ σ)) = p.lins.map (LinCst.rename σ) :=
    List.map_congr_left fun v h => by simp only [LinCst.rename, liftCst_plain (hn.lins v h)]
  have hq : p.quads.map (QuadCst.rename (liftCst ρ σ)) = p.quads.map (QuadCst.rename σ) :=
    List.map_congr_left fun v h => by simp only [QuadCst.rename, liftCst_plain (hn.quads v h)]
  have hvi : mapKeys (liftVar ρ σ) p.varsIndex = mapKeys ρ p.varsIndex := mapKeys_congr fun k hk => by
    rw [hp.vars.keys] at hk
    obtain ⟨v, hv, rfl⟩ := List.mem_map.mp hk
    exact liftVar_plain (hn.vars v hv)
  have hli : mapKeys (liftCst ρ σ) p.linsIndex = mapKeys σ p.linsIndex := mapKeys_congr fun k hk => by
    rw [hp.lins.keys] at hk
    obtain ⟨v, hv, rfl⟩ := List.mem_map.mp hk
    exact liftCst_plain (hn.lins v hv)
  have hqi : mapKeys (liftCst ρ σ) p.quadsIndex = mapKeys σ p.quadsIndex := mapKeys_congr fun k hk => by
    rw [hp.quads.keys] at hk
    obtain ⟨v, hv, rfl⟩ := List.mem_map.mp hk
    exact liftCst_plain (hn.quads v hv)
  unfold QP.rename
  rw [hv, hl, hq, hvi, hli, hqi]

/-! ## The property -/

/-- Two programs that differ in nothing but names. -/
structure SameUpToNames (p q : QP) : Prop where
  objective : q.objective = p.objective
  vars : q.vars.map (fun v => (v.lb, v.ub, v.vartype)) = p.vars.map fun v => (v.lb, v.ub, v.vartype)
  lins : q.lins.map (fun c => (c.linear, c.sense, c.rhs)) = p.lins.map fun c => (c.linear, c.sense, c.rhs)
  quads : q.quads.map (fun c => (c.linear, c.quadratic, c.sense, c.rhs)) =
    p.quads.map fun c => (c.linear, c.quadratic, c.sense, c.rhs)

theorem sameUpToNames_rename (ρ σ : String → String) (p : QP) : SameUpToNames p (p.rename ρ σ) :=
  ⟨rfl, by simp [QP.rename, Variable.rename, Function.comp_def], by simp [QP.rename, LinCst.rename, Function.comp_def],
    by simp [QP.rename, QuadCst.rename, Function.comp_def]⟩

/-- **C114** (the program): the renamed program differs in nothing but names, accepts the same points, with the same values, and
names the renamed variables and constraints as violated. -/
theorem C114_meaning (ρ σ : String → String) (p : QP) (x : List ℚ) :
    SameUpToNames p (p.rename ρ σ) ∧ (p.rename ρ σ).isFeasible x = p.isFeasible x ∧
    (p.rename ρ σ).objective.evaluate x = p.objective.evaluate x ∧
    (p.rename ρ σ).getFeasibilityInfo x = (p.getFeasibilityInfo x).map fun r =>
      (r.1, r.2.1.map (Variable.rename ρ), r.2.2.map (Cst.rename σ)) :=
  ⟨sameUpToNames_rename ρ σ p, isFeasible_rename p x, rfl, getFeasibilityInfo_rename p x⟩

/-- **C114** (operator): the Ising operator and its offset do not depend on names. -/
theorem C114_ising (ρ σ : String → String) (p : QP) : (p.rename ρ σ).toIsing = p.toIsing := toIsing_rename p

/-- **C114** (lookup): the renamed program has the same variables under the new names. -/
theorem C114_lookup {ρ σ : String → String} (hρ : ∀ s t, ρ s = ρ t → s = t) (p : QP) (s : String) :
    (p.rename ρ σ).getVariable (.name (ρ s)) = (p.getVariable (.name s)).map (Variable.rename ρ) := by
  simp only [QP.getVariable]
  rw [show (p.rename ρ σ).varsIndex = mapKeys ρ p.varsIndex from rfl, get?_mapKeys hρ]
  cases Assoc.get? p.varsIndex s with
  | none => rfl
  | some i =>
    simp only [QP.rename, List.getElem?_map]
    cases p.vars[i]? <;> rfl

/-- **C114** (names of constraints): constraints made by the program have names, whether one is given or not. -/
theorem C114_named {p : QP} (hp : p.Named) (l : LinInput) (q : QuadInput) (s : SenseInput) (r : ℚ) (nm : Option String) :
    (∀ c, (p.linearConstraint l s r nm).1 = .ok c → (p.linearConstraint l s r nm).2.Named) ∧
    ∀ c, (p.quadraticConstraint l q s r nm).1 = .ok c → (p.quadraticConstraint l q s r nm).2.Named := by
  have hfree : ∀ (ix : Assoc String Nat) (pre : String) (fuel k : Nat) (n : String), pre ≠ "" → freeName ix pre fuel k = some n →
      n ≠ "" := by
    intro ix pre fuel k n hpre h
    induction fuel generalizing k with
    | zero => simp [freeName] at h
    | succ fuel ih =>
      simp only [freeName] at h
      split at h
      · exact ih _ h
      · simp only [Option.some.injEq] at h
        rw [← h]
        intro h0
        have := congrArg String.toList h0
        rw [String.toList_append] at this
        exact hpre (String.toList_inj.mp (List.append_eq_nil_iff.mp this).1)
  have hch : ∀ (ix : Assoc String Nat) (k : Nat) (pre n : String), pre ≠ "" → chooseName ix k pre nm = .ok n → n ≠ "" := by
    intro ix k pre n hpre h
    have hf : ∀ o : Option String, o = freeName ix pre (ix.length + 1) k →
        (match o with | some n => Except.ok n | none => Except.error Err.notImplemented) = Except.ok n → n ≠ "" := by
      intro o ho h
      cases o with
      | none => simp at h
      | some m =>
        simp only [Except.ok.injEq] at h
        subst h
        exact hfree _ _ _ _ _ hpre ho.symm
    cases nm with
    | none => exact hf _ rfl h
    | some m =>
      simp only [chooseName] at h
      split at h
      · exact hf _ rfl h
      · rename_i hm
        split at h
        · simp at h
        · simp only [Except.ok.injEq] at h
          rw [← h]; exact hm
  constructor
  · intro c hc
    obtain ⟨nm', le, s', hn, -, -, hc', hp'⟩ := linearConstraint_ok (p' := (p.linearConstraint l s r nm).2) (c := c) (by rw [← hc])
    rw [hp']
    refine ⟨fun k hk => ?_, hp.quads⟩
    rcases List.mem_append.mp hk with h1 | h1
    · exact hp.lins k h1
    · rw [List.mem_singleton.mp h1, hc']
      exact hch _ _ _ _ (by decide) hn
  · intro c hc
    obtain ⟨nm', le, qe, s', hn, -, -, -, hc', hp'⟩ :=
      quadraticConstraint_ok (p' := (p.quadraticConstraint l q s r nm).2) (c := c) (by rw [← hc])
    rw [hp']
    refine ⟨hp.lins, fun k hk => ?_⟩
    rcases List.mem_append.mp hk with h1 | h1
    · exact hp.quads k h1
    · rw [List.mem_singleton.mp h1, hc']
      exact hch _ _ _ _ (by decide) hn

example : ((fullQP.linearConstraint (.dict [(.name "b", 1)]) (.str "<=") 1 none).2.lins.map LinCst.name) = ["c", "e", "c2"] ∧
    ((fullQP.linearConstraint (.dict [(.name "b", 1)]) (.str "<=") 1 (some "")).2.lins.map LinCst.name) = ["c", "e", "c2"] := by
  decide +kernel

section
variable {ρ σ : String → String} (hρ : PlainRenaming ρ) (hσ : PlainRenaming σ)
include hρ hσ

/-- **C114** (slack variables): for plain names the conversion of inequalities gives the same program up to names, or the same
error. -/
theorem C114_slack_partial (mode : SlackMode) {p : QP} (hp : p.Consistent) (hn : p.PlainNames) (he : p.Named) :
    (∀ e, p.ineqToEq mode = .error e → (p.rename ρ σ).ineqToEq mode = .error e) ∧
    ∀ d, p.ineqToEq mode = .ok d → ∃ d', (p.rename ρ σ).ineqToEq mode = .ok d' ∧ SameUpToNames d d' ∧
      ineqInterpret (p.rename ρ σ) d' = ineqInterpret p d := by
  rw [← rename_lift hp hn]
  have hr := lift_renaming hρ hσ
  refine ⟨fun e h => ?_, fun d h => ⟨d.rename (liftVar ρ σ) (liftCst ρ σ), ?_, sameUpToNames_rename _ _ d,
    funext fun x => ineqInterpret_rename hr p d x⟩⟩
  · rw [ineqToEq_rename hr _ _ he, h]; rfl
  · rw [ineqToEq_rename hr _ _ he, h]; rfl

/-- **C114** (binary encoding): for plain names the replacement of integer variables gives the same program up to names, or the
same error. -/
theorem C114_bits_partial {p : QP} (hp : p.Consistent) (hn : p.PlainNames) (he : p.Named) :
    (∀ e, p.intToBin = .error e → (p.rename ρ σ).intToBin = .error e) ∧
    ∀ c, p.intToBin = .ok c → ∃ c', (p.rename ρ σ).intToBin = .ok c' ∧ SameUpToNames c.dst c'.dst ∧
      c'.interpret = c.interpret := by
  rw [← rename_lift hp hn]
  have hr := lift_renaming hρ hσ
  refine ⟨fun e h => ?_, fun c h => ⟨c.rename (liftVar ρ σ) (liftCst ρ σ), ?_, sameUpToNames_rename _ _ c.dst,
    funext fun x => i2bInterpret_rename hr c x⟩⟩
  · rw [intToBin_rename hr _ he, h]; rfl
  · rw [intToBin_rename hr _ he, h]; rfl

/-- **C114**, partial (QUBO).  Full statement: for all names, the QUBO of the renamed program is that of the program up to names,
and points are interpreted in the same way.  Proved: for names without `@`, given or automatic penalty; or the same error is raised.
Missing (false, `C114_violated`): names with `@`. -/
theorem C114_qubo_partial (v : Option ℚ) {p : QP} (hp : p.Consistent) (hn : p.PlainNames) (he : p.Named) :
    (∀ e, p.toQubo v = .error e → (p.rename ρ σ).toQubo v = .error e) ∧
    ∀ st, p.toQubo v = .ok st → ∃ st', (p.rename ρ σ).toQubo v = .ok st' ∧ SameUpToNames st.dst st'.dst ∧ st'.pen = st.pen ∧
      st'.interpret = st.interpret := by
  rw [← rename_lift hp hn]
  have hr := lift_renaming hρ hσ
  refine ⟨fun e h => ?_, fun st h => ⟨st.rename (liftVar ρ σ) (liftCst ρ σ), ?_, sameUpToNames_rename _ _ st.dst, rfl,
    interpret_rename hr st⟩⟩
  · rw [toQubo_rename hr _ _ he, h]; rfl
  · rw [toQubo_rename hr _ _ he, h]; rfl

/-- **C114**, partial (minimum eigen optimizer): for names without `@` the point, the value, the status and all samples are the
same, the variables are the renamed ones, and values can be read under the new names. -/
theorem C114_min_eigen_partial (solver : QubitOp → Option Eigenstate) (v : Option ℚ) {p : QP} (hp : p.Consistent)
    (hn : p.PlainNames) (he : p.Named) :
    (∀ e, minEigenSolve solver [quboConverter v] p = .error e →
      minEigenSolve solver [quboConverter v] (p.rename ρ σ) = .error e) ∧
    ∀ r, minEigenSolve solver [quboConverter v] p = .ok r →
      ∃ r', minEigenSolve solver [quboConverter v] (p.rename ρ σ) = .ok r' ∧ r'.x = r.x ∧ r'.fval = r.fval ∧
        r'.status = r.status ∧ r'.samples = r.samples ∧ r'.rawSamples = r.rawSamples ∧
        ∀ s, NoAt s → r'.getItem (.name (ρ s)) = r.getItem (.name s) := by
  rw [← rename_lift hp hn]
  have hr := lift_renaming hρ hσ
  refine ⟨fun e h => ?_, fun r h => ⟨r.rename (liftVar ρ σ), ?_, rfl, rfl, rfl, rfl, rfl, fun s hs => ?_⟩⟩
  · rw [minEigenSolve_rename hr _ _ _ he, h]; rfl
  · rw [minEigenSolve_rename hr _ _ _ he, h]; rfl
  · rw [← liftVar_plain (ρ := ρ) (σ := σ) hs]
    simp only [Result.getItem, Result.rename]
    cases r.varsDict with
    | none => rfl
    | some d =>
      simp only [Option.map_some]
      rw [get?_mapKeys hr.inj]

/-- **C114**, partial (Grover optimizer): with the same measurements, for names without `@`, the search ends or not in the same way,
and the point, the value, the status, all samples and the number of measurements are the same. -/
theorem C114_grover_partial (measure : Nat → Objective → Outcome) (rot : Nat → Nat) (sqrt : ℚ → ℚ) (v : Option ℚ)
    (nValue nIterations : Nat) {p : QP} (hp : p.Consistent) (hn : p.PlainNames) (he : p.Named) (fuel : Nat) :
    (groverSolve measure rot sqrt [quboConverter v] nValue nIterations p fuel = none →
      groverSolve measure rot sqrt [quboConverter v] nValue nIterations (p.rename ρ σ) fuel = none) ∧
    (∀ e, groverSolve measure rot sqrt [quboConverter v] nValue nIterations p fuel = some (.error e) →
      groverSolve measure rot sqrt [quboConverter v] nValue nIterations (p.rename ρ σ) fuel = some (.error e)) ∧
    ∀ r, groverSolve measure rot sqrt [quboConverter v] nValue nIterations p fuel = some (.ok r) →
      ∃ r', groverSolve measure rot sqrt [quboConverter v] nValue nIterations (p.rename ρ σ) fuel = some (.ok r') ∧
        r'.result.x = r.result.x ∧ r'.result.fval = r.result.fval ∧ r'.result.status = r.result.status ∧
        r'.result.samples = r.result.samples ∧ r'.result.rawSamples = r.result.rawSamples ∧ r'.optX = r.optX ∧
        r'.fval = r.fval ∧ r'.threshold = r.threshold ∧ r'.iterations = r.iterations := by
  rw [← rename_lift hp hn]
  have hr := lift_renaming hρ hσ
  refine ⟨fun h => ?_, fun e h => ?_, fun r h => ⟨r.rename (liftVar ρ σ) (liftCst ρ σ), ?_, rfl, rfl, rfl, rfl, rfl, rfl, rfl, rfl,
    rfl⟩⟩
  · rw [groverSolve_rename hr _ _ _ _ _ _ _ he, h]; rfl
  · rw [groverSolve_rename hr _ _ _ _ _ _ _ he, h]; rfl
  · rw [groverSolve_rename hr _ _ _ _ _ _ _ he, h]; rfl

end

/-- **C114** (optimizers with a numerical solver): for all names, COBYLA and SLSQP get the same functions and return the same
point, value and status, or raise the same error. -/
theorem C114_local {ρ : String → String} (hi : ∀ s t, ρ s = ρ t → s = t) (σ : String → String)
    (cobyla : Nat → Fn → List ℚ → List Fn → Except Err (List ℚ))
    (slsqp : Nat → Fn → (List ℚ → Except Err (List ℚ)) → List ℚ → List Fn → List Fn → List (ℚ × ℚ) → Except Err (List ℚ))
    (trials : Nat) (clip : ℚ) (u : Nat → Nat → ℚ) (p : QP) :
    cobylaSolve cobyla trials clip u (p.rename ρ σ) = (cobylaSolve cobyla trials clip u p).map (fun r =>
      { r with vars := r.vars.map (Variable.rename ρ), varsDict := r.varsDict.map (mapKeys ρ) }) ∧
    slsqpSolve slsqp trials clip u (p.rename ρ σ) = (slsqpSolve slsqp trials clip u p).map (fun r =>
      { r with vars := r.vars.map (Variable.rename ρ), varsDict := r.varsDict.map (mapKeys ρ) }) :=
  ⟨cobylaSolve_rename hi cobyla trials clip u p, slsqpSolve_rename hi slsqp trials clip u p⟩

/-- Exchange of two names. -/
def swapNames (a b s : String) : String := if s = a then b else if s = b then a else s

theorem swapNames_inj (a b s t : String) (h : swapNames a b s = swapNames a b t) : s = t := by
  unfold swapNames at h
  split_ifs at h <;> simp_all

theorem swapNames_plain {a b : String} (ha : NoAt a) (hb : NoAt b) (ha' : a ≠ "") (hb' : b ≠ "") :
    PlainRenaming (swapNames a b) where
  inj s t _ _ := swapNames_inj a b s t
  plain s hs := by
    unfold swapNames
    split_ifs <;> assumption
  empty := by
    unfold swapNames
    rw [if_neg ha'.symm, if_neg hb'.symm]

example : PlainRenaming (swapNames "b" "x") ∧ PlainRenaming (swapNames "c" "x") ∧ fullQP.Consistent ∧ fullQP.PlainNames ∧
    fullQP.Named ∧ (fullQP.rename (swapNames "b" "x") (swapNames "c" "x")).vars.map Variable.name = ["x", "b", "y"] ∧
    (fullQP.rename (swapNames "b" "x") (swapNames "c" "x")).lins.map LinCst.name = ["x", "e"] :=
  ⟨swapNames_plain (by decide) (by decide) (by decide) (by decide),
    swapNames_plain (by decide) (by decide) (by decide) (by decide), by decide +kernel,
    ⟨by decide +kernel, by decide +kernel, by decide +kernel⟩, ⟨by decide +kernel, by decide +kernel⟩, by decide +kernel,
    by decide +kernel⟩

example : (match fullQP.toQubo none, (fullQP.rename (swapNames "b" "x") (swapNames "c" "x")).toQubo none with
    | .ok st, .ok st' => decide (st'.dst.objective = st.dst.objective ∧
        st.dst.vars.map Variable.name = ["b", "x@0", "x@1", "y@0", "y@1", "c@int_slack@0", "c@int_slack@1"] ∧
        st'.dst.vars.map Variable.name = ["x", "b@0", "b@1", "y@0", "y@1", "x@int_slack@0", "x@int_slack@1"])
    | _, _ => false) = true := by decide +kernel

example : (fullQP.rename (swapNames "b" "x") (swapNames "c" "x")).isFeasible [1, 3, 0] = .ok false ∧
    ((fullQP.rename (swapNames "b" "x") (swapNames "c" "x")).getFeasibilityInfo [1, 3, 0]).toOption.map (fun r =>
      r.2.2.map fun c => match c with | .lin c => c.name | .quad c => c.name) = some ["x", "e"] ∧
    (groverQP.rename (swapNames "x0" "x1") id).toIsing.toOption.map (fun r => (r.1.terms.map Prod.snd, r.2)) =
      some ([-1 / 2, 1], -1 / 2) := by decide +kernel

/-- Two variables with ordinary names. -/
def twoNamesQP : QP :=
  (runCalls (QP.empty "m") [.addVar 0 1 .integer (some "x"), .addVar 0 1 .binary (some "y"),
    .objective .minimize 0 (.dict [(.name "x", 1), (.name "y", -1)]) (.dict [])]).2

/-- **C114 is violated** by names with `@`: next to an integer variable `x`, a variable may not be called `x@0`.  The same program
is accepted with the name `y`. -/
theorem C114_violated : ∃ (p : QP) (ρ : String → String) (st : QuboState), (∀ s t, ρ s = ρ t → s = t) ∧ ρ "" = "" ∧ p.WF ∧
    (p.rename ρ id).WF ∧ p.toQubo none = .ok st ∧ (p.rename ρ id).toQubo none = .error .optimization ∧
    (p.rename ρ id).vars.map Variable.name = ["x", "x@0"] :=
  ⟨twoNamesQP, swapNames "y" "x@0", (match twoNamesQP.toQubo none with | .ok st => st | .error _ => fullState none),
    swapNames_inj _ _, by decide, by decide +kernel, by decide +kernel, by decide +kernel, by decide +kernel, by decide +kernel⟩

end Verif

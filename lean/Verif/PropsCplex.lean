import Verif.Cplex
import Verif.PropsDocplex
import Verif.PropsMultistart

/-!
# C73: the CPLEX optimizer
-/

namespace Verif

/-! ## Specification: a solver that is right -/

/-- The point is feasible and no feasible point is better. -/
def DModel.Optimal (m : DModel) (x : Nat → ℚ) : Prop :=
  m.Feas x ∧ ∀ y, m.Feas y →
    (if m.minimize then m.objective.val x ≤ m.objective.val y else m.objective.val y ≤ m.objective.val x)

/-- A model of expressions in its variables, with linear and quadratic constraints. -/
def DModel.Plain (m : DModel) : Prop := m.WF ∧ ∀ c ∈ m.csts, c.isLin = true ∨ c.isQuad = true

/-- Reported points are optimal, with the reported value. -/
def CplexSound (cplex : DModel → CplexOutcome) : Prop :=
  ∀ m x v, m.Plain → cplex m = .solved x v → x.length = m.vars.length ∧ m.Optimal (pt x) ∧ v = m.objective.val (pt x)

/-- There is an answer for every model with an optimal point. -/
def CplexComplete (cplex : DModel → CplexOutcome) : Prop :=
  ∀ m, m.Plain → (∃ x, m.Optimal x) → ∃ x v, cplex m = .solved x v

/-! ## Such a solver exists -/

/-- The list of the first `n` values. -/
def firstValues (x : Nat → ℚ) (n : Nat) : List ℚ := (List.range n).map x

theorem firstValues_pt (x : Nat → ℚ) {n i : Nat} (h : i < n) : pt (firstValues x n) i = x i := by
  simp [pt, firstValues, List.getD_eq_getElem?_getD, h]

theorem DExpr.val_congr {n : Nat} {e : DExpr} (he : e.WF n) {x y : Nat → ℚ} (h : ∀ i < n, x i = y i) :
    e.val x = e.val y := by
  unfold DExpr.val
  rw [Dict.sum_congr (f := x) (g := y) fun k hk => h k (he.linBound k hk)]
  congr 1
  refine Dict.sum_congr fun k hk => ?_
  rw [h _ (he.quadBound k hk).1, h _ (he.quadBound k hk).2]

theorem DModel.Plain.feas_congr {m : DModel} (hm : m.Plain) {x y : Nat → ℚ} (h : ∀ i < m.vars.length, x i = y i)
    (hx : m.Feas x) : m.Feas y := by
  refine ⟨fun i v hv => ?_, fun c hc => ?_⟩
  · rw [← h i (List.getElem?_eq_some_iff.mp hv).1]
    exact hx.1 i v hv
  · have h1 := hx.2 c hc
    have h2 := hm.1.csts c hc
    cases c with
    | linear l s r nm =>
      simp only [DCst.Holds] at h1 ⊢
      rwa [← DExpr.val_congr h2.1 h, ← DExpr.val_congr h2.2.1 h]
    | quadratic l s r nm =>
      simp only [DCst.Holds] at h1 ⊢
      rwa [← DExpr.val_congr h2.1 h, ← DExpr.val_congr h2.2 h]
    | notEqual l r nm => simpa [DCst.isLin, DCst.isQuad] using hm.2 _ hc
    | other g => simpa [DCst.isLin, DCst.isQuad] using hm.2 _ hc

open Classical in
/-- A solver that is right for every model. -/
noncomputable def idealCplex (m : DModel) : CplexOutcome :=
  if h : ∃ x, m.Optimal x then
    .solved (firstValues h.choose m.vars.length) (m.objective.val (pt (firstValues h.choose m.vars.length)))
  else .raised

theorem idealCplex_right : CplexSound idealCplex ∧ CplexComplete idealCplex := by
  constructor
  · intro m x v hm h
    unfold idealCplex at h
    split at h
    · rename_i hx
      simp only [CplexOutcome.solved.injEq] at h
      obtain ⟨rfl, rfl⟩ := h
      have hc : ∀ i < m.vars.length, hx.choose i = pt (firstValues hx.choose m.vars.length) i :=
        fun i hi => (firstValues_pt _ hi).symm
      obtain ⟨h1, h2⟩ := hx.choose_spec
      refine ⟨by simp [firstValues], ⟨hm.feas_congr hc h1, fun y hy => ?_⟩, rfl⟩
      rw [← DExpr.val_congr hm.1.obj hc]
      exact h2 y hy
    · simp at h
  · intro m _ h
    unfold idealCplex
    rw [dif_pos h]
    exact ⟨_, _, rfl⟩

instance (s : Sense) (a b : ℚ) : Decidable (s.rel a b) := by
  cases s <;> simp only [Sense.rel] <;> infer_instance

/-! ## The exported model -/

theorem exported_plain {p : QP} (hp : p.WF) : (exported p).Plain := ⟨exported_wf hp, export_supported p⟩

theorem exported_objective (p : QP) (x : Nat → ℚ) : (exported p).objective.val x = p.objective.val x := by
  simp only [exported, addPairs_val, addTerms_val, DExpr.val_const]
  rfl

/-- The constraints without terms hold. -/
def QP.NoFalse (p : QP) : Prop :=
  (∀ c ∈ p.lins, c.linear.coeffs = [] → c.sense.rel 0 c.rhs) ∧
    ∀ c ∈ p.quads, c.linear.coeffs = [] → c.quadratic.coeffs = [] → c.sense.rel 0 c.rhs

theorem exported_feas {p : QP} (hb : p.BinBoundsOK) (hf : p.NoFalse) (x : Nat → ℚ) :
    (exported p).Feas x ↔ p.Feas x := by
  unfold DModel.Feas QP.Feas
  rw [exported_csts hf.1 hf.2, ← and_assoc]
  refine and_congr_left fun _ => ?_
  have hv : ∀ v ∈ p.vars, ∀ q, v.toDocplex.Allows q ↔ (v.lb ≤ q ∧ q ≤ v.ub) ∧ (v.vartype ≠ .continuous → ∃ z : Int, q = z) := by
    intro v hv q
    have hb := hb v hv
    unfold DVar.Allows Variable.toDocplex
    cases h : v.vartype with
    | binary =>
      obtain ⟨b1, b2⟩ := hb h
      simp [VarType.toDocplex, b1, b2, and_assoc]
    | integer => simp [VarType.toDocplex, and_assoc]
    | continuous => simp [VarType.toDocplex]
  unfold QP.InBounds QP.Integral
  simp only [exported, List.getElem?_map, Option.map_eq_some_iff]
  constructor
  · intro h
    exact ⟨fun i v hi => ((hv v (List.mem_of_getElem? hi) _).mp (h i _ ⟨v, hi, rfl⟩)).1,
      fun i v hi => ((hv v (List.mem_of_getElem? hi) _).mp (h i _ ⟨v, hi, rfl⟩)).2⟩
  · rintro ⟨h1, h2⟩ i _ ⟨v, hi, rfl⟩
    exact (hv v (List.mem_of_getElem? hi) _).mpr ⟨h1 i v hi, h2 i v hi⟩

theorem exported_optimal {p : QP} (hb : p.BinBoundsOK) (hf : p.NoFalse) (x : Nat → ℚ) :
    (exported p).Optimal x ↔ OptimalIn p.Feas p.objective x := by
  unfold DModel.Optimal OptimalIn
  simp only [exported_feas hb hf, exported_objective]
  refine and_congr_right fun _ => forall_congr' fun y => imp_congr_right fun _ => ?_
  cases h : p.objective.sense with
  | minimize => simp [exported, h, ObjSense.value]
  | maximize => simp [exported, h, ObjSense.value]

/-! ## The property -/

/-- **C73** for programs whose binary variables have the bounds 0 and 1 and whose constraints without terms hold: what
the optimizer returns is optimal for the program, with its value and the status SUCCESS.  The full statement has no
hypothesis about the bounds; without it, it is false (`C73_violated`). -/
theorem C73_optimal_partial {trivial : Bool → Option String → Except Err (List DCst)}
    (ht : ∀ nm, trivial true nm = .ok []) {cplex : DModel → CplexOutcome} (hc : CplexSound cplex) {p : QP} (hp : p.WF)
    (hb : p.BinBoundsOK) (hf : p.NoFalse) {r : Result} (h : cplexSolve trivial cplex p = .ok r) :
    ∃ x, r.x = some x ∧ r.fval = some (p.objective.val (pt x)) ∧ r.status = .success ∧ r.vars = p.vars ∧
      OptimalIn p.Feas p.objective (pt x) := by
  unfold cplexSolve at h
  rw [toDocplex_eq ht hf.1 hf.2] at h
  simp only at h
  cases hs : cplex (exported p) with
  | raised => simp [hs] at h
  | noValues e => simp [hs] at h
  | solved x v =>
    obtain ⟨_, h2, h3⟩ := hc _ x v (exported_plain hp) hs
    have ho := (exported_optimal hb hf _).mp h2
    simp only [hs] at h
    cases hst : feasibilityStatus p x with
    | error e => simp [hst] at h
    | ok st =>
      obtain ⟨c, d, e⟩ := feasibilityStatus_inv hst
      have hl : x.length = p.vars.length := c
      simp only [hst, Result.mk?] at h
      rw [if_neg (by simp [hl])] at h
      cases h
      refine ⟨x, rfl, ?_, e.mpr ⟨ho.1.1, fun k hk => rel_imp_relTol (ho.1.2.2 k hk)⟩, rfl, ho⟩
      simp only [h3, exported_objective]

/-- **C73** (acceptance) under the hypotheses of `C73_optimal_partial`: a program with an optimal point is solved. -/
theorem C73_accepts_partial {trivial : Bool → Option String → Except Err (List DCst)}
    (ht : ∀ nm, trivial true nm = .ok []) {cplex : DModel → CplexOutcome} (hc : CplexSound cplex)
    (hc' : CplexComplete cplex) {p : QP} (hp : p.WF) (hsh : p.ShapeOK) (hb : p.BinBoundsOK) (hf : p.NoFalse)
    (hx : ∃ x, OptimalIn p.Feas p.objective x) : ∃ r, cplexSolve trivial cplex p = .ok r := by
  obtain ⟨x0, hx0⟩ := hx
  obtain ⟨x, v, hs⟩ := hc' _ (exported_plain hp) ⟨x0, (exported_optimal hb hf _).mpr hx0⟩
  obtain ⟨h1, _, _⟩ := hc _ x v (exported_plain hp) hs
  have hl : x.length = p.vars.length := by rw [h1]; simp [exported]
  obtain ⟨st, hst⟩ := feasibilityStatus_ok hsh (x := x) hl
  refine ⟨⟨some x, some v, p.vars, some (Assoc.ofEntries ((p.vars.map Variable.name).zip x)), st, [], []⟩, ?_⟩
  simp only [cplexSolve, toDocplex_eq ht hf.1 hf.2, hs, hst, Result.mk?, hl, ne_eq, not_true, if_false]

/-- The hypotheses of the theorems are met by the sample program and the ideal solver. -/
example : (∀ nm, docplexBool true nm = .ok []) ∧ CplexSound idealCplex ∧ CplexComplete idealCplex ∧ exportSample.WF ∧
    exportSample.ShapeOK ∧ exportSample.BinBoundsOK ∧ exportSample.NoFalse ∧
    OptimalIn exportSample.Feas exportSample.objective (pt [1, 1]) := by
  refine ⟨fun _ => rfl, idealCplex_right.1, idealCplex_right.2, by decide +kernel, by decide +kernel, ?_, ?_, ?_⟩
  · unfold QP.BinBoundsOK; decide +kernel
  · exact ⟨by decide +kernel, by decide +kernel⟩
  · have hv : exportSample.vars = [⟨"b", 0, 1, .binary⟩, ⟨"i", -2, 3, .integer⟩] := by decide +kernel
    have h1 : exportSample.objective.constant = 1 := by decide +kernel
    have h2 : exportSample.objective.linear.coeffs = [(0, 2)] := by decide +kernel
    have h3 : exportSample.objective.quadratic.coeffs = [((0, 1), 3)] := by decide +kernel
    have h4 : exportSample.objective.sense = .maximize := by decide +kernel
    have ho : ∀ x, exportSample.objective.val x = 1 + 2 * x 0 + 3 * (x 0 * x 1) := by
      intro x
      simp [Objective.val, LinExpr.val, QuadExpr.val, h1, h2, h3]
    refine ⟨⟨?_, ?_, ?_⟩, ?_⟩
    · unfold QP.InBounds
      rw [hv]
      intro i v hi
      match i, hi with
      | 0, hi => simp at hi; subst hi; norm_num [pt]
      | 1, hi => simp at hi; subst hi; norm_num [pt]
    · intro i v _ _
      rw [hv] at *
      match i with
      | 0 => exact ⟨1, by simp [pt]⟩
      | 1 => exact ⟨1, by simp [pt]⟩
      | i + 2 => exact ⟨0, by simp [pt]⟩
    · unfold QP.Sat
      decide +kernel
    · intro y ⟨hb, hi, hsat⟩
      rw [h4, ho, ho]
      have hc : (⟨"c", ⟨2, [(0, 1), (1, 1)]⟩, .le, 2⟩ : LinCst) ∈ exportSample.lins := by decide +kernel
      have h5 := (sat_iff.mp hsat).1 _ hc
      simp [LinCst.Holds, LinExpr.val, Sense.rel] at h5
      unfold QP.InBounds at hb
      rw [hv] at hb
      have h6 := hb 0 _ rfl
      obtain ⟨z, hz⟩ := hi 0 ⟨"b", 0, 1, .binary⟩ (by rw [hv]; rfl) (by simp)
      simp only [ObjSense.value, pt]
      simp only at h6
      have hz' : z = 0 ∨ z = 1 := by
        rw [hz] at h6
        have a : (0 : Int) ≤ z := by exact_mod_cast h6.1
        have b : z ≤ 1 := by exact_mod_cast h6.2
        omega
      rcases hz' with rfl | rfl
      · rw [hz]; norm_num
      · rw [hz] at h5 ⊢
        norm_num at h5 ⊢
        linarith

/-- `min b` with a binary variable fixed to 1 by its lower bound. -/
def fixedQP : QP :=
  (runCalls (QP.empty "p") [.addVar 1 1 .binary (some "b"),
    .objective .minimize 0 (.dict [(.name "b", 1)]) (.dict [])]).2

/-- **C73 is false** for a binary variable with other bounds: there is an optimal point, but every sound solver makes
the optimizer return an infeasible point (and there is a sound solver for which it returns). -/
theorem C73_violated : fixedQP.WF ∧ OptimalIn fixedQP.Feas fixedQP.objective (pt [1]) ∧
    (∃ cplex r, CplexSound cplex ∧ cplexSolve docplexBool cplex fixedQP = .ok r) ∧
    ∀ cplex r, CplexSound cplex → cplexSolve docplexBool cplex fixedQP = .ok r → r.status = .infeasible := by
  have hp : fixedQP.WF := by decide +kernel
  have hf : fixedQP.NoFalse := ⟨by decide +kernel, by decide +kernel⟩
  have hv : fixedQP.vars = [⟨"b", 1, 1, .binary⟩] := by decide +kernel
  have hcs : fixedQP.allCsts = [] := by decide +kernel
  have ho : ∀ x, fixedQP.objective.val x = x 0 := by
    intro x
    have h1 : fixedQP.objective.constant = 0 := by decide +kernel
    have h2 : fixedQP.objective.linear.coeffs = [(0, 1)] := by decide +kernel
    have h3 : fixedQP.objective.quadratic.coeffs = [] := by decide +kernel
    simp [Objective.val, LinExpr.val, QuadExpr.val, h1, h2, h3]
  have hs : fixedQP.objective.sense = .minimize := by decide +kernel
  have hfeas : ∀ x, fixedQP.Feas x ↔ x 0 = 1 := by
    intro x
    unfold QP.Feas QP.InBounds QP.Integral QP.Sat
    rw [hv, hcs]
    constructor
    · rintro ⟨h, _⟩
      have := h 0 _ rfl
      exact le_antisymm this.2 this.1
    · intro h
      refine ⟨?_, ?_, by simp⟩
      · intro i v hi
        obtain ⟨i1, rfl⟩ := List.getElem?_eq_some_iff.mp hi
        simp only [List.length_singleton, Nat.lt_one_iff] at i1
        subst i1
        simp [h]
      · intro i v hi _
        obtain ⟨i1, rfl⟩ := List.getElem?_eq_some_iff.mp hi
        simp only [List.length_singleton, Nat.lt_one_iff] at i1
        subst i1
        exact ⟨1, by simp [h]⟩
  have hmf : ∀ x, (exported fixedQP).Feas x ↔ x 0 = 0 ∨ x 0 = 1 := by
    intro x
    have e1 : (exported fixedQP).vars = [⟨some "b", 0, 1, .binary⟩] := by
      simp [exported, hv, Variable.toDocplex, VarType.toDocplex]
    unfold DModel.Feas
    rw [exported_csts hf.1 hf.2, QP.Sat, hcs, e1]
    constructor
    · rintro ⟨h, _⟩
      obtain ⟨a, b, c⟩ := h 0 _ rfl
      obtain ⟨z, hz⟩ := c (by simp)
      rw [hz] at a b ⊢
      simp only at a b
      have a : (0 : Int) ≤ z := by exact_mod_cast a
      have b : z ≤ 1 := by exact_mod_cast b
      rcases (show z = 0 ∨ z = 1 by omega) with rfl | rfl <;> simp
    · intro h
      refine ⟨?_, by simp⟩
      intro i v hi
      obtain ⟨i1, rfl⟩ := List.getElem?_eq_some_iff.mp hi
      simp only [List.length_singleton, Nat.lt_one_iff] at i1
      subst i1
      rcases h with h | h
      · exact ⟨by simp [h], by simp [h], fun _ => ⟨0, by simp [h]⟩⟩
      · exact ⟨by simp [h], by simp [h], fun _ => ⟨1, by simp [h]⟩⟩
  have hmin : (exported fixedQP).minimize = true := by simp [exported, hs]
  have hopt : ∀ x, (exported fixedQP).Optimal x ↔ x 0 = 0 := by
    intro x
    unfold DModel.Optimal
    simp only [hmin, if_true, exported_objective, ho, hmf]
    constructor
    · rintro ⟨h1 | h1, h2⟩
      · exact h1
      · have := h2 (fun _ => 0) (Or.inl rfl)
        rw [h1] at this
        norm_num at this
    · intro h
      refine ⟨Or.inl h, fun y hy => ?_⟩
      rcases hy with hy | hy <;> rw [h, hy] <;> norm_num
  refine ⟨hp, ⟨(hfeas _).mpr (by simp [pt]), fun y hy => ?_⟩, ⟨idealCplex, ?_⟩, ?_⟩
  · rw [ho, ho, (hfeas y).mp hy]
    simp [pt]
  · obtain ⟨x, v, hs⟩ := idealCplex_right.2 _ (exported_plain hp) ⟨fun _ => 0, (hopt _).mpr rfl⟩
    have hl := (idealCplex_right.1 _ _ _ (exported_plain hp) hs).1
    have hl : x.length = fixedQP.vars.length := by rw [hl]; simp [exported]
    obtain ⟨st, hst⟩ := feasibilityStatus_ok (p := fixedQP) (by decide +kernel) hl
    refine ⟨⟨some x, some v, fixedQP.vars, some (Assoc.ofEntries ((fixedQP.vars.map Variable.name).zip x)), st, [], []⟩,
      idealCplex_right.1, ?_⟩
    have ht : toDocplex docplexBool fixedQP = .ok (exported fixedQP) := toDocplex_eq (fun _ => rfl) hf.1 hf.2
    simp only [cplexSolve, ht, hs, hst, Result.mk?, hl, ne_eq, not_true, if_false]
  · intro cplex r hc h
    have ht : toDocplex docplexBool fixedQP = .ok (exported fixedQP) := toDocplex_eq (fun _ => rfl) hf.1 hf.2
    unfold cplexSolve at h
    rw [ht] at h
    simp only at h
    cases hs : cplex (exported fixedQP) with
    | raised => simp [hs] at h
    | noValues e => simp [hs] at h
    | solved x v =>
      obtain ⟨_, h2, _⟩ := hc _ x v (exported_plain hp) hs
      have h0 := (hopt _).mp h2
      simp only [hs] at h
      cases hst : feasibilityStatus fixedQP x with
      | error e => simp [hst] at h
      | ok st =>
        obtain ⟨c, d, e⟩ := feasibilityStatus_inv hst
        have hl : x.length = fixedQP.vars.length := c
        simp only [hst, Result.mk?] at h
        rw [if_neg (by simp [hl])] at h
        cases h
        rcases d with d | d
        · have hb := (e.mp d).1
          unfold QP.InBounds at hb
          rw [hv] at hb
          have := (hb 0 _ rfl).1
          rw [h0] at this
          norm_num at this
        · exact d

end Verif

import Verif.PropsAdmmSteps
import Verif.PropsWarmStart

/-!
# The relaxations that warm starts are taken from (C96)
-/

namespace Verif

/-- `r` is the continuous relaxation of `q`: the same variables without integrality, the same constraints and objective. -/
structure Relaxes (q r : QP) : Prop where
  names : r.vars.map Variable.name = q.vars.map Variable.name
  types : ∀ v ∈ r.vars, v.vartype = .continuous
  feas : ∀ x, r.Feas x ↔ q.InBounds x ∧ q.Sat x
  sense : r.objective.sense = q.objective.sense
  value : ∀ x, r.objective.val x = q.objective.val x

theorem relax_relaxes (q : QP) : Relaxes q { q with vars := q.vars.map fun v => { v with vartype := .continuous } } := by
  refine ⟨by simp, by simp, fun x => ?_, rfl, fun x => rfl⟩
  unfold QP.Feas QP.InBounds QP.Integral
  refine ⟨fun ⟨h1, _, h3⟩ => ⟨fun i v hv => ?_, h3⟩, fun ⟨h1, h2⟩ => ⟨fun i v hv => ?_, fun i v hv hne => ?_, h2⟩⟩
  · exact h1 i { v with vartype := .continuous } (by simp [hv])
  · simp only [List.getElem?_map, Option.map_eq_some_iff] at hv
    obtain ⟨w, hw, rfl⟩ := hv
    exact h1 i w hw
  · simp only [List.getElem?_map, Option.map_eq_some_iff] at hv
    obtain ⟨w, hw, rfl⟩ := hv
    simp at hne

/-- **C96** (bound): an optimum of the relaxation is at least as good as every feasible point of the program, and it is an
optimum of the program if it is integral. -/
theorem C96_bound (q r : QP) (h : Relaxes q r) (x : Nat → ℚ) (hx : OptimalIn r.Feas r.objective x) :
    (∀ y, q.Feas y → q.objective.sense.value * q.objective.val x ≤ q.objective.sense.value * q.objective.val y) ∧
      (q.Integral x → OptimalIn q.Feas q.objective x) := by
  have hb : ∀ y, q.Feas y → q.objective.sense.value * q.objective.val x ≤ q.objective.sense.value * q.objective.val y := by
    intro y hy
    have := hx.2 y ((h.feas y).mpr ⟨hy.1, hy.2.2⟩)
    rwa [h.sense, h.value, h.value] at this
  exact ⟨hb, fun hi => ⟨⟨((h.feas x).mp hx.1).1, hi, ((h.feas x).mp hx.1).2⟩, hb⟩⟩

example : Relaxes warmQP warmQP.relaxAll ∧ OptimalIn warmQP.relaxAll.Feas warmQP.relaxAll.objective (pt [0]) ∧
    warmQP.relaxAll.Feas (pt [1 / 2]) ∧ ¬ warmQP.Feas (pt [1 / 2]) := by
  have hv : warmQP.vars = [⟨"b", 0, 1, .binary⟩] := by decide +kernel
  have hl : warmQP.allCsts = [] := by decide +kernel
  have hr : Relaxes warmQP warmQP.relaxAll := relax_relaxes warmQP
  have hb : ∀ x, warmQP.InBounds x ↔ 0 ≤ x 0 ∧ x 0 ≤ 1 := by
    intro x
    unfold QP.InBounds
    rw [hv]
    refine ⟨fun h => h 0 _ rfl, fun h i v hi => ?_⟩
    match i, hi with
    | 0, hi =>
      simp only [List.getElem?_cons_zero, Option.some.injEq] at hi
      subst hi
      exact h
    | i + 1, hi => simp at hi
  have hs : ∀ x, warmQP.Sat x := fun x c hc => by rw [hl] at hc; simp at hc
  have hval : ∀ x, warmQP.objective.val x = x 0 := fun x => by
    have : warmQP.objective.constant = 0 ∧ warmQP.objective.linear.coeffs = [(0, 1)] ∧
      warmQP.objective.quadratic.coeffs = [] := by decide +kernel
    simp [Objective.val, LinExpr.val, QuadExpr.val, this, Dict.sum]
  refine ⟨hr, ⟨(hr.feas _).mpr ⟨(hb _).mpr (by simp [pt]), hs _⟩, fun y hy => ?_⟩,
    (hr.feas _).mpr ⟨(hb _).mpr (by norm_num [pt]), hs _⟩, fun h => ?_⟩
  · have h1 := ((hb y).mp ((hr.feas y).mp hy).1).1
    have hm : warmQP.objective.sense = .minimize := by decide +kernel
    rw [hr.sense, hr.value, hr.value, hval, hval, hm]
    simpa [ObjSense.value, pt] using h1
  · obtain ⟨z, hz⟩ := h.2.1 0 ⟨"b", 0, 1, .binary⟩ (by rw [hv]; rfl) (by decide)
    have h2 : (1 : ℚ) = 2 * z := by rw [← hz]; norm_num [pt]
    have h3 : (1 : ℤ) = 2 * z := by exact_mod_cast h2
    omega

/-- **C96** (warm start QAOA): the pre-solver gets the converted program, or its continuous relaxation if that was asked
for, and has to report success. -/
theorem C96_presolver (preSolve : QP → Except Err (ResStatus × List Sample)) (relax : Bool)
    (qaoa : List ℚ → QubitOp → Option Eigenstate) (eps : ℚ) (k : Nat) (convs : List Converter) (p : QP) (r : Result)
    (h : warmStartSolve preSolve relax qaoa eps k convs p = .ok r) :
    ∃ q fs q' pre, convertAll convs p = .ok (q, fs) ∧ preSolve q' = .ok (.success, pre) ∧
      (relax = false → q' = q) ∧ (relax = true → Relaxes q q') := by
  obtain ⟨_, _, _, q, fs, pre, op, offset, rs, h1, h2, _⟩ := warmStartSolve_inv h
  refine ⟨q, fs, _, pre, h1, h2, fun hr => by simp [hr], fun hr => ?_⟩
  rw [if_pos hr]
  exact relax_relaxes q

example : (warmStartSolve cornerPre true oneQubit (1 / 4) 1 [quboConverter none] warmQP).isOk = true := by decide +kernel

/-- **C96** (ADMM): with `warm_start` the continuous optimizer is first asked for the continuous relaxation of the program
that ADMM works on, and the first program of step 1 is built with the values of the binary variables in its answer for `z`
and zeros for `y`. -/
theorem C96_admm (qubo cont : Solver) (norm : List ℚ → ℚ) (clock : Nat → Bool) (prm : AdmmParams) (p : QP) (hp : p.WF)
    (hw : prm.warmStart = true) (a : AdmmResult) (h : admmSolve qubo cont norm clock prm p = .ok a) :
    ∃ conv q r x, p.intToBin = .ok conv ∧ turnToMinimization conv.dst = .ok q ∧ Relaxes q r ∧ cont 0 r = .ok x ∧
      x.length = q.numVars ∧ (a.rep.step1Abs ≠ [] → ∃ z y op w x0,
        (∀ i v, q.vars[i]? = some v → v.vartype = .binary → pt z (q.rank .binary i) = pt x i) ∧ (∀ i, pt y i = 0) ∧
        Step1Program prm q a.rep.step1Abs prm.rhoInitial (List.replicate (q.countType .binary) 0) z y op ∧
        qubo 0 op = .ok w ∧ a.state.x0Saved[0]? = some x0 ∧
        ∀ j i : Nat, a.rep.step1Abs[j]? = some i → pt x0 (q.rank .binary i) = pt w j) := by
  obtain ⟨conv, q, start, hist, hf⟩ := admmSolve_facts hp h
  have hst := hf.hstart
  rw [if_pos hw] at hst
  unfold admmWarmStart at hst
  cases hs : checkedSolve cont 0 { q with vars := q.vars.map fun v => { v with vartype := .continuous } } with
  | error e => simp [hs] at hst
  | ok x =>
    simp only [hs] at hst
    cases h1 : takeIdx x (variableIndices .binary q) with
    | error e => simp [h1] at hst
    | ok b =>
      simp only [h1] at hst
      cases h2 : takeIdx x (variableIndices .continuous q) with
      | error e => simp [h2] at hst
      | ok c =>
        simp only [h2, Except.ok.injEq] at hst
        obtain ⟨c1, c2⟩ := checkedSolve_inv hs
        refine ⟨conv, q, _, x, hf.hconv, hf.turn, relax_relaxes q, c1, by simpa [QP.numVars] using c2, fun hsel => ?_⟩
        obtain ⟨k, g', k1, _⟩ := hf.best
        obtain ⟨hk, _⟩ := List.getElem?_eq_some_iff.mp k1
        obtain ⟨g, hg⟩ : ∃ g, hist[0]? = some g := ⟨_, List.getElem?_eq_getElem (by omega)⟩
        obtain ⟨s, t, hb, rfl, h0, _⟩ := hf.ran 0 g hg
        obtain ⟨b1, _, _⟩ := admmBlocks_inv hb
        obtain ⟨f1, f2⟩ := hf.trace.first _ hg
        obtain ⟨_, e2, e3⟩ := h0 rfl
        simp only at f1 f2
        rcases updateX0_inv hf.wf hf.rep b1 with ⟨e, _⟩ | ⟨_, op, w, w1, w2, w3, w4, w5, w6⟩
        · exact absurd e hsel
        · have hp1 := step1Program_of hf.wf hf.rep w1
          rw [f1, f2] at hp1
          refine ⟨s.z, s.y, op, w, t.x0, ?_, ?_, hp1, w2, by rw [hf.trace.x0s, List.getElem?_map, hg]; rfl, w5⟩
          · intro i v hv hbin
            rw [e2, ← hst]
            exact (takeIdx_pt h1 hv hbin).symm
          · rw [e3]
            exact (admmStart_zero hf.hstart).1

example : admmQP.WF ∧ (admmSolve admmQubo (fun t op => if t = 0 then .ok [1, 2, 1] else admmCont t op) norm1 (fun _ => true)
      { admmDefaults 2 with warmStart := true } admmQP).toOption.map
    (fun a => (a.rep.step1Abs, a.state.x0Saved, a.point)) = some ([0, 2], [[0, 0], [1, 0]], [1, 1, 0]) := by decide +kernel

end Verif

import Verif.AdmmRun

/-!
# Properties of the ADMM optimizer: C34 (sign), C35
-/

namespace Verif

/-! ## A run, for the examples -/

/-- Sum of the absolute values. -/
def norm1 (v : List ℚ) : ℚ := (v.map fun a => |a|).sum

/-- The default parameters (`admm_optimizer.py:50-65`) with at most `n` iterations. -/
def admmDefaults (n : Nat) : AdmmParams :=
  ⟨10000, 100000, 1000, n, 1 / 10000, true, 0, 2, 2, 10, 1000, false⟩

/-- Two binary variables with a continuous variable between them, an equality of the binary variables, a mixed
inequality. -/
def admmQP : QP :=
  (runCalls (QP.empty "") [.addVar 0 1 .binary (some "a"), .addVar 0 5 .continuous (some "u"),
    .addVar 0 1 .binary (some "b"),
    .linear (.dict [(.idx 0, 1), (.idx 2, 1)]) (.sense .eq) 1 (some "c0"),
    .linear (.dict [(.idx 0, 1), (.idx 1, 1)]) (.sense .ge) 2 (some "c1"),
    .objective .maximize 7 (.list [-1, 0, -3]) (.dict [((.idx 1, .idx 1), -1)])]).2

/-- Answers by the number of the call. -/
def admmQubo : Solver := fun t _ => .ok (if t = 0 then [0, 0] else [1, 0])

/-- Answers by the number of the call. -/
def admmCont : Solver := fun t _ => .ok (if t = 1 then [1, 2, 0] else if t = 3 then [1, 1, 0] else [0, 0])

/-! ## C34 -/

/-- **C34** (ADMM): the program handed to the iterations is a minimization program with the same variables and
constraints; at every point its objective is the original one, negated when that is maximized.  Every program is
accepted. -/
theorem C34_admm_sign (p : QP) : ∃ q, turnToMinimization p = .ok q ∧ q.objective.sense = .minimize ∧
    (∀ x, q.objective.val x = if p.objective.sense = .maximize then -p.objective.val x else p.objective.val x) ∧
    q.vars = p.vars ∧ q.varsIndex = p.varsIndex ∧ q.lins = p.lins ∧ q.quads = p.quads := turnToMinimization_sign p

example : admmQP.objective.sense = .maximize ∧
    (turnToMinimization admmQP).toOption.map (fun q => q.objective.val (pt [1, 1, 0])) = some (-5) := by decide +kernel

/-! ## C35 -/

/-- **C35** (residual): the constraint residual is the sum of the violations of all constraints; it is non-negative, and
zero iff all constraints hold. -/
theorem C35_residual (p : QP) (r : AdmmRep) (hr : admmRep p = .ok r) (x : List ℚ) (v : ℚ)
    (h : constraintResidual r x = .ok v) :
    v = p.violation (pt x) ∧ 0 ≤ v ∧ (v = 0 ↔ p.Sat (pt x)) := by
  have := constraintResidual_inv hr h
  subst this
  exact ⟨rfl, p.violation_nonneg _, p.violation_eq_zero _⟩

example : (admmRep admmQP).toOption.map (fun r => (constraintResidual r [1, 1, 0], constraintResidual r [0, 1, 0])) =
    some (.ok 0, .ok 2) := by decide +kernel

/-- **C35** (best iterate): `solve` returns the iterate whose merit, cost plus weighted violation, is the smallest one
of all iterations; the first one of those.  So if an iterate satisfies the constraints, the merit of the returned one is
not above its cost. -/
theorem C35_best (qubo cont : Solver) (norm : List ℚ → ℚ) (clock : Nat → Bool) (prm : AdmmParams) (p : QP) (hp : p.WF)
    (a : AdmmResult) (h : admmSolve qubo cont norm clock prm p = .ok a) :
    ∃ conv q, p.intToBin = .ok conv ∧ turnToMinimization conv.dst = .ok q ∧
      a.state.x0Saved.length = a.state.uSaved.length ∧ a.state.x0Saved.length ≤ prm.maxiter ∧
      ∃ (k : Nat) (b c : List ℚ), a.state.x0Saved[k]? = some b ∧ a.state.uSaved[k]? = some c ∧ Assembles q b c a.point ∧
        ∀ (j : Nat) (b' c' : List ℚ), a.state.x0Saved[j]? = some b' → a.state.uSaved[j]? = some c' → ∃ x, Assembles q b' c' x ∧
          q.objective.val (pt a.point) + prm.muMerit * q.violation (pt a.point) ≤
            q.objective.val (pt x) + prm.muMerit * q.violation (pt x) ∧
          (j < k → q.objective.val (pt a.point) + prm.muMerit * q.violation (pt a.point) <
            q.objective.val (pt x) + prm.muMerit * q.violation (pt x)) ∧
          (q.Sat (pt x) → q.objective.val (pt a.point) + prm.muMerit * q.violation (pt a.point) ≤
            q.objective.val (pt x)) := by
  obtain ⟨conv, q, start, hist, hf⟩ := admmSolve_facts hp h
  obtain ⟨k, it, k1, k2, k3⟩ := hf.best
  refine ⟨conv, q, hf.hconv, hf.turn, by rw [hf.trace.x0s, hf.trace.us, List.length_map, List.length_map],
    by rw [hf.trace.x0s, List.length_map]; exact hf.short, k, it.x0, it.u, by rw [hf.trace.x0s]; simp [k1],
    by rw [hf.trace.us]; simp [k1], k2, ?_⟩
  intro j b' c' hb hc
  rw [hf.trace.x0s, List.getElem?_map] at hb
  rw [hf.trace.us, List.getElem?_map] at hc
  cases hj : hist[j]? with
  | none => simp [hj] at hb
  | some g =>
    simp only [hj, Option.map_some, Option.some.injEq] at hb hc
    subst hb hc
    obtain ⟨x, hx, _⟩ := (hf.trace.steps j g hj).point
    obtain ⟨m1, m2⟩ := k3 j g x hj hx
    refine ⟨x, hx, m1, m2, fun hs => ?_⟩
    rw [(q.violation_eq_zero _).mpr hs, mul_zero, add_zero] at m1
    exact m1

example : admmQP.WF ∧ (admmSolve admmQubo admmCont norm1 (fun _ => true) (admmDefaults 2) admmQP).toOption.map
    (fun a => (a.state.x0Saved, a.state.uSaved, a.state.merits, a.point)) =
      some ([[0, 0], [1, 0]], [[2], [1]], [997, -5], [1, 1, 0]) := by decide +kernel

/-- **C35** (the returned point): with a non-negative merit weight the objective of the returned point, in the original
program and with its sense, is not worse than that of any iterate that satisfies the original constraints. -/
theorem C35_returned (qubo cont : Solver) (norm : List ℚ → ℚ) (clock : Nat → Bool) (prm : AdmmParams) (p : QP)
    (hp : p.WF) (hi : p.IntBoundsOK) (ho : ProductsOK p p.objective.quadratic)
    (hq : ∀ c ∈ p.quads, ProductsOK p c.quadratic) (hmu : 0 ≤ prm.muMerit)
    (a : AdmmResult) (h : admmSolve qubo cont norm clock prm p = .ok a) :
    ∃ y, a.result.x = some y ∧ a.result.fval = some (p.objective.val (pt y)) ∧
      (a.result.status = .success ↔ p.FeasTol (pt y)) ∧
      ∃ conv, p.intToBin = .ok conv ∧ conv.interpret a.point = .ok y ∧
        ∀ (j : Nat) (b c x w : List ℚ), a.state.x0Saved[j]? = some b → a.state.uSaved[j]? = some c → Assembles conv.dst b c x →
          conv.interpret x = .ok w → p.Sat (pt w) →
          p.objective.sense.value * p.objective.val (pt y) ≤ p.objective.sense.value * p.objective.val (pt w) := by
  obtain ⟨conv, q, start, hist, hf⟩ := admmSolve_facts hp h
  obtain ⟨k, it, k1, k2, k3⟩ := hf.best
  obtain ⟨y, y1, y2, y3, y4, y5, y6, y7, _⟩ := C29_result p hp.cons.vars.2 _ _ _ _ _ hf.interp
  obtain ⟨q', hq', s1, s2, s3, s4, s5, s6⟩ := turnToMinimization_sign conv.dst
  have hqq := hf.turn
  rw [hq', Except.ok.injEq] at hqq
  subst hqq
  have hy : conv.interpret a.point = .ok y := by
    rw [interprets_iff] at y1
    simp only [interpretAll, List.reverse_singleton, interpretRev] at y1
    cases hc : conv.interpret a.point with
    | error e => simp [hc] at y1
    | ok z => simpa [hc] using y1
  refine ⟨y, y2, y5, y7, conv, hf.hconv, hy, ?_⟩
  intro j b c x w hb hc hx hw hsat
  rw [hf.trace.x0s, List.getElem?_map] at hb
  rw [hf.trace.us, List.getElem?_map] at hc
  cases hj : hist[j]? with
  | none => simp [hj] at hb
  | some g =>
    simp only [hj, Option.map_some, Option.some.injEq] at hb hc
    subst hb hc
    have hx' : Assembles q' g.x0 g.u x := by
      unfold Assembles QP.numVars QP.rank at *; rw [s3]; exact hx
    obtain ⟨m1, _⟩ := k3 j g x hj hx'
    obtain ⟨_, a2, a3, _⟩ := C16_preserved_partial p hp hi conv hf.hconv a.point y hy
    obtain ⟨_, _, b3, b4⟩ := C16_preserved_partial p hp hi conv hf.hconv x w hw
    have hsat' : q'.Sat (pt x) := by
      have := (b4 hq).mpr hsat
      unfold QP.Sat QP.allCsts at *; rw [s5, s6]; exact this
    have hv := mul_nonneg hmu (q'.violation_nonneg (pt a.point))
    rw [(q'.violation_eq_zero _).mpr hsat', mul_zero, add_zero, s2, s2, a3 ho, b3 ho, a2] at m1
    cases hsn : p.objective.sense with
    | minimize => simp [hsn] at m1; simp [ObjSense.value]; linarith
    | maximize => simp [hsn] at m1; simp [ObjSense.value]; linarith

example : admmQP.WF ∧ admmQP.IntBoundsOK ∧ ProductsOK admmQP admmQP.objective.quadratic ∧
    (∀ c ∈ admmQP.quads, ProductsOK admmQP c.quadratic) ∧ 0 ≤ (admmDefaults 2).muMerit ∧
    (admmSolve admmQubo admmCont norm1 (fun _ => true) (admmDefaults 2) admmQP).toOption.map
      (fun a => (a.result.x, a.result.fval, a.result.status)) = some (some [1, 1, 0], some 5, .success) := by
  have hni : ∀ v ∈ admmQP.vars, v.vartype ≠ .integer := by decide +kernel
  have hq : admmQP.quads = [] := by decide +kernel
  refine ⟨by decide +kernel, fun v hv ht => absurd ht (hni v hv), ?_, by simp [hq], by decide +kernel, by decide +kernel⟩
  intro k _ v w hv _ ht
  exact absurd ht (hni v (List.mem_of_getElem? hv))

end Verif

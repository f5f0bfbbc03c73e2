import Verif.AdmmSteps2
import Verif.PropsAdmm

/-!
# Properties of the steps of ADMM: C62 (step 1), C63 (step 2), C64 (step 3, multipliers), C65 (separability)

`q` is the converted minimization program.  The augmented Lagrangian is
`f (x) + c / 2 * |A x - b| ^ 2 + phi (u) + beta / 2 * |y| ^ 2 + lam . (x - z - y) + rho / 2 * |x - z - y| ^ 2`
with `f`, `A x = b` the part of the objective and the equalities of binary variables, `phi` the rest of the objective.
-/

namespace Verif

/-! ## Specifications -/

/-- `op` minimizes the augmented Lagrangian over the binary variables at the positions `sel`; the other variables are
zero. -/
structure Step1Program (prm : AdmmParams) (q : QP) (sel : List Nat) (rho : ℚ) (lam z y : List ℚ) (op : QP) : Prop where
  vars : ∀ (k i : Nat) (v : Variable), sel[k]? = some i → q.vars[i]? = some v → op.vars[k]? = some ⟨v.name, 0, 1, .binary⟩
  count : op.numVars = sel.length
  lins : op.lins = []
  quads : op.quads = []
  sense : op.objective.sense = .minimize
  value : ∃ K, ∀ w x : Nat → ℚ, (∀ k i : Nat, sel[k]? = some i → x i = w k) → (∀ i, i ∉ sel → x i = 0) →
    op.objective.val w + K = q.objective.val x + prm.factorC / 2 * q.binEqSquares x + q.coupling rho lam x z y

/-- `op` has the variables of `q`, the binary ones relaxed to `[0, 1]`, and the constraints of `q` but the equalities of
binary variables. -/
structure Step2Shape (q op : QP) : Prop where
  vars : op.vars = q.vars.map fun v => if v.vartype = .binary then ⟨v.name, 0, 1, .continuous⟩ else v
  lins : op.lins = q.lins.filter fun c => !c.isBinEq q
  quads : op.quads = q.quads
  sense : op.objective.sense = .minimize

/-- `op` minimizes the augmented Lagrangian over `u` and `z`; these are given together as `v`. -/
def Step2Value (q : QP) (rho : ℚ) (lam x0 y : List ℚ) (op : QP) : Prop :=
  ∃ K, ∀ v x : Nat → ℚ, ∀ z : List ℚ, (∀ i, q.isBinary i → x i = pt x0 (q.rank .binary i)) →
    (∀ i, q.isBinary i → pt z (q.rank .binary i) = v i) →
    op.objective.val v + K = q.objective.val (q.dropBinary v) + q.coupling rho lam x z y

/-- `op` minimizes the augmented Lagrangian over `y`. -/
structure Step3Program (prm : AdmmParams) (q : QP) (rho : ℚ) (lam x0 z : List ℚ) (op : QP) : Prop where
  vars : ∀ (i : Nat) (v : Variable), q.vars[i]? = some v → v.vartype = .binary →
    op.vars[q.rank .binary i]? = some ⟨v.name, -INFINITY, INFINITY, .continuous⟩
  count : op.numVars = q.countType .binary
  lins : op.lins = []
  quads : op.quads = []
  sense : op.objective.sense = .minimize
  value : ∃ K, ∀ y : Nat → ℚ, op.objective.val y + K = ((List.range (q.countType .binary)).map fun j =>
    prm.beta / 2 * y j ^ 2 + pt lam j * (pt x0 j - pt z j - y j) + rho / 2 * (pt x0 j - pt z j - y j) ^ 2).sum

/-! ## Lemmas -/

theorem varName_eq {vars : List Variable} {i : Nat} {v : Variable} (h : vars[i]? = some v) :
    varName vars i = v.name := by simp [varName, h]

theorem step1Program_of {prm : AdmmParams} {q : QP} (hq : q.WF) {r : AdmmRep} (hr : admmRep q = .ok r) {s : AdmmState}
    {op : QP} (h : step1Problem prm r s = .ok op) :
    Step1Program prm q r.step1Abs s.rho s.lam s.z s.y op := by
  obtain ⟨h1, h2, h3, h4, _⟩ := step1Problem_vars h
  have hop := (admmRep_inv hr).1
  refine ⟨?_, by rw [QP.numVars, h1, List.length_map], h2, h3, h4, step1_value hq hr h⟩
  intro k i v hk hi
  rw [h1, List.getElem?_map, hk, Option.map_some, hop, varName_eq hi]

theorem updateX1_inv {cont : Solver} {t : Nat} {q : QP} {r : AdmmRep} (hr : admmRep q = .ok r)
    {s : AdmmState} {u z : List ℚ} (h : updateX1 cont t r s = .ok (u, z)) :
    ∃ op v, step2Problem r s = .ok op ∧ cont t op = .ok v ∧ v.length = op.numVars ∧
      takeIdx v (variableIndices .continuous q) = .ok u ∧ takeIdx v (variableIndices .binary q) = .ok z := by
  obtain ⟨_, h2, h3, _⟩ := admmRep_inv hr
  unfold updateX1 at h
  cases h1 : step2Problem r s with
  | error e => simp [h1] at h
  | ok op =>
    simp only [h1] at h
    cases hs : checkedSolve cont t op with
    | error e => simp [hs] at h
    | ok v =>
      simp only [hs, h2, h3] at h
      obtain ⟨c1, c2⟩ := checkedSolve_inv hs
      cases hu : takeIdx v (variableIndices .continuous q) with
      | error e => simp [hu] at h
      | ok u' =>
        cases hz : takeIdx v (variableIndices .binary q) with
        | error e => simp [hu, hz] at h
        | ok z' =>
          simp only [hu, hz, Except.ok.injEq, Prod.mk.injEq] at h
          obtain ⟨rfl, rfl⟩ := h
          exact ⟨op, v, rfl, c1, c2, hu, hz⟩

theorem takeIdx_pt {q : QP} {t : VarType} {v z : List ℚ} (h : takeIdx v (variableIndices t q) = .ok z)
    {i : Nat} {w : Variable} (hi : q.vars[i]? = some w) (hw : w.vartype = t) : pt v i = pt z (q.rank t i) := by
  obtain ⟨_, rfl⟩ := takeIdx_inv h
  have := (variableIndices_getElem? t q (q.rank t i) i).mpr ⟨w, hi, hw, rfl⟩
  simp [pt, List.getD_eq_getElem?_getD, this]

theorem updateY_inv {cont : Solver} {t : Nat} {prm : AdmmParams} {q : QP} {r : AdmmRep}
    (hr : admmRep q = .ok r) {s : AdmmState} {y : List ℚ} (h : updateY cont t prm r s = .ok y) :
    (prm.threeBlock = true ∧ 0 < q.countType .binary ∧ ∃ op, cont t op = .ok y ∧ y.length = op.numVars ∧
      Step3Program prm q s.rho s.lam s.x0 s.z op) ∨
    ((prm.threeBlock = false ∨ q.countType .binary = 0) ∧ y = s.y) := by
  obtain ⟨hop, h2, _⟩ := admmRep_inv hr
  have hm : r.binIdx.length = q.countType .binary := by rw [h2, variableIndices_length]
  unfold updateY at h
  split at h
  · rename_i hc
    left
    refine ⟨hc.1, by rw [← hm]; exact List.length_pos_of_ne_nil hc.2, ?_⟩
    cases h1 : step3Problem prm r s with
    | error e => simp [h1] at h
    | ok op =>
      simp only [h1] at h
      obtain ⟨c1, c2⟩ := checkedSolve_inv h
      obtain ⟨g1, g2, g3, g4, _, g5⟩ := step3_value h1
      rw [hm] at g5
      refine ⟨op, c1, c2, ?_, by rw [QP.numVars, g1, List.length_map, hm], g2, g3, g4, g5⟩
      intro i v hi hv
      rw [g1, List.getElem?_map, h2, (variableIndices_getElem? .binary q _ i).mpr ⟨v, hi, hv, rfl⟩, Option.map_some,
        hop, varName_eq hi]
  · rename_i hc
    right
    simp only [Except.ok.injEq] at h
    refine ⟨?_, h.symm⟩
    rw [← hm, List.length_eq_zero_iff]
    by_cases ht : prm.threeBlock = true
    · right
      by_contra hb
      exact hc ⟨ht, hb⟩
    · left; simpa using ht

/-- The values of `z` and `y` before iteration `k`. -/
def Before (prm : AdmmParams) (hist : List Iterate) (k : Nat) (z y : List ℚ) : Prop :=
  (k = 0 → (∀ i, pt y i = 0) ∧ (prm.warmStart = false → ∀ i, pt z i = 0)) ∧
    ∀ (j : Nat) (g : Iterate), k = j + 1 → hist[j]? = some g → z = g.z ∧ y = g.y

theorem admmStart_zero {cont : Solver} {prm : AdmmParams} {q : QP} {start : AdmmState}
    (h : (if prm.warmStart then admmWarmStart cont q (admmInit prm q) else .ok (admmInit prm q)) = .ok start) :
    (∀ i, pt start.y i = 0) ∧ (prm.warmStart = false → ∀ i, pt start.z i = 0) := by
  have hz : ∀ m i, pt (List.replicate m (0 : ℚ)) i = 0 := by
    intro m i
    simp only [pt, List.getD_eq_getElem?_getD, List.getElem?_replicate]
    split <;> rfl
  split at h
  · rename_i hw
    refine ⟨?_, fun h => by simp [hw] at h⟩
    unfold admmWarmStart at h
    split at h
    · simp at h
    · split at h
      · simp at h
      · split at h
        · simp at h
        · simp only [Except.ok.injEq] at h
          rw [← h]
          exact hz _
  · simp only [Except.ok.injEq] at h
    rw [← h]
    exact ⟨hz _, fun _ => hz _⟩

/-- One iteration: the values before it, the calls of the solvers. -/
theorem iteration_facts {qubo cont : Solver} {norm : List ℚ → ℚ} {prm : AdmmParams} {p : QP} {a : AdmmResult}
    {conv : I2B} {q : QP} {start : AdmmState} {hist : List Iterate}
    (hf : AdmmFacts qubo cont norm prm p a conv q start hist) {k : Nat} {g : Iterate} (hk : hist[k]? = some g) :
    ∃ s : AdmmState, Before prm hist k s.z s.y ∧ s.rho = g.rho ∧ s.lam = g.lam ∧
      updateX0 qubo k prm a.rep s = .ok g.x0 ∧
      updateX1 cont (2 * k + 1) a.rep { s with x0 := g.x0 } = .ok (g.u, g.z) ∧
      updateY cont (2 * k + 2) prm a.rep { s with x0 := g.x0, u := g.u, z := g.z } = .ok g.y := by
  obtain ⟨s, t, hb, rfl, h0, hn⟩ := hf.ran k g hk
  obtain ⟨b1, b2, b3⟩ := admmBlocks_inv hb
  refine ⟨s, ⟨fun hk0 => ?_, fun j g' hj hg' => (hn j g' hj hg').2⟩, rfl, rfl, b1, b2, b3⟩
  obtain ⟨z1, z2⟩ := admmStart_zero hf.hstart
  rw [(h0 hk0).2.1, (h0 hk0).2.2]
  exact ⟨z1, z2⟩

/-! ## C62 -/

/-- **C62**: in every iteration the QUBO solver gets a program over the selected binary variables, without constraints,
whose objective is the augmented Lagrangian up to a constant, at the values of `z`, `y`, `lam` and `rho` before the
iteration; its answer is written to the selected variables, and the other binary variables are zero. -/
theorem C62_step1 (qubo cont : Solver) (norm : List ℚ → ℚ) (clock : Nat → Bool) (prm : AdmmParams) (p : QP) (hp : p.WF)
    (a : AdmmResult) (h : admmSolve qubo cont norm clock prm p = .ok a) (hsel : a.rep.step1Abs ≠ []) :
    ∃ conv q, p.intToBin = .ok conv ∧ turnToMinimization conv.dst = .ok q ∧ ∃ hist : List Iterate,
      a.state.x0Saved = hist.map Iterate.x0 ∧ a.state.zSaved = hist.flatMap (fun h => [h.z, h.y]) ∧
      ∀ (k : Nat) (g : Iterate), hist[k]? = some g → ∃ z y op w, Before prm hist k z y ∧
        Step1Program prm q a.rep.step1Abs g.rho g.lam z y op ∧ qubo k op = .ok w ∧ w.length = op.numVars ∧
        (∀ j i : Nat, a.rep.step1Abs[j]? = some i → pt g.x0 (q.rank .binary i) = pt w j) ∧
        ∀ i v, q.vars[i]? = some v → v.vartype = .binary → i ∉ a.rep.step1Abs →
          pt g.x0 (q.rank .binary i) = 0 := by
  obtain ⟨conv, q, start, hist, hf⟩ := admmSolve_facts hp h
  refine ⟨conv, q, hf.hconv, hf.turn, hist, hf.trace.x0s, hf.trace.zs, fun k g hk => ?_⟩
  obtain ⟨s, s1, s2, s3, s4, _⟩ := iteration_facts hf hk
  rcases updateX0_inv hf.wf hf.rep s4 with ⟨e, _⟩ | ⟨_, op, w, w1, w2, w3, w4, w5, w6⟩
  · exact absurd e hsel
  · exact ⟨s.z, s.y, op, w, s1, s2 ▸ s3 ▸ step1Program_of hf.wf hf.rep w1, w2, w3, w5, w6⟩

example : admmQP.WF ∧ (admmSolve admmQubo admmCont norm1 (fun _ => true) (admmDefaults 2) admmQP).toOption.map
    (fun a => (a.state.x0Saved, a.rep.step1Abs)) = some ([[0, 0], [1, 0]], [0, 2]) := by decide +kernel

/-- **C62** (optimality): an optimal answer for the step 1 program minimizes the augmented Lagrangian over all
assignments of zeros and ones to the selected variables. -/
theorem C62_optimal (prm : AdmmParams) (q : QP) (sel : List Nat) (rho : ℚ) (lam z y : List ℚ) (op : QP)
    (h : Step1Program prm q sel rho lam z y op) (w x : Nat → ℚ)
    (hx : ∀ k i : Nat, sel[k]? = some i → x i = w k) (hx0 : ∀ i, i ∉ sel → x i = 0)
    (hopt : ∀ w' : Nat → ℚ, (∀ k, w' k = 0 ∨ w' k = 1) → op.objective.val w ≤ op.objective.val w')
    (x' : Nat → ℚ) (hb : ∀ i, x' i = 0 ∨ x' i = 1) (hx' : ∀ i, i ∉ sel → x' i = 0) :
    q.objective.val x + prm.factorC / 2 * q.binEqSquares x + q.coupling rho lam x z y ≤
      q.objective.val x' + prm.factorC / 2 * q.binEqSquares x' + q.coupling rho lam x' z y := by
  obtain ⟨K, hK⟩ := h.value
  have h1 := hopt (fun k => x' (sel.getD k 0)) (fun k => hb _)
  rw [← hK w x hx hx0, ← hK (fun k => x' (sel.getD k 0)) x' (fun k i hk => by simp [List.getD_eq_getElem?_getD, hk]) hx']
  linarith

/-- The program of step 1 for the example: `a + 3 b + 50000 (a + b - 1) ^ 2 + 5000 (a ^ 2 + b ^ 2)`, up to a constant. -/
example : ∃ q r op, turnToMinimization admmQP = .ok q ∧ admmRep q = .ok r ∧
    step1Problem (admmDefaults 2) r (admmInit (admmDefaults 2) q) = .ok op ∧
    Step1Program (admmDefaults 2) q [0, 2] 10000 [0, 0] [0, 0] [0, 0] op ∧
    op.objective.val (pt [1, 0]) = 1 - 50000 + 5000 ∧ op.objective.val (pt [1, 1]) = 4 + 10000 ∧
    op.objective.val (pt [0, 1]) = 3 - 50000 + 5000 ∧ op.objective.val (pt [0, 0]) = 0 := by
  have h : (turnToMinimization admmQP).toOption.map (fun q => (admmRep q).toOption.map fun r =>
      (r.step1Abs, (step1Problem (admmDefaults 2) r (admmInit (admmDefaults 2) q)).toOption.map fun op =>
        [op.objective.val (pt [1, 0]), op.objective.val (pt [1, 1]), op.objective.val (pt [0, 1]),
          op.objective.val (pt [0, 0])])) =
      some (some ([0, 2], some [1 - 50000 + 5000, 4 + 10000, 3 - 50000 + 5000, 0])) := by decide +kernel
  have hw : admmQP.WF := by decide +kernel
  cases hq : turnToMinimization admmQP with
  | error e => simp [hq, Except.toOption] at h
  | ok q =>
    cases hr : admmRep q with
    | error e => simp [hq, hr, Except.toOption] at h
    | ok r =>
      cases ho : step1Problem (admmDefaults 2) r (admmInit (admmDefaults 2) q) with
      | error e => simp [hq, hr, ho, Except.toOption] at h
      | ok op =>
        simp only [hq, hr, ho, Except.toOption, Option.map_some, Option.some.injEq, Prod.mk.injEq, List.cons.injEq,
          and_true] at h
        obtain ⟨h1, h2, h3, h4, h5⟩ := h
        have hq' := turnToMinimization_wf hw hq
        have hb : variableIndices .binary q = [0, 2] := by
          have : (turnToMinimization admmQP).toOption.map (variableIndices .binary) = some [0, 2] := by decide +kernel
          simpa [hq, Except.toOption] using this
        have hs := step1Program_of hq' hr ho
        rw [h1] at hs
        simp only [admmInit, hb] at hs
        exact ⟨q, r, op, rfl, hr, ho, hs, h2, h3, h4, h5⟩

/-! ## C63 -/

/-- **C63** (shape): in every iteration the solver of step 2 gets the program with relaxed binary variables and without
the equalities of binary variables; its answer is split into `u` and `z`. -/
theorem C63_shape (qubo cont : Solver) (norm : List ℚ → ℚ) (clock : Nat → Bool) (prm : AdmmParams) (p : QP) (hp : p.WF)
    (a : AdmmResult) (h : admmSolve qubo cont norm clock prm p = .ok a) :
    ∃ conv q, p.intToBin = .ok conv ∧ turnToMinimization conv.dst = .ok q ∧ ∃ hist : List Iterate,
      a.state.uSaved = hist.map Iterate.u ∧ a.state.zSaved = hist.flatMap (fun h => [h.z, h.y]) ∧
      ∀ (k : Nat) (g : Iterate), hist[k]? = some g → ∃ op v, Step2Shape q op ∧ cont (2 * k + 1) op = .ok v ∧
        Assembles q g.z g.u v := by
  obtain ⟨conv, q, start, hist, hf⟩ := admmSolve_facts hp h
  refine ⟨conv, q, hf.hconv, hf.turn, hist, hf.trace.us, hf.trace.zs, fun k g hk => ?_⟩
  obtain ⟨s, _, _, _, _, s5, _⟩ := iteration_facts hf hk
  obtain ⟨op, v, v1, v2, v3, v4, v5⟩ := updateX1_inv hf.rep s5
  obtain ⟨f1, f2, f3, f4, _⟩ := step2_facts hf.wf hf.rep v1
  obtain ⟨q', hq', hs, _⟩ := turnToMinimization_sign conv.dst
  have hqq := hf.turn
  rw [hq', Except.ok.injEq] at hqq
  subst hqq
  refine ⟨op, v, ⟨f1, f2, f3, by rw [f4, hs]⟩, v2, ?_, fun i w hi => ⟨fun hw => takeIdx_pt v5 hi hw,
    fun hw => takeIdx_pt v4 hi hw⟩⟩
  rw [v3, QP.numVars, QP.numVars, f1, List.length_map]

/-- **C63** (objective): the objective of that program is the augmented Lagrangian up to a constant, at the new value of
`x0` and the values of `y`, `lam` and `rho` before the iteration, provided that no binary variable is multiplied by
another variable in the objective.  Missing (false by `C63_violated`): products of binary variables. -/
theorem C63_objective_partial (qubo cont : Solver) (norm : List ℚ → ℚ) (clock : Nat → Bool) (prm : AdmmParams) (p : QP)
    (hp : p.WF) (a : AdmmResult) (h : admmSolve qubo cont norm clock prm p = .ok a) :
    ∃ conv q, p.intToBin = .ok conv ∧ turnToMinimization conv.dst = .ok q ∧ (¬ q.BinaryProducts →
      ∃ hist : List Iterate,
      a.state.x0Saved = hist.map Iterate.x0 ∧ a.state.zSaved = hist.flatMap (fun h => [h.z, h.y]) ∧
      ∀ (k : Nat) (g : Iterate), hist[k]? = some g → ∃ z y op v, Before prm hist k z y ∧
        Step2Value q g.rho g.lam g.x0 y op ∧ cont (2 * k + 1) op = .ok v ∧ Assembles q g.z g.u v) := by
  obtain ⟨conv, q, start, hist, hf⟩ := admmSolve_facts hp h
  refine ⟨conv, q, hf.hconv, hf.turn, fun hno => ⟨hist, hf.trace.x0s, hf.trace.zs, fun k g hk => ?_⟩⟩
  obtain ⟨s, s1, s2, s3, _, s5, _⟩ := iteration_facts hf hk
  obtain ⟨op, v, v1, v2, v3, v4, v5⟩ := updateX1_inv hf.rep s5
  obtain ⟨f1, _⟩ := step2_facts hf.wf hf.rep v1
  refine ⟨s.z, s.y, op, v, s1, s2 ▸ s3 ▸ step2_value hf.wf hf.rep v1 hno, v2, ?_, fun i w hi =>
    ⟨fun hw => takeIdx_pt v5 hi hw, fun hw => takeIdx_pt v4 hi hw⟩⟩
  rw [v3, QP.numVars, QP.numVars, f1, List.length_map]

/-- The binary variables of the example are not multiplied by others. -/
theorem admmQP_separate : ¬ admmQP.BinaryProducts := by
  rintro ⟨i, j, h1, h2, h3⟩
  have e : admmQP.objective.quadratic.coeffs = [((1, 1), -1)] := by decide +kernel
  rw [e] at h3
  by_cases hk : (1, 1) = (i, j)
  · simp only [Prod.mk.injEq] at hk
    omega
  · exact h3 (Dict.get_eq_zero_of_not_mem (by simp [Assoc.keys]; omega))

example : admmQP.WF ∧ ¬ admmQP.BinaryProducts ∧
    (admmSolve admmQubo admmCont norm1 (fun _ => true) (admmDefaults 2) admmQP).toOption.map
      (fun a => (a.state.uSaved, a.state.zSaved)) = some ([[2], [1]], [[1, 0], [0, 0], [1, 0], [0, 0]]) :=
  ⟨by decide +kernel, admmQP_separate, by decide +kernel⟩

/-- Two binary variables, the product is minimized. -/
def admmPairQP : QP :=
  (runCalls (QP.empty "") [.addVar 0 1 .binary (some "a"), .addVar 0 1 .binary (some "b"),
    .objective .minimize 0 (.dict []) (.dict [((.idx 0, .idx 1), 1)])]).2

/-- **C63 fails** (objective): the product of two binary variables stays in the objective of step 2, where the
augmented Lagrangian has only the coupling terms of these variables. -/
theorem C63_violated : ∃ (p : QP) (r : AdmmRep) (s : AdmmState) (op : QP), p.WF ∧ p.ShapeOK ∧
    admmCompatible p = .ok true ∧ p.objective.sense = .minimize ∧ admmRep p = .ok r ∧ step2Problem r s = .ok op ∧
    ¬ Step2Value p s.rho s.lam s.x0 s.y op := by
  have h : (admmRep admmPairQP).toOption.map (fun r =>
      (step2Problem r (admmInit (admmDefaults 1) admmPairQP)).toOption.map fun op =>
        (op.objective.val (pt [0, 0]), op.objective.val (pt [1, 1]))) = some (some (0, 10001)) := by decide +kernel
  cases hr : admmRep admmPairQP with
  | error e => simp [hr, Except.toOption] at h
  | ok r =>
    cases ho : step2Problem r (admmInit (admmDefaults 1) admmPairQP) with
    | error e => simp [hr, ho, Except.toOption] at h
    | ok op =>
      simp only [hr, ho, Except.toOption, Option.map_some, Option.some.injEq, Prod.mk.injEq] at h
      refine ⟨admmPairQP, r, admmInit (admmDefaults 1) admmPairQP, op, by decide +kernel, by decide +kernel,
        by decide +kernel, by decide +kernel, hr, ho, ?_⟩
      rintro ⟨K, hK⟩
      have hb : ∀ i, admmPairQP.isBinary i → i = 0 ∨ i = 1 := by
        intro i hi
        have := variableIndices_lt (isBinary_iff.mp hi)
        have e : admmPairQP.numVars = 2 := by decide +kernel
        omega
      have r0 : admmPairQP.rank .binary 0 = 0 := by decide +kernel
      have r1 : admmPairQP.rank .binary 1 = 1 := by decide +kernel
      have h0 := hK (pt [0, 0]) (pt [0, 0]) [0, 0]
        (fun i hi => by rcases hb i hi with rfl | rfl <;> decide +kernel)
        (fun i hi => by rcases hb i hi with rfl | rfl <;> decide +kernel)
      have h1 := hK (pt [1, 1]) (pt [0, 0]) [1, 1]
        (fun i hi => by rcases hb i hi with rfl | rfl <;> decide +kernel)
        (fun i hi => by rcases hb i hi with rfl | rfl <;> decide +kernel)
      have e0 : admmPairQP.objective.val (admmPairQP.dropBinary (pt [0, 0])) + admmPairQP.coupling 10000 [0, 0]
        (pt [0, 0]) [0, 0] [0, 0] = 0 := by decide +kernel
      have e1 : admmPairQP.objective.val (admmPairQP.dropBinary (pt [1, 1])) + admmPairQP.coupling 10000 [0, 0]
        (pt [0, 0]) [1, 1] [0, 0] = 10000 := by decide +kernel
      have hi : admmInit (admmDefaults 1) admmPairQP = ⟨10000, [], [0, 0], [0, 0], [0, 0], [0, 0], [], [], [], [], [], [],
        [], []⟩ := rfl
      rw [hi] at h0 h1
      simp only at h0 h1
      rw [e0, h.1] at h0
      rw [e1, h.2] at h1
      linarith

/-- **C63** (optimality): an optimal answer for the step 2 program minimizes the augmented Lagrangian over `u` and `z`,
among the points with the same constraints. -/
theorem C63_optimal (q : QP) (rho : ℚ) (lam x0 y : List ℚ) (op : QP) (h : Step2Value q rho lam x0 y op)
    (P : (Nat → ℚ) → Prop) (v v' x : Nat → ℚ) (z z' : List ℚ)
    (hx : ∀ i, q.isBinary i → x i = pt x0 (q.rank .binary i))
    (hz : ∀ i, q.isBinary i → pt z (q.rank .binary i) = v i) (hz' : ∀ i, q.isBinary i → pt z' (q.rank .binary i) = v' i)
    (hopt : ∀ v', P v' → op.objective.val v ≤ op.objective.val v') (hv' : P v') :
    q.objective.val (q.dropBinary v) + q.coupling rho lam x z y ≤
      q.objective.val (q.dropBinary v') + q.coupling rho lam x z' y := by
  obtain ⟨K, hK⟩ := h
  rw [← hK v x z hx hz, ← hK v' x z' hx hz']
  linarith [hopt v' hv']

/-- The program of step 2 for a single binary variable. -/
example : ∃ r op, admmRep admmQP = .ok r ∧ step2Problem r (admmInit (admmDefaults 1) admmQP) = .ok op ∧
    Step2Value admmQP 10000 [0, 0] [0, 0] [0, 0] op := by
  have h : (admmRep admmQP).toOption.bind (fun r =>
      (step2Problem r (admmInit (admmDefaults 1) admmQP)).toOption.map fun _ => ()) = some () := by decide +kernel
  cases hr : admmRep admmQP with
  | error e => simp [hr, Except.toOption] at h
  | ok r =>
    cases ho : step2Problem r (admmInit (admmDefaults 1) admmQP) with
    | error e => simp [hr, ho, Except.toOption] at h
    | ok op =>
      exact ⟨r, op, rfl, ho, step2_value (by decide +kernel) hr ho admmQP_separate⟩

/-! ## C64 -/

/-- **C64** (step 3): in every iteration of the three-block variant the solver of step 3 gets a program without bounds and
constraints whose objective is the augmented Lagrangian in `y` up to a constant, and `y` is its answer; in the two-block
variant, or without binary variables, `y` is kept. -/
theorem C64_step3 (qubo cont : Solver) (norm : List ℚ → ℚ) (clock : Nat → Bool) (prm : AdmmParams) (p : QP) (hp : p.WF)
    (a : AdmmResult) (h : admmSolve qubo cont norm clock prm p = .ok a) :
    ∃ conv q, p.intToBin = .ok conv ∧ turnToMinimization conv.dst = .ok q ∧ ∃ hist : List Iterate,
      a.state.x0Saved = hist.map Iterate.x0 ∧ a.state.zSaved = hist.flatMap (fun h => [h.z, h.y]) ∧
      ∀ (k : Nat) (g : Iterate), hist[k]? = some g → ∃ z y, Before prm hist k z y ∧
        (prm.threeBlock = true → 0 < q.countType .binary →
          ∃ op, Step3Program prm q g.rho g.lam g.x0 g.z op ∧ cont (2 * k + 2) op = .ok g.y ∧
            g.y.length = op.numVars) ∧
        (prm.threeBlock = false ∨ q.countType .binary = 0 → g.y = y) := by
  obtain ⟨conv, q, start, hist, hf⟩ := admmSolve_facts hp h
  refine ⟨conv, q, hf.hconv, hf.turn, hist, hf.trace.x0s, hf.trace.zs, fun k g hk => ?_⟩
  obtain ⟨s, s1, s2, s3, _, _, s6⟩ := iteration_facts hf hk
  refine ⟨s.z, s.y, s1, ?_⟩
  rcases updateY_inv hf.rep s6 with ⟨c1, c2, op, o1, o2, o3⟩ | ⟨c1, c2⟩
  · refine ⟨fun _ _ => ⟨op, s2 ▸ s3 ▸ o3, o1, o2⟩, fun hn => ?_⟩
    rcases hn with hn | hn
    · simp [c1] at hn
    · omega
  · refine ⟨fun ht hc => ?_, fun _ => c2⟩
    rcases c1 with c1 | c1
    · simp [c1] at ht
    · omega

/-- **C64** (the minimum of step 3): with positive `beta + rho` the only minimum of the step 3 program is
`y = (lam + rho * (x0 - z)) / (beta + rho)`. -/
theorem C64_minimum (prm : AdmmParams) (q : QP) (rho : ℚ) (lam x0 z : List ℚ) (op : QP)
    (h : Step3Program prm q rho lam x0 z op) (hpos : 0 < prm.beta + rho) (y : Nat → ℚ)
    (hy : ∀ j < q.countType .binary, y j = (pt lam j + rho * (pt x0 j - pt z j)) / (prm.beta + rho)) (y' : Nat → ℚ) :
    op.objective.val y ≤ op.objective.val y' ∧
      (op.objective.val y' ≤ op.objective.val y → ∀ j < q.countType .binary, y' j = y j) := by
  obtain ⟨K, hK⟩ := h.value
  have hdiff : op.objective.val y' - op.objective.val y =
      ∑ j ∈ Finset.range (q.countType .binary), (prm.beta + rho) / 2 * (y' j - y j) ^ 2 := by
    have h1 := hK y
    have h2 := hK y'
    rw [lsum_range] at h1 h2
    have h3 : ∑ j ∈ Finset.range (q.countType .binary), (prm.beta / 2 * y' j ^ 2 + pt lam j * (pt x0 j - pt z j - y' j) +
        rho / 2 * (pt x0 j - pt z j - y' j) ^ 2) - ∑ j ∈ Finset.range (q.countType .binary), (prm.beta / 2 * y j ^ 2 +
        pt lam j * (pt x0 j - pt z j - y j) + rho / 2 * (pt x0 j - pt z j - y j) ^ 2) =
        ∑ j ∈ Finset.range (q.countType .binary), (prm.beta + rho) / 2 * (y' j - y j) ^ 2 := by
      rw [← Finset.sum_sub_distrib]
      refine Finset.sum_congr rfl fun j hj => ?_
      have e : (prm.beta + rho) * y j = pt lam j + rho * (pt x0 j - pt z j) := by
        rw [hy j (Finset.mem_range.mp hj)]
        field_simp
      linear_combination (y' j - y j) * e
    linarith
  have hnn : ∀ j ∈ Finset.range (q.countType .binary), 0 ≤ (prm.beta + rho) / 2 * (y' j - y j) ^ 2 :=
    fun j _ => by positivity
  refine ⟨by linarith [Finset.sum_nonneg hnn], fun hle j hj => ?_⟩
  have hz : ∑ j ∈ Finset.range (q.countType .binary), (prm.beta + rho) / 2 * (y' j - y j) ^ 2 = 0 :=
    le_antisymm (by linarith) (Finset.sum_nonneg hnn)
  have := (Finset.sum_eq_zero_iff_of_nonneg hnn).mp hz j (Finset.mem_range.mpr hj)
  have h0 : (y' j - y j) ^ 2 = 0 := by
    rcases mul_eq_zero.mp this with h0 | h0
    · linarith
    · exact h0
  have := pow_eq_zero_iff (two_ne_zero) |>.mp h0
  linarith

/-- The program of step 3 for the example, with `x0 = [1, 0]`; its minimum is `y = [10 / 11, 0]`. -/
example : ∃ op, Step3Program (admmDefaults 2) admmQP 10000 [0, 0] [1, 0] [0, 0] op ∧
    0 < (admmDefaults 2).beta + 10000 := by
  have h : (admmRep admmQP).toOption.bind (fun r =>
      (updateY (fun _ _ => .ok [0, 0]) 2 (admmDefaults 2) r
        { admmInit (admmDefaults 2) admmQP with x0 := [1, 0] }).toOption.map fun _ => ()) = some () := by decide +kernel
  cases hr : admmRep admmQP with
  | error e => simp [hr, Except.toOption] at h
  | ok r =>
    cases ho : updateY (fun _ _ => .ok [0, 0]) 2 (admmDefaults 2) r
        { admmInit (admmDefaults 2) admmQP with x0 := [1, 0] } with
    | error e => simp [hr, ho, Except.toOption] at h
    | ok y =>
      rcases updateY_inv hr ho with ⟨_, _, op, _, _, h3⟩ | ⟨h1, _⟩
      · exact ⟨op, h3, by decide +kernel⟩
      · exact absurd h1 (by decide +kernel)

/-- **C64** (multipliers): they start at zero and grow by `rho * (x0 - z - y)` in every iteration. -/
theorem C64_multipliers (qubo cont : Solver) (norm : List ℚ → ℚ) (clock : Nat → Bool) (prm : AdmmParams) (p : QP)
    (hp : p.WF) (a : AdmmResult) (h : admmSolve qubo cont norm clock prm p = .ok a) :
    ∃ conv q, p.intToBin = .ok conv ∧ turnToMinimization conv.dst = .ok q ∧ ∃ hist : List Iterate,
      a.state.x0Saved = hist.map Iterate.x0 ∧ a.state.zSaved = hist.flatMap (fun h => [h.z, h.y]) ∧
      (∀ g, hist[0]? = some g → ∀ i, pt g.lam i = 0) ∧
      (∀ (k : Nat) (g g' : Iterate), hist[k]? = some g → hist[k + 1]? = some g' → ∀ i < q.countType .binary,
        pt g'.lam i = pt g.lam i + g.rho * (pt g.x0 i - pt g.z i - pt g.y i)) ∧
      ∀ g, hist.getLast? = some g → ∀ i < q.countType .binary,
        pt a.state.lam i = pt g.lam i + g.rho * (pt g.x0 i - pt g.z i - pt g.y i) := by
  obtain ⟨conv, q, start, hist, hf⟩ := admmSolve_facts hp h
  have hn : ∀ (g : Iterate) i, i < q.countType .binary → pt (g.nextLam (q.countType .binary)) i =
      pt g.lam i + g.rho * (pt g.x0 i - pt g.z i - pt g.y i) := by
    intro g i hi
    unfold Iterate.nextLam
    rw [pt_map_range, if_pos hi]
  refine ⟨conv, q, hf.hconv, hf.turn, hist, hf.trace.x0s, hf.trace.zs, ?_, ?_, ?_⟩
  · intro g hg i
    rw [(hf.trace.first g hg).2]
    simp only [pt, List.getD_eq_getElem?_getD, List.getElem?_replicate]
    split <;> rfl
  · intro k g g' hg hg' i hi
    obtain ⟨_, _, _, _, _, hl⟩ := hf.trace.next k g g' hg hg'
    rw [hl, hn g i hi]
  · intro g hg i hi
    obtain ⟨_, _, _, _, _, hl⟩ := hf.trace.rhoLast g hg
    rw [hl, hn g i hi]

example : admmQP.WF ∧ (admmSolve admmQubo admmCont norm1 (fun _ => true) (admmDefaults 2) admmQP).toOption.map
    (fun a => (a.state.x0Saved, a.state.lam)) = some ([[0, 0], [1, 0]], [-10000, 0]) := by decide +kernel

/-! ## C65 -/

/-- **C65**: without integer variables a program whose objective has a product of a binary and a continuous variable is
rejected, and all others pass the check.  Missing (false by `C65_violated`): integer variables, which become binary ones
later. -/
theorem C65_separable_partial (p : QP) (hp : p.WF) (hs : p.ShapeOK) :
    ∃ b, admmCompatible p = .ok b ∧ (b = true ↔ ∀ i j vi vj, p.vars[i]? = some vi → p.vars[j]? = some vj →
      vi.vartype = .binary → vj.vartype = .continuous →
      Dict.get p.objective.quadratic.coeffs (i, j) = 0 ∧ Dict.get p.objective.quadratic.coeffs (j, i) = 0) := by
  have hn : p.objective.quadratic.n = p.numVars := hs.2.2
  have hlt : ∀ t, ∀ i ∈ variableIndices t p, i < p.objective.quadratic.n := by
    intro t i hi; rw [hn]; exact variableIndices_lt hi
  have hc : ∃ b, admmCompatible p = .ok b := by
    simp only [admmCompatible]
    rw [if_neg]
    · exact ⟨_, rfl⟩
    · rintro ⟨_, _, h3⟩
      apply h3
      rw [List.all_eq_true]
      intro i hi
      rcases List.mem_append.mp hi with hi | hi
      · simpa using hlt _ i hi
      · simpa using hlt _ i hi
  obtain ⟨b, hb⟩ := hc
  refine ⟨b, hb, fun h => ?_, fun h => ?_⟩
  · subst h
    exact admmCompatible_inv hp hb
  · simp only [admmCompatible] at hb
    split at hb
    · simp at hb
    · simp only [Except.ok.injEq] at hb
      rw [← hb]
      simp only [List.all_eq_true, decide_eq_true_eq]
      intro i hi j hj
      obtain ⟨vi, i1, i2⟩ := mem_variableIndices.mp hi
      obtain ⟨vj, j1, j2⟩ := mem_variableIndices.mp hj
      obtain ⟨g1, g2⟩ := h i j vi vj i1 j1 i2 j2
      rcases Nat.le_total i j with hij | hij
      · rw [min_eq_left hij, max_eq_right hij]; exact g1
      · rw [min_eq_right hij, max_eq_left hij]; exact g2

example : admmQP.WF ∧ admmQP.ShapeOK ∧ admmCompatible admmQP = .ok true := by decide +kernel

/-- An integer variable times a continuous one. -/
def admmMixedQP : QP :=
  (runCalls (QP.empty "") [.addVar 0 3 .integer (some "n"), .addVar 0 5 .continuous (some "u"),
    .objective .minimize 0 (.dict []) (.dict [((.idx 0, .idx 1), 1)])]).2

/-- **C65 fails**: the product of an integer and a continuous variable passes the check; in the program of the iterations
it is a product of a binary and a continuous variable. -/
theorem C65_violated : ∃ (p : QP) (conv : I2B) (q : QP) (i j : Nat) (vi vj : Variable), p.WF ∧ p.ShapeOK ∧
    admmCompatible p = .ok true ∧ p.intToBin = .ok conv ∧ turnToMinimization conv.dst = .ok q ∧
    q.vars[i]? = some vi ∧ q.vars[j]? = some vj ∧ vi.vartype = .binary ∧ vj.vartype = .continuous ∧
    Dict.get q.objective.quadratic.coeffs (i, j) ≠ 0 := by
  have h : admmMixedQP.intToBin.toOption.map (fun c => (turnToMinimization c.dst).toOption.map fun q =>
      (q.vars, q.objective.quadratic.coeffs)) =
      some (some ([⟨"n@0", 0, 1, .binary⟩, ⟨"n@1", 0, 1, .binary⟩, ⟨"u", 0, 5, .continuous⟩],
        [((0, 2), 1), ((1, 2), 2)])) := by decide +kernel
  cases hc : admmMixedQP.intToBin with
  | error e => simp [hc, Except.toOption] at h
  | ok c =>
    cases hq : turnToMinimization c.dst with
    | error e => simp [hc, hq, Except.toOption] at h
    | ok q =>
      simp only [hc, hq, Except.toOption, Option.map_some, Option.some.injEq, Prod.mk.injEq] at h
      refine ⟨admmMixedQP, c, q, 0, 2, ⟨"n@0", 0, 1, .binary⟩, ⟨"u", 0, 5, .continuous⟩, by decide +kernel,
        by decide +kernel, by decide +kernel, hc, hq, by rw [h.1]; rfl, by rw [h.1]; rfl, rfl, rfl, ?_⟩
      rw [h.2]
      decide +kernel

end Verif

import Verif.AdmmStep1
import Verif.SumLemmas
import Mathlib.Tactic.Ring

/-!
# Lemmas on the programs of the three steps of ADMM
-/

namespace Verif

open Finset (range sum_congr)

/-! ## Specifications -/

/-- Variable `i` is binary. -/
def QP.isBinary (p : QP) (i : Nat) : Bool := p.vars[i]?.map Variable.vartype = some .binary

/-- Sum over the binary variables; `f` gets the position among all variables and that among the binary ones. -/
def QP.binSum (p : QP) (f : Nat → Nat → ℚ) : ℚ :=
  ((List.range p.numVars).map fun i => if p.isBinary i then f i (p.rank .binary i) else 0).sum

/-- The constraint is an equality of binary variables. -/
def LinCst.isBinEq (p : QP) (c : LinCst) : Bool :=
  decide (c.sense = .eq) && (Assoc.keys c.linear.coeffs).all p.isBinary

/-- Squared violation of the equalities of binary variables. -/
def QP.binEqSquares (p : QP) (x : Nat → ℚ) : ℚ :=
  ((p.lins.filter (LinCst.isBinEq p)).map fun c => (c.linear.val x - c.rhs) ^ 2).sum

/-- The terms that couple the blocks: `lam . (x - z - y) + rho / 2 * |x - z - y| ^ 2`, where `x` has the values of all
variables and the other vectors those of the binary variables. -/
def QP.coupling (p : QP) (rho : ℚ) (lam : List ℚ) (x : Nat → ℚ) (z y : List ℚ) : ℚ :=
  p.binSum fun i j => pt lam j * (x i - pt z j - pt y j) + rho / 2 * (x i - pt z j - pt y j) ^ 2

/-! ## Step 1 -/

theorem step1Problem_vars {prm : AdmmParams} {r : AdmmRep} {s : AdmmState} {op1 : QP}
    (h : step1Problem prm r s = .ok op1) :
    op1.vars = r.step1Abs.map (fun i => ⟨varName r.op.vars i, 0, 1, .binary⟩) ∧ op1.lins = [] ∧ op1.quads = [] ∧
      op1.objective.sense = .minimize ∧ op1.Consistent ∧
      (∃ q, QuadExpr.ofInput op1.varsIndex op1.numVars (.matrix (step1Quadratic prm r s)) = .ok q ∧
        op1.objective.quadratic = q) ∧
      (∃ l, LinExpr.ofInput op1.varsIndex op1.numVars (.list (step1Linear prm r s)) = .ok l ∧
        op1.objective.linear = l) ∧ op1.objective.constant = 0 := by
  unfold step1Problem at h
  cases h1 : addBinaries r.op.vars r.step1Abs (QP.empty "") with
  | error e => simp [h1] at h
  | ok op =>
    simp only [h1] at h
    have hx := addBinaries_ok h1
    have hc := hx.cons (QP.empty_wf "").cons
    cases h2 : QuadExpr.ofInput op.varsIndex op.numVars (.matrix (step1Quadratic prm r s)) with
    | error e => simp [h2] at h
    | ok q =>
      cases h3 : LinExpr.ofInput op.varsIndex op.numVars (.list (step1Linear prm r s)) with
      | error e => simp [h2, h3] at h
      | ok l =>
        simp only [h2, h3, Except.ok.injEq] at h
        subst h
        refine ⟨by simp [hx.vars, QP.empty], by simp [hx.lins, QP.empty], by simp [hx.quads, QP.empty],
          by simp [hx.objective, QP.empty], ⟨hc.vars, hc.lins, hc.quads⟩, ⟨q, h2, rfl⟩, ⟨l, h3, rfl⟩,
          by simp [hx.objective, QP.empty]⟩

theorem updateX0_inv {qubo : Solver} {t : Nat} {prm : AdmmParams} {p : QP} (hp : p.WF) {r : AdmmRep}
    (hr : admmRep p = .ok r) {s : AdmmState} {x0 : List ℚ} (h : updateX0 qubo t prm r s = .ok x0) :
    (r.step1Abs = [] ∧ x0 = s.x0) ∨ (r.step1Abs ≠ [] ∧ ∃ op1 w, step1Problem prm r s = .ok op1 ∧
      qubo t op1 = .ok w ∧ w.length = op1.numVars ∧ x0.length = p.countType .binary ∧
      (∀ k i, r.step1Abs[k]? = some i → pt x0 (p.rank .binary i) = pt w k) ∧
      ∀ i v, p.vars[i]? = some v → v.vartype = .binary → i ∉ r.step1Abs → pt x0 (p.rank .binary i) = 0) := by
  obtain ⟨hop, h2, h3, _⟩ := admmRep_inv hr
  have hm : r.binIdx.length = p.countType .binary := by rw [h2, variableIndices_length]
  unfold updateX0 at h
  split at h
  · rename_i he
    simp only [Except.ok.injEq] at h
    exact Or.inl ⟨he, h.symm⟩
  · rename_i he
    right
    refine ⟨he, ?_⟩
    cases h1 : step1Problem prm r s with
    | error e => simp [h1] at h
    | ok op1 =>
      simp only [h1] at h
      cases hs : checkedSolve qubo t op1 with
      | error e => simp [hs] at h
      | ok w =>
        simp only [hs] at h
        obtain ⟨c1, c2⟩ := checkedSolve_inv hs
        obtain ⟨e1, e2, e3⟩ := step1Rel_inv hp hr
        have hv := (step1Problem_vars h1).1
        have hwl : w.length = r.step1Rel.length := by
          rw [c2, QP.numVars, hv, e1, List.length_map, List.length_map]
        obtain ⟨x, x1, x2, x3, x4⟩ := put_spec w r.step1Rel (List.replicate r.binIdx.length 0)
          (by rw [List.length_replicate, hm]; exact e3) e2 hwl
        rw [x1, Except.ok.injEq] at h
        subst h
        refine ⟨op1, w, rfl, c1, c2, by rw [x2, List.length_replicate, hm], ?_, ?_⟩
        · intro k i hk
          exact x3 k _ (by rw [e1, List.getElem?_map, hk]; rfl)
        · intro i v hvi hvt hni
          rw [x4]
          · simp [pt, List.getD_eq_getElem?_getD, List.getElem?_replicate]
            split <;> rfl
          · intro hmem
            rw [e1] at hmem
            obtain ⟨j, hj, hje⟩ := List.mem_map.mp hmem
            obtain ⟨_, _, _, _, _, _, h7, _⟩ := admmRep_inv hr
            obtain ⟨⟨v', v1, v2⟩, _⟩ := ((step1Absolute_inv hp h7).2 j).mp hj
            have q1 := (variableIndices_getElem? .binary p (p.rank .binary i) i).mpr ⟨v, hvi, hvt, rfl⟩
            have q2 := (variableIndices_getElem? .binary p (p.rank .binary i) j).mpr ⟨v', v1, v2, hje.symm⟩
            rw [q1, Option.some.injEq] at q2
            exact hni (q2 ▸ hj)

theorem admmBlocks_inv {qubo cont : Solver} {prm : AdmmParams} {r : AdmmRep} {it : Nat} {s t : AdmmState}
    (h : admmBlocks qubo cont prm r it s = .ok t) :
    updateX0 qubo it prm r s = .ok t.x0 ∧
      updateX1 cont (2 * it + 1) r { s with x0 := t.x0 } = .ok (t.u, t.z) ∧
      updateY cont (2 * it + 2) prm r { s with x0 := t.x0, u := t.u, z := t.z } = .ok t.y := by
  unfold admmBlocks at h
  cases hx : updateX0 qubo it prm r s with
  | error e => simp [hx] at h
  | ok x0 =>
  simp only [hx] at h
  cases hu : updateX1 cont (2 * it + 1) r { s with x0 := x0 } with
  | error e => simp [hu] at h
  | ok uz =>
  obtain ⟨u, z⟩ := uz
  simp only [hu] at h
  cases hy : updateY cont (2 * it + 2) prm r { s with x0 := x0, u := u, z := z } with
  | error e => simp [hy] at h
  | ok y =>
  simp only [hy, Except.ok.injEq] at h
  subst h
  exact ⟨rfl, hu, hy⟩

/-- Binary variables outside step 1 stay at zero. -/
theorem ran_zero {qubo cont : Solver} {prm : AdmmParams} {p : QP} (hp : p.WF) {r : AdmmRep} (hr : admmRep p = .ok r)
    {start : AdmmState} {hist : List Iterate} (h : Ran qubo cont prm r start hist)
    (h0 : r.step1Abs ≠ [] ∨ ∀ i, pt start.x0 i = 0) {i : Nat} {v : Variable} (hi : p.vars[i]? = some v)
    (hv : v.vartype = .binary) (hni : i ∉ r.step1Abs) (k : Nat) (g : Iterate) (hk : hist[k]? = some g) :
    pt g.x0 (p.rank .binary i) = 0 := by
  induction k generalizing g with
  | zero =>
    obtain ⟨s, t, hb, rfl, hs, _⟩ := h 0 g hk
    rcases updateX0_inv hp hr (admmBlocks_inv hb).1 with ⟨e1, e2⟩ | ⟨_, _, _, _, _, _, _, _, e⟩
    · simp only
      rw [e2, (hs rfl).1]
      rcases h0 with h0 | h0
      · exact absurd e1 h0
      · exact h0 _
    · exact e i v hi hv hni
  | succ k ih =>
    obtain ⟨s, t, hb, rfl, _, hs⟩ := h (k + 1) g hk
    rcases updateX0_inv hp hr (admmBlocks_inv hb).1 with ⟨e1, e2⟩ | ⟨_, _, _, _, _, _, _, _, e⟩
    · simp only
      have hlt := (List.getElem?_eq_some_iff.mp hk).1
      obtain ⟨g', hg'⟩ : ∃ g', hist[k]? = some g' := ⟨_, List.getElem?_eq_getElem (by omega)⟩
      rw [e2, (hs k g' rfl hg').1]
      exact ih g' hg'
    · exact e i v hi hv hni


theorem isBinary_iff {p : QP} {i : Nat} : p.isBinary i = true ↔ i ∈ variableIndices .binary p := by
  rw [mem_variableIndices]
  simp only [QP.isBinary, decide_eq_true_eq]
  cases p.vars[i]? <;> simp

theorem binEqs_eq (p : QP) : binaryEqualities p = p.lins.filter (LinCst.isBinEq p) := by
  unfold binaryEqualities LinCst.isBinEq
  apply List.filter_congr
  intro c _
  congr 1
  congr 1
  funext k
  rw [Bool.eq_iff_iff, isBinary_iff, decide_eq_true_eq]

theorem binSum_range (p : QP) (f : Nat → Nat → ℚ) :
    p.binSum f = ∑ i ∈ range p.numVars, if p.isBinary i then f i (p.rank .binary i) else 0 := lsum_range _ _

theorem lsum_finset_comm {α : Type} (l : List α) (s : Finset Nat) (f : Nat → α → ℚ) :
    ∑ i ∈ s, (l.map (f i)).sum = (l.map fun c => ∑ i ∈ s, f i c).sum := by
  induction l with
  | nil => simp
  | cons a l ih => simp [Finset.sum_add_distrib, ih]

theorem a0Rows_inv {idx : List Nat} {cs : List LinCst} {rows : List (List ℚ)} (h : a0Rows idx cs = .ok rows) :
    rows = cs.map (fun c => idx.map (pt c.linear.toArray)) ∧ ∀ c ∈ cs, ∀ i ∈ idx, i < c.linear.n := by
  induction cs generalizing rows with
  | nil =>
    simp only [a0Rows, Except.ok.injEq] at h
    subst h; simp
  | cons c cs ih =>
    simp only [a0Rows] at h
    cases h1 : takeIdx c.linear.toArray idx with
    | error e => simp [h1] at h
    | ok row =>
      cases h2 : a0Rows idx cs with
      | error e => simp [h1, h2] at h
      | ok rs =>
        simp only [h1, h2, Except.ok.injEq] at h
        subst h
        obtain ⟨g1, g2⟩ := ih h2
        obtain ⟨t1, t2⟩ := takeIdx_inv h1
        refine ⟨by rw [List.map_cons, t2, g1], ?_⟩
        intro c' hc i hi
        rcases List.mem_cons.mp hc with rfl | hc
        · simpa [LinExpr.toArray] using t1 i hi
        · exact g2 c' hc i hi

theorem pt_toArray (e : LinExpr) (i : Nat) (h : i < e.n) : pt e.toArray i = Dict.get e.coeffs i := by
  unfold LinExpr.toArray
  rw [pt_map_range, if_pos h]

theorem pt_map_getD (l : List Nat) (f : Nat → ℚ) {k : Nat} (h : k < l.length) : pt (l.map f) k = f (l.getD k 0) := by
  simp [pt, List.getD_eq_getElem?_getD, h]

theorem getA0B0_inv {idx : List Nat} {cs : List LinCst} {a : List (List ℚ)} {b : List ℚ}
    (h : getA0B0 idx cs = .ok (a, b)) :
    (∀ i < idx.length, ∀ j < idx.length, gram a i j =
      (cs.map fun c => Dict.get c.linear.coeffs (idx.getD i 0) * Dict.get c.linear.coeffs (idx.getD j 0)).sum) ∧
    ∀ i < idx.length, rhsRow a b i = (cs.map fun c => c.rhs * Dict.get c.linear.coeffs (idx.getD i 0)).sum := by
  unfold getA0B0 at h
  cases h1 : a0Rows idx cs with
  | error e => simp [h1] at h
  | ok rows =>
    obtain ⟨g1, g2⟩ := a0Rows_inv h1
    have hrow : ∀ c ∈ cs, ∀ i < idx.length, pt (idx.map (pt c.linear.toArray)) i =
        Dict.get c.linear.coeffs (idx.getD i 0) := by
      intro c hc i hi
      rw [pt_map_getD _ _ hi, pt_toArray]
      apply g2 c hc
      rw [List.getD_eq_getElem?_getD, List.getElem?_eq_getElem hi]
      exact List.getElem_mem hi
    have hz : ∀ i, pt (List.replicate idx.length (0 : ℚ)) i = 0 := by
      intro i
      simp only [pt, List.getD_eq_getElem?_getD, List.getElem?_replicate]
      split <;> rfl
    cases hc : cs with
    | nil =>
      subst hc
      simp only [a0Rows, Except.ok.injEq] at h1
      subst h1
      simp only [a0Rows, Except.ok.injEq, Prod.mk.injEq] at h
      obtain ⟨rfl, rfl⟩ := h
      simp [gram, rhsRow, hz]
    | cons c cs' =>
      rw [← hc]
      have hne : rows ≠ [] := by rw [g1, hc]; simp
      obtain ⟨r, rs, hrs⟩ := List.exists_cons_of_ne_nil hne
      rw [h1, hrs] at h
      simp only [Except.ok.injEq, Prod.mk.injEq] at h
      rw [← hrs] at h
      obtain ⟨rfl, rfl⟩ := h
      rw [g1]
      constructor
      · intro i hi j hj
        unfold gram
        rw [List.map_map]
        congr 1
        apply List.map_congr_left
        intro c hc
        simp only [Function.comp]
        rw [hrow c hc i hi, hrow c hc j hj]
      · intro i hi
        unfold rhsRow
        rw [List.zipWith_map, List.zipWith_self]
        congr 1
        apply List.map_congr_left
        intro c hc
        rw [hrow c hc i hi]

/-- The objective of the step 1 program is the augmented Lagrangian up to a constant. -/
theorem step1_value {prm : AdmmParams} {p : QP} (hp : p.WF) {r : AdmmRep} (hr : admmRep p = .ok r) {s : AdmmState}
    {op1 : QP} (h : step1Problem prm r s = .ok op1) :
    ∃ K, ∀ w x : Nat → ℚ, (∀ k i, r.step1Abs[k]? = some i → x i = w k) → (∀ i, i ∉ r.step1Abs → x i = 0) →
      op1.objective.val w + K =
        p.objective.val x + prm.factorC / 2 * p.binEqSquares x + p.coupling s.rho s.lam x s.z s.y := by
  obtain ⟨hop, _, _, _, _, _, h7, h8, h9, h10, h11⟩ := admmRep_inv hr
  obtain ⟨_, _, _, _, _, ⟨q, hq, hq'⟩, ⟨l, hl, hl'⟩, hcon⟩ := step1Problem_vars h
  obtain ⟨e1, e2, e3⟩ := step1Rel_inv hp hr
  obtain ⟨s1, s2⟩ := step1Absolute_inv hp h7
  obtain ⟨g1, g2⟩ := getA0B0_inv h11
  obtain ⟨c1, c2⟩ := takeIdx_inv h10
  have hnd : r.step1Abs.Nodup := s1.imp (fun h => Nat.ne_of_lt h)
  have hmem : ∀ i ∈ r.step1Abs, i ∈ variableIndices .binary p := fun i hi => mem_variableIndices.mpr ((s2 i).mp hi).1
  have hlt : ∀ i ∈ r.step1Abs, i < p.numVars := fun i hi => variableIndices_lt (hmem i hi)
  have hqv := fun w => matrix_val (M := fun i j => entry r.q0 i j + prm.factorC / 2 * gram r.a0 i j +
    s.rho / 2 * (if i = j then 1 else 0)) hq w
  have hlv := fun w => linList_val (L := fun i => pt r.c0 i - prm.factorC * rhsRow r.a0 r.b0 i
    + s.rho * (-pt s.y (r.step1Rel.getD i 0) - pt s.z (r.step1Rel.getD i 0)) + pt s.lam (r.step1Rel.getD i 0)) hl w
  clear hq hl
  have hq0 : r.q0 = (List.range r.step1Abs.length).map fun i => (List.range r.step1Abs.length).map fun j =>
      if i ≤ j then Dict.get p.objective.quadratic.coeffs (min (r.step1Abs.getD i 0) (r.step1Abs.getD j 0),
        max (r.step1Abs.getD i 0) (r.step1Abs.getD j 0)) else 0 := by
    unfold getQ at h9
    split at h9
    · simp only [Except.ok.injEq] at h9; exact h9.symm
    · simp at h9
  have hmono : ∀ i j, i < j → j < r.step1Abs.length → r.step1Abs.getD i 0 < r.step1Abs.getD j 0 := by
    intro i j hij hj
    have := List.pairwise_iff_getElem.mp s1 i j (by omega) hj hij
    simpa [List.getD_eq_getElem?_getD, hj, show i < r.step1Abs.length by omega] using this
  generalize hN : r.step1Abs.length = N at *
  have hA : ∀ k < N, r.step1Abs[k]? = some (r.step1Abs.getD k 0) := by
    intro k hk
    have hk' : k < r.step1Abs.length := by omega
    simp [List.getD_eq_getElem?_getD, hk']
  have hAm : ∀ k < N, r.step1Abs.getD k 0 ∈ r.step1Abs := fun k hk => List.mem_of_getElem? (hA k hk)
  refine ⟨p.objective.constant + prm.factorC / 2 * ((binaryEqualities p).map fun c => c.rhs ^ 2).sum +
    p.binSum (fun _ j => -pt s.lam j * (pt s.z j + pt s.y j) + s.rho / 2 * (pt s.z j + pt s.y j) ^ 2), ?_⟩
  intro w x hx hx0
  have hxw : ∀ k < N, x (r.step1Abs.getD k 0) = w k := fun k hk => hx k _ (hA k hk)
  have hlin : ∀ e : LinExpr, e.Fits p.numVars →
      e.val x = ∑ k ∈ range N, Dict.get e.coeffs (r.step1Abs.getD k 0) * w k := by
    intro e he
    rw [LinExpr.val_range he, sum_support hnd hlt _ (fun i hi => by rw [hx0 i hi, mul_zero]), hN]
    exact sum_congr rfl fun k hk => by rw [hxw k (Finset.mem_range.mp hk)]
  have hquad : p.objective.quadratic.val x = ∑ a ∈ range N, ∑ b ∈ range N,
      Dict.get p.objective.quadratic.coeffs (r.step1Abs.getD a 0, r.step1Abs.getD b 0) * (w a * w b) := by
    rw [QuadExpr.val_range hp.objQuad, sum_support hnd hlt _ (fun i hi => by
      apply Finset.sum_eq_zero; intro j _; rw [hx0 i hi]; ring), hN]
    refine sum_congr rfl fun a ha => ?_
    rw [sum_support hnd hlt _ (fun i hi => by rw [hx0 i hi]; ring), hN]
    exact sum_congr rfl fun b hb => by rw [hxw a (Finset.mem_range.mp ha), hxw b (Finset.mem_range.mp hb)]
  have hq0v : ∀ a < N, ∀ b < N, entry r.q0 a b =
      Dict.get p.objective.quadratic.coeffs (r.step1Abs.getD a 0, r.step1Abs.getD b 0) := by
    intro a ha b hb
    have : entry r.q0 a b = if a ≤ b then Dict.get p.objective.quadratic.coeffs
        (min (r.step1Abs.getD a 0) (r.step1Abs.getD b 0), max (r.step1Abs.getD a 0) (r.step1Abs.getD b 0)) else 0 := by
      rw [hq0]
      simp [entry, pt, List.getD_eq_getElem?_getD, ha, hb]
    rw [this]
    split
    · rename_i hab
      have : r.step1Abs.getD a 0 ≤ r.step1Abs.getD b 0 := by
        rcases Nat.lt_or_eq_of_le hab with hab | rfl
        · exact le_of_lt (hmono a b hab hb)
        · exact le_rfl
      rw [min_eq_left this, max_eq_right this]
    · rename_i hab
      symm
      apply Dict.get_eq_zero_of_not_mem
      intro hk
      have h1 := hp.objQuad.1.upper _ hk
      have h2 := hmono b a (by omega) ha
      simp only at h1
      omega
  have t1 : ∑ i ∈ range N, ∑ j ∈ range N, entry r.q0 i j * (w i * w j) = p.objective.quadratic.val x := by
    rw [hquad]
    exact sum_congr rfl fun i hi => sum_congr rfl fun j hj => by
      rw [hq0v i (Finset.mem_range.mp hi) j (Finset.mem_range.mp hj)]
  have hD : ∀ c ∈ binaryEqualities p, ∑ k ∈ range N, Dict.get c.linear.coeffs (r.step1Abs.getD k 0) * w k =
      c.linear.val x := by
    intro c hc
    rw [hlin c.linear (hp.lins c (mem_binaryEqualities.mp hc).1)]
  have t2 : ∑ i ∈ range N, ∑ j ∈ range N, gram r.a0 i j * (w i * w j) =
      ((binaryEqualities p).map fun c => c.linear.val x ^ 2).sum := by
    have : ∀ i ∈ range N, ∀ j ∈ range N, gram r.a0 i j * (w i * w j) =
        ((binaryEqualities p).map fun c => (Dict.get c.linear.coeffs (r.step1Abs.getD i 0) * w i) *
          (Dict.get c.linear.coeffs (r.step1Abs.getD j 0) * w j)).sum := by
      intro i hi j hj
      rw [g1 i (Finset.mem_range.mp hi) j (Finset.mem_range.mp hj), ← List.sum_map_mul_right]
      congr 1
      apply List.map_congr_left
      intro c _; ring
    rw [sum_congr rfl fun i hi => sum_congr rfl fun j hj => this i hi j hj]
    simp only [lsum_finset_comm]
    congr 1
    apply List.map_congr_left
    intro c hc
    rw [← hD c hc, sq, Finset.sum_mul_sum]
  have t5 : ∑ i ∈ range N, rhsRow r.a0 r.b0 i * w i =
      ((binaryEqualities p).map fun c => c.rhs * c.linear.val x).sum := by
    have : ∀ i ∈ range N, rhsRow r.a0 r.b0 i * w i =
        ((binaryEqualities p).map fun c => c.rhs * (Dict.get c.linear.coeffs (r.step1Abs.getD i 0) * w i)).sum := by
      intro i hi
      rw [g2 i (Finset.mem_range.mp hi), ← List.sum_map_mul_right]
      congr 1
      apply List.map_congr_left
      intro c _; ring
    rw [sum_congr rfl this, lsum_finset_comm]
    congr 1
    apply List.map_congr_left
    intro c hc
    rw [← hD c hc, Finset.mul_sum]
  have t3 : ∑ i ∈ range N, ∑ j ∈ range N, (if i = j then (1 : ℚ) else 0) * (w i * w j) = ∑ i ∈ range N, w i * w i := by
    refine sum_congr rfl fun i hi => ?_
    rw [Finset.sum_eq_single i]
    · simp
    · intro j _ hj; rw [if_neg (Ne.symm hj), zero_mul]
    · intro hn; exact absurd hi hn
  have t4 : ∑ i ∈ range N, pt r.c0 i * w i = p.objective.linear.val x := by
    rw [hlin _ hp.objLin]
    refine sum_congr rfl fun i hi => ?_
    have hi' : i < N := Finset.mem_range.mp hi
    rw [c2, pt_map_getD _ _ (by omega), pt_toArray]
    have := c1 _ (hAm i hi')
    simpa [LinExpr.toArray] using this
  have hrel : ∀ k < N, r.step1Rel.getD k 0 = p.rank .binary (r.step1Abs.getD k 0) := by
    intro k hk
    have hk' : k < r.step1Abs.length := by omega
    rw [e1]; simp [List.getD_eq_getElem?_getD, hk']
  have t6 : p.coupling s.rho s.lam x s.z s.y =
      p.binSum (fun _ j => -pt s.lam j * (pt s.z j + pt s.y j) + s.rho / 2 * (pt s.z j + pt s.y j) ^ 2) +
      ∑ k ∈ range N, ((pt s.lam (r.step1Rel.getD k 0) +
        s.rho * (-pt s.y (r.step1Rel.getD k 0) - pt s.z (r.step1Rel.getD k 0))) * w k + s.rho / 2 * (w k * w k)) := by
    have hs : ∑ k ∈ range N, ((pt s.lam (r.step1Rel.getD k 0) +
        s.rho * (-pt s.y (r.step1Rel.getD k 0) - pt s.z (r.step1Rel.getD k 0))) * w k + s.rho / 2 * (w k * w k)) =
        ∑ i ∈ range p.numVars, (if p.isBinary i then (pt s.lam (p.rank .binary i) +
          s.rho * (-pt s.y (p.rank .binary i) - pt s.z (p.rank .binary i))) * x i + s.rho / 2 * (x i * x i) else 0) := by
      rw [sum_support hnd hlt _ (fun i hi => by rw [hx0 i hi]; simp), hN]
      refine sum_congr rfl fun k hk => ?_
      have hk' := Finset.mem_range.mp hk
      rw [if_pos (isBinary_iff.mpr (hmem _ (hAm k hk'))), hxw k hk', hrel k hk']
    rw [hs, QP.coupling, binSum_range, binSum_range, ← Finset.sum_add_distrib]
    refine sum_congr rfl fun i _ => ?_
    split
    · ring
    · simp
  have t7 : p.binEqSquares x = ((binaryEqualities p).map fun c => c.linear.val x ^ 2).sum -
      2 * ((binaryEqualities p).map fun c => c.rhs * c.linear.val x).sum +
      ((binaryEqualities p).map fun c => c.rhs ^ 2).sum := by
    rw [QP.binEqSquares, ← binEqs_eq]
    induction binaryEqualities p with
    | nil => simp
    | cons c cs ih =>
      simp only [List.map_cons, List.sum_cons, ih]; ring
  have hval : op1.objective.val w = ∑ i ∈ range N, ∑ j ∈ range N, entry r.q0 i j * (w i * w j) +
      prm.factorC / 2 * ∑ i ∈ range N, ∑ j ∈ range N, gram r.a0 i j * (w i * w j) +
      s.rho / 2 * ∑ i ∈ range N, ∑ j ∈ range N, (if i = j then (1 : ℚ) else 0) * (w i * w j) +
      ∑ i ∈ range N, pt r.c0 i * w i - prm.factorC * ∑ i ∈ range N, rhsRow r.a0 r.b0 i * w i +
      ∑ k ∈ range N, (pt s.lam (r.step1Rel.getD k 0) +
        s.rho * (-pt s.y (r.step1Rel.getD k 0) - pt s.z (r.step1Rel.getD k 0))) * w k := by
    rw [Objective.val, hcon, hq', hl', hqv, hlv]
    simp only [Finset.mul_sum]
    rw [zero_add, add_comm]
    simp only [← Finset.sum_add_distrib, ← Finset.sum_sub_distrib]
    refine sum_congr rfl fun i _ => ?_
    have hS : ∑ j ∈ range N, (entry r.q0 i j + prm.factorC / 2 * gram r.a0 i j +
        s.rho / 2 * if i = j then (1 : ℚ) else 0) * (w i * w j) =
        ∑ j ∈ range N, (entry r.q0 i j * (w i * w j) + prm.factorC / 2 * (gram r.a0 i j * (w i * w j)) +
          s.rho / 2 * ((if i = j then (1 : ℚ) else 0) * (w i * w j))) :=
      sum_congr rfl fun j _ => by ring
    rw [hS]; ring
  rw [hval, t1, t2, t3, t4, t5, t6, t7, Objective.val]
  simp only [Finset.sum_add_distrib, Finset.mul_sum]
  ring

end Verif

import Verif.PropsAdmmContinuous
import Verif.RecursiveLemmas

/-!
# The first iteration of ADMM on binary programs
-/

namespace Verif

open Finset (range sum_congr)

theorem binary_rank {q : QP} (hb : ∀ v ∈ q.vars, v.vartype = .binary) {i : Nat} (hi : i ≤ q.numVars) :
    q.rank .binary i = i := by
  unfold QP.rank
  rw [List.filter_eq_self.mpr (fun v hv => by simp [hb v (List.mem_of_mem_take hv)]), List.length_take]
  exact min_eq_left hi

theorem binary_count {q : QP} (hb : ∀ v ∈ q.vars, v.vartype = .binary) : q.countType .binary = q.numVars := by
  unfold QP.countType
  rw [List.filter_eq_self.mpr (fun v hv => by simp [hb v hv])]
  rfl

theorem binary_is {q : QP} (hb : ∀ v ∈ q.vars, v.vartype = .binary) {i : Nat} (hi : i < q.numVars) : q.isBinary i = true := by
  obtain ⟨v, hv⟩ := lt_numVars hi
  simp [QP.isBinary, hv, hb v (List.mem_of_getElem? hv)]

theorem binary_isnot {q : QP} {i : Nat} (hi : q.numVars ≤ i) : q.isBinary i = false := by
  simp [QP.isBinary, List.getElem?_eq_none hi]

/-- The coupling terms without multipliers, at zero values of the other blocks. -/
theorem coupling_zero {q : QP} (hb : ∀ v ∈ q.vars, v.vartype = .binary) {rho : ℚ} {lam z y : List ℚ} {x : Nat → ℚ}
    (hl : ∀ i, pt lam i = 0) (hy : ∀ i, pt y i = 0) :
    q.coupling rho lam x z y = rho / 2 * ∑ i ∈ range q.numVars, (x i - pt z i) ^ 2 := by
  unfold QP.coupling
  rw [binSum_range, Finset.mul_sum]
  refine sum_congr rfl fun i hi => ?_
  have hi := Finset.mem_range.mp hi
  rw [if_pos (binary_is hb hi), binary_rank hb hi.le, hl, hy]
  ring

theorem get_negated {κ : Type} [DecidableEq κ] (d : Dict κ) (k : κ) :
    Dict.get (d.map fun q => (q.1, (-1) * q.2)) k = -Dict.get d k := by
  induction d with
  | nil => simp [Dict.get, Assoc.get?]
  | cons a d ih =>
    obtain ⟨a1, a2⟩ := a
    simp only [Dict.get, List.map_cons, Assoc.get?] at ih ⊢
    by_cases h : a1 = k
    · simp [h]
    · simp only [h, if_false]
      exact ih

theorem turned_linear {p q : QP} (h : turnToMinimization p = .ok q) (i : Nat) :
    Dict.get q.objective.linear.coeffs i = p.objective.sense.value * Dict.get p.objective.linear.coeffs i := by
  unfold turnToMinimization at h
  cases hs : p.objective.sense with
  | minimize =>
    simp only [hs, Except.ok.injEq] at h
    subst h
    simp [ObjSense.value]
  | maximize =>
    simp only [hs, LinExpr.ofInput, QuadExpr.ofInput, Except.ok.injEq] at h
    subst h
    simp only [LinExpr.negated, get_negated, ObjSense.value]
    ring

/-- An optimizer whose answers are optimal points of the programs that have feasible points. -/
def OptimalAnswers (solver : Solver) : Prop :=
  ∀ t op v, (∃ x, op.Feas x) → solver t op = .ok v → OptimalIn op.Feas op.objective (pt v)

/-- What the first iteration of step 1 minimizes. -/
def firstCost (prm : AdmmParams) (q : QP) (x : Nat → ℚ) : ℚ :=
  q.objective.val x + prm.factorC / 2 * q.binEqSquares x + prm.rhoInitial / 2 * ∑ i ∈ range q.numVars, x i ^ 2

theorem pt_replicate_zero (m i : Nat) : pt (List.replicate m (0 : ℚ)) i = 0 := by
  simp only [pt, List.getD_eq_getElem?_getD, List.getElem?_replicate]
  split <;> rfl

theorem int_zero_one {z : Int} {x : ℚ} (hx : x = z) (h0 : 0 ≤ x) (h1 : x ≤ 1) : x = 0 ∨ x = 1 := by
  subst hx
  have a : (0 : Int) ≤ z := by exact_mod_cast h0
  have b : z ≤ 1 := by exact_mod_cast h1
  rcases (by omega : z = 0 ∨ z = 1) with rfl | rfl <;> simp

theorem zero_one_int {x : ℚ} (h : x = 0 ∨ x = 1) : ∃ z : Int, x = z := by
  rcases h with h | h
  · exact ⟨0, by simp [h]⟩
  · exact ⟨1, by simp [h]⟩

theorem first_iterate {qubo cont : Solver} {norm : List ℚ → ℚ} {prm : AdmmParams} {p : QP} {a : AdmmResult}
    {conv : I2B} {q : QP} {start : AdmmState} {hist : List Iterate}
    (hF : AdmmFacts qubo cont norm prm p a conv q start hist) (hw : prm.warmStart = false)
    (hb : ∀ v ∈ q.vars, v.vartype = .binary) (hq : OptimalAnswers qubo) {g : Iterate} (hg : hist[0]? = some g) :
    (∀ i, pt g.x0 i = 0 ∨ pt g.x0 i = 1) ∧ (∀ i, i ∉ a.rep.step1Abs → pt g.x0 i = 0) ∧
      ∀ x : Nat → ℚ, (∀ i, x i = 0 ∨ x i = 1) → (∀ i, i ∉ a.rep.step1Abs → x i = 0) →
        firstCost prm q (pt g.x0) ≤ firstCost prm q x := by
  obtain ⟨f1, f2⟩ := hF.trace.first g hg
  have hlen := (hF.trace.steps 0 g hg).lx
  rw [binary_count hb] at hlen
  obtain ⟨s, t, hbl, rfl, h0, _⟩ := hF.ran 0 g hg
  obtain ⟨e1, e2, e3⟩ := h0 rfl
  obtain ⟨b1, _, _⟩ := admmBlocks_inv hbl
  have hst : start = admmInit prm q := by
    have := hF.hstart
    simp only [hw, Bool.false_eq_true, if_false, Except.ok.injEq] at this
    exact this.symm
  subst hst
  have hz : ∀ i, pt s.z i = 0 := fun i => by rw [e2]; exact pt_replicate_zero _ _
  have hy : ∀ i, pt s.y i = 0 := fun i => by rw [e3]; exact pt_replicate_zero _ _
  have hl : ∀ i, pt s.lam i = 0 := fun i => by
    have : s.lam = List.replicate (q.countType .binary) 0 := f2
    rw [this]; exact pt_replicate_zero _ _
  have hrho : s.rho = prm.rhoInitial := f1
  have hout : ∀ i, q.numVars ≤ i → pt t.x0 i = 0 := fun i hi => by
    have : t.x0.length ≤ i := by rw [show t.x0.length = q.numVars from hlen]; exact hi
    simp [pt, List.getD_eq_getElem?_getD, List.getElem?_eq_none this]
  rcases updateX0_inv hF.wf hF.rep b1 with ⟨u1, u2⟩ | ⟨u1, op, w, w1, w2, w3, w4, w5, w6⟩
  · have hx0 : ∀ i, pt t.x0 i = 0 := fun i => by rw [u2, e1]; exact pt_replicate_zero _ _
    refine ⟨fun i => .inl (hx0 i), fun i _ => hx0 i, fun x _ hx => ?_⟩
    have hxx : x = pt t.x0 := funext fun i => by rw [hx i (by simp [u1]), hx0]
    rw [hxx]
  · obtain ⟨v1, v2, v3, v4, _⟩ := step1Problem_vars w1
    have hP := step1Program_of hF.wf hF.rep w1
    obtain ⟨_, _, _, _, _, _, a7, _⟩ := admmRep_inv hF.rep
    have hsel := (step1Absolute_inv hF.wf a7).2
    have hselb : ∀ i ∈ a.rep.step1Abs, i < q.numVars := fun i hi => by
      obtain ⟨⟨v, hv, _⟩, _⟩ := (hsel i).mp hi
      exact (List.getElem?_eq_some_iff.mp hv).1
    have hnot : ∀ i, i ∉ a.rep.step1Abs → pt t.x0 i = 0 := fun i hi => by
      by_cases hin : i < q.numVars
      · obtain ⟨v, hv⟩ := lt_numVars hin
        have := w6 i v hv (hb v (List.mem_of_getElem? hv)) hi
        rwa [binary_rank hb hin.le] at this
      · exact hout i (by omega)
    have hyes : ∀ k i : Nat, a.rep.step1Abs[k]? = some i → pt t.x0 i = pt w k := fun k i hk => by
      have hi := hselb i (List.mem_of_getElem? hk)
      have := w5 k i hk
      rwa [binary_rank hb hi.le] at this
    have hfe : ∀ w' : Nat → ℚ, op.Feas w' ↔ ∀ k < a.rep.step1Abs.length, w' k = 0 ∨ w' k = 1 := by
      intro w'
      unfold QP.Feas QP.InBounds QP.Integral QP.Sat QP.allCsts
      rw [v1, v2, v3]
      constructor
      · rintro ⟨c1, c2, _⟩ k hk
        have hk' : (a.rep.step1Abs.map (fun i => (⟨varName a.rep.op.vars i, 0, 1, .binary⟩ : Variable)))[k]? =
            some ⟨varName a.rep.op.vars (a.rep.step1Abs[k]), 0, 1, .binary⟩ := by
          rw [List.getElem?_map, List.getElem?_eq_getElem hk]; rfl
        obtain ⟨z, hz⟩ := c2 k _ hk' (by simp)
        exact int_zero_one hz (c1 k _ hk').1 (c1 k _ hk').2
      · intro h
        have hv : ∀ k v, (a.rep.step1Abs.map (fun i => (⟨varName a.rep.op.vars i, 0, 1, .binary⟩ : Variable)))[k]? =
            some v → v.lb = 0 ∧ v.ub = 1 ∧ k < a.rep.step1Abs.length := by
          intro k v hk
          rw [List.getElem?_map] at hk
          cases hs : a.rep.step1Abs[k]? with
          | none => simp [hs] at hk
          | some i =>
            simp only [hs, Option.map_some, Option.some.injEq] at hk
            subst hk
            exact ⟨rfl, rfl, (List.getElem?_eq_some_iff.mp hs).1⟩
        refine ⟨fun k v hk => ?_, fun k v hk _ => ?_, fun c hc => by simp at hc⟩
        · obtain ⟨l, u, hkl⟩ := hv k v hk
          rw [l, u]
          rcases h k hkl with e | e <;> rw [e] <;> norm_num
        · exact zero_one_int (h k (hv k v hk).2.2)
    have hopt := hq 0 op w ⟨fun _ => 0, (hfe _).mpr fun _ _ => .inl rfl⟩ w2
    have hw01 := (hfe _).mp hopt.1
    refine ⟨fun i => ?_, hnot, fun x hx hx0 => ?_⟩
    · by_cases hi : i ∈ a.rep.step1Abs
      · obtain ⟨k, hk⟩ := List.mem_iff_getElem?.mp hi
        rw [hyes k i hk]
        exact hw01 k (List.getElem?_eq_some_iff.mp hk).1
      · exact .inl (hnot i hi)
    · obtain ⟨K, hK⟩ := hP.value
      have k1 := hK (pt w) (pt t.x0) hyes hnot
      have k2 := hK (fun k => x (a.rep.step1Abs.getD k 0)) x
        (fun k i hk => by simp [List.getD_eq_getElem?_getD, hk]) hx0
      have k3 := hopt.2 (fun k => x (a.rep.step1Abs.getD k 0)) ((hfe _).mpr fun k _ => hx _)
      rw [v4] at k3
      simp only [ObjSense.value, one_mul] at k3
      rw [coupling_zero hb hl hy, hrho] at k1 k2
      simp only [hz, sub_zero] at k1 k2
      unfold firstCost
      show q.objective.val (pt t.x0) + _ + _ ≤ _
      linarith

/-- An objective that is a sum over the variables has no products of different variables. -/
theorem products_none {q : QP} (hq : q.WF) {c : Nat → ℚ}
    (hc : ∀ x : Nat → ℚ, (∀ i, x i = 0 ∨ x i = 1) → q.objective.val x = q.objective.constant + ∑ i ∈ range q.numVars, c i * x i) :
    ¬ q.BinaryProducts := by
  rintro ⟨i, j, hij, _, hne⟩
  have hmem : (i, j) ∈ Assoc.keys q.objective.quadratic.coeffs := by
    by_contra hm
    exact hne (Dict.get_eq_zero_of_not_mem hm)
  have hu := hq.objQuad.1.upper _ hmem
  have hbd := hq.objQuad.1.bound _ hmem
  have hn := hq.objQuad.2
  simp only at hu hbd
  have hi : i < q.numVars := by omega
  have hj : j < q.numVars := by omega
  have hu01 : ∀ k m, unit k m = 0 ∨ unit k m = 1 := fun k m => by
    unfold unit; split
    exacts [.inr rfl, .inl rfl]
  have hsum : ∀ k < q.numVars, ∑ m ∈ range q.numVars, c m * unit k m = c k := fun k hk => by
    simp [unit, hk]
  have ei := hc (unit i) (hu01 i)
  have ej := hc (unit j) (hu01 j)
  have eij := hc (fun k => unit j k + unit i k) (fun k => by
    unfold unit
    by_cases h1 : k = j
    · right
      rw [if_pos h1, if_neg (by omega)]; norm_num
    · rw [if_neg h1]
      split
      · right; norm_num
      · left; norm_num)
  rw [hsum i hi] at ei
  rw [hsum j hj] at ej
  simp only [mul_add, Finset.sum_add_distrib] at eij
  rw [hsum i hi, hsum j hj] at eij
  simp only [Objective.val] at ei ej eij
  have hsh := QuadExpr.val_shift hq.objQuad.1 hn hi (unit j)
  have hzz := QuadExpr.val_shift hq.objQuad.1 hn hi (fun _ => 0)
  have hz0 : q.objective.quadratic.val (fun _ => 0) = 0 := by simp [QuadExpr.val, Dict.sum]
  rw [hz0] at hzz
  simp only [zero_add, mul_zero, List.map_const', List.sum_replicate, smul_zero, add_zero] at hzz
  rw [lsum_range] at hsh
  have hterm : ∑ k ∈ range q.numVars, (if k = i then 2 * qget q.objective.quadratic i k else qget q.objective.quadratic i k) * unit j k =
      Dict.get q.objective.quadratic.coeffs (i, j) := by
    rw [Finset.sum_eq_single j]
    · rw [if_neg (Ne.symm hij)]
      simp [unit, qget, min_eq_left hu, max_eq_right hu]
    · intro k _ hk
      simp [unit, hk]
    · intro h
      exact absurd (Finset.mem_range.mpr hj) h
  rw [hterm] at hsh
  have hlin := q.objective.linear.val_add (unit j) (unit i)
  apply hne
  have hzz' : q.objective.quadratic.val (unit i) = qget q.objective.quadratic i i := hzz
  rw [hsh, hlin] at eij
  linarith

end Verif

import Verif.PropsMinEigen
import Mathlib.LinearAlgebra.Matrix.Notation
import Mathlib.Data.Complex.Basic
import Mathlib.Data.Complex.BigOperators
import Mathlib.Data.Rat.BigOperators

/-!
# Operators as matrices

Specification of the operators that `to_ising` returns as matrices on state vectors, in the convention of Qiskit: the
amplitude with index `i` belongs to the basis state in which qubit `q` has the value of binary digit `q` of `i`.
-/

namespace Verif

open Finset

/-- Entry `a, b` of the matrices I, Z, X and Y of one qubit. -/
noncomputable def pauliEntry (z x a b : Bool) : ℂ :=
  match z, x with
  | false, false => if a = b then 1 else 0
  | true, false => if a = b then (if a then -1 else 1) else 0
  | false, true => if a = b then 0 else 1
  | true, true => if a = b then 0 else if a then Complex.I else -Complex.I

/-- The matrix of a Pauli string: the tensor product over the qubits. -/
noncomputable def pauliMatrix (n : Nat) (t : Pauli) : Matrix (Fin (2 ^ n)) (Fin (2 ^ n)) ℂ :=
  Matrix.of fun i k => ∏ q ∈ range n, pauliEntry (t.1.getD q false) (t.2.getD q false) (i.val.testBit q) (k.val.testBit q)

/-- The matrix of an operator. -/
noncomputable def QubitOp.matrix (op : QubitOp) : Matrix (Fin (2 ^ op.numQubits)) (Fin (2 ^ op.numQubits)) ℂ :=
  (op.terms.map fun t => (t.2 : ℂ) • pauliMatrix op.numQubits t.1).sum

/-- `psi` is an eigenvector to the smallest eigenvalue `lam` of the matrix. -/
def LeastEigen {m : Nat} (h : Matrix (Fin m) (Fin m) ℂ) (lam : ℝ) (psi : Fin m → ℂ) : Prop :=
  psi ≠ 0 ∧ h.mulVec psi = (lam : ℂ) • psi ∧
    ∀ (mu : ℝ) (phi : Fin m → ℂ), phi ≠ 0 → h.mulVec phi = (mu : ℂ) • phi → lam ≤ mu

/-- The point of basis state `i`: coordinate `j` is binary digit `j` of `i`. -/
def digitPt (i : Nat) : Nat → ℚ := fun j => ((i / 2 ^ j % 2 : Nat) : ℚ)

/-- The amplitudes of a state vector. -/
noncomputable def amplitudes (m : Nat) (v : List (ℚ × ℚ)) : Fin m → ℂ := fun i =>
  ⟨((v.getD i (0, 0)).1 : ℝ), ((v.getD i (0, 0)).2 : ℝ)⟩

/-- The expectation value of the matrix in a state. -/
noncomputable def expectation {m : Nat} (h : Matrix (Fin m) (Fin m) ℂ) (psi : Fin m → ℂ) : ℂ :=
  ∑ i, star (psi i) * h.mulVec psi i

/-! ## Helper lemmas -/

theorem digitPt_bit (i j : Nat) : digitPt i j = if i.testBit j then 1 else 0 := by
  unfold digitPt
  rw [Nat.testBit_eq_decide_div_mod_eq]
  have : i / 2 ^ j % 2 < 2 := Nat.mod_lt _ (by norm_num)
  interval_cases h : i / 2 ^ j % 2 <;> simp

theorem digitPt_zero {n i j : Nat} (hi : i < 2 ^ n) (hj : n ≤ j) : digitPt i j = 0 := by
  rw [digitPt_bit, Nat.testBit_lt_two_pow (hi.trans_le (Nat.pow_le_pow_right (by norm_num) hj))]
  simp

theorem pt_digits {n i : Nat} (hi : i < 2 ^ n) : pt (bitsOf n i) = digitPt i := by
  funext j
  by_cases hj : j < n
  · simp [pt, bitsOf, digitPt, hj, List.getD_eq_getElem?_getD]
  · rw [digitPt_zero hi (by omega)]
    simp [pt, bitsOf, hj, List.getD_eq_getElem?_getD]

theorem zval_prod (z : List Bool) (b : Nat → ℚ) :
    zval z b = ∏ q ∈ range z.length, (if z.getD q false then 1 - 2 * b q else 1) := by
  induction z generalizing b with
  | nil => simp [zval]
  | cons t z ih =>
    rw [zval, ih, List.length_cons, Finset.prod_range_succ', mul_comm]
    simp

theorem zval_digits (n : Nat) (z : List Bool) {i : Nat} (hi : i < 2 ^ n) :
    zval z (digitPt i) = ∏ q ∈ range n, (if z.getD q false && i.testBit q then -1 else 1) := by
  have h : ∀ q, (if z.getD q false && i.testBit q then (-1 : ℚ) else 1) =
      if z.getD q false then 1 - 2 * digitPt i q else 1 := by
    intro q
    rw [digitPt_bit]
    cases z.getD q false <;> cases i.testBit q <;> norm_num
  rw [zval_prod, Finset.prod_congr rfl fun q _ => h q]
  rcases Nat.le_total z.length n with hl | hl
  · apply Finset.prod_subset (Finset.range_subset_range.mpr hl)
    intro q _ hq
    rw [Finset.mem_range, not_lt] at hq
    simp [List.getD_eq_getElem?_getD, List.getElem?_eq_none hq]
  · symm
    apply Finset.prod_subset (Finset.range_subset_range.mpr hl)
    intro q _ hq
    rw [Finset.mem_range, not_lt] at hq
    rw [digitPt_zero hi hq]
    simp

theorem testBit_ext {n : Nat} {i k : Fin (2 ^ n)} (h : ∀ q < n, i.val.testBit q = k.val.testBit q) : i = k := by
  apply Fin.ext
  apply Nat.eq_of_testBit_eq
  intro q
  by_cases hq : q < n
  · exact h q hq
  · have hp : 2 ^ n ≤ 2 ^ q := Nat.pow_le_pow_right (by norm_num) (by omega)
    rw [Nat.testBit_lt_two_pow (i.isLt.trans_le hp), Nat.testBit_lt_two_pow (k.isLt.trans_le hp)]

theorem pauliMatrix_diagonal (n : Nat) {t : Pauli} (hx : ∀ i : Nat, t.2[i]? ≠ some true) :
    pauliMatrix n t = Matrix.diagonal fun i : Fin (2 ^ n) => ((zval t.1 (digitPt i) : ℚ) : ℂ) := by
  have hx' : ∀ q, t.2.getD q false = false := by
    intro q
    rw [List.getD_eq_getElem?_getD]
    cases h : t.2[q]? with
    | none => rfl
    | some b =>
      cases b with
      | false => rfl
      | true => exact absurd h (hx q)
  ext i k
  rw [pauliMatrix, Matrix.of_apply]
  by_cases hik : i = k
  · subst hik
    rw [Matrix.diagonal_apply_eq, zval_digits n t.1 i.isLt, Rat.cast_prod]
    refine Finset.prod_congr rfl fun q _ => ?_
    rw [hx' q]
    cases t.1.getD q false <;> cases i.val.testBit q <;> simp [pauliEntry]
  · rw [Matrix.diagonal_apply_ne _ hik]
    have : ∃ q < n, i.val.testBit q ≠ k.val.testBit q := by
      by_contra hcon
      push Not at hcon
      exact hik (testBit_ext hcon)
    obtain ⟨q, hq, hne⟩ := this
    apply Finset.prod_eq_zero (Finset.mem_range.mpr hq)
    rw [hx' q]
    cases t.1.getD q false <;> simp [pauliEntry, hne]

theorem QubitOp.matrix_diagonal {op : QubitOp} (hd : op.Diagonal) :
    op.matrix = Matrix.diagonal fun i : Fin (2 ^ op.numQubits) => ((op.energy (digitPt i) : ℚ) : ℂ) := by
  unfold QubitOp.matrix QubitOp.energy QubitOp.Diagonal at *
  generalize op.terms = l at hd
  induction l with
  | nil =>
    ext i k
    simp [Matrix.diagonal_apply]
  | cons t l ih =>
    rw [List.map_cons, List.sum_cons, ih fun s hs => hd s (by simp [hs]), pauliMatrix_diagonal _ (hd t (by simp)),
      ← Matrix.diagonal_smul, Matrix.diagonal_add]
    congr 1
    funext i
    simp [Dict.sum_cons]

theorem least_diagonal {m : Nat} (d : Fin m → ℝ) (lam : ℝ) (psi : Fin m → ℂ) :
    LeastEigen (Matrix.diagonal fun i => ((d i : ℝ) : ℂ)) lam psi ↔
      psi ≠ 0 ∧ ∀ i, psi i ≠ 0 → lam = d i ∧ ∀ k, d i ≤ d k := by
  constructor
  · rintro ⟨h0, h1, h2⟩
    refine ⟨h0, fun i hi => ?_⟩
    have hlam : lam = d i := by
      have := congrFun h1 i
      rw [Matrix.mulVec_diagonal, Pi.smul_apply, smul_eq_mul] at this
      exact_mod_cast (mul_right_cancel₀ hi this).symm
    refine ⟨hlam, fun k => ?_⟩
    rw [← hlam]
    refine h2 (d k) (Pi.single k 1) (by simp) ?_
    funext j
    rw [Matrix.mulVec_diagonal, Pi.smul_apply, smul_eq_mul]
    by_cases hj : j = k
    · rw [hj]
    · simp [hj]
  · rintro ⟨h0, h1⟩
    refine ⟨h0, ?_, ?_⟩
    · funext i
      rw [Matrix.mulVec_diagonal, Pi.smul_apply, smul_eq_mul]
      by_cases hi : psi i = 0
      · rw [hi]; simp
      · rw [(h1 i hi).1]
    · intro mu phi hphi hmu
      obtain ⟨i, hi⟩ := Function.ne_iff.mp h0
      obtain ⟨k, hk⟩ := Function.ne_iff.mp hphi
      have := congrFun hmu k
      rw [Matrix.mulVec_diagonal, Pi.smul_apply, smul_eq_mul] at this
      have hmk : d k = mu := by exact_mod_cast mul_right_cancel₀ hk this
      rw [(h1 i hi).1, ← hmk]
      exact (h1 i hi).2 k

theorem expectation_diagonal {m : Nat} (d : Fin m → ℂ) (psi : Fin m → ℂ) :
    expectation (Matrix.diagonal d) psi = ∑ i, d i * (Complex.normSq (psi i) : ℂ) := by
  refine Finset.sum_congr rfl fun i _ => ?_
  rw [Matrix.mulVec_diagonal, Complex.normSq_eq_conj_mul_self, ← starRingEnd_apply]
  ring

end Verif

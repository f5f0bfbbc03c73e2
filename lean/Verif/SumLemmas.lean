import Verif.ListSum
import Verif.BuildLemmas
import Verif.AdmmLemmas
import Mathlib.Algebra.BigOperators.Group.Finset.Basic
import Mathlib.Algebra.BigOperators.Ring.Finset
import Mathlib.Tactic.LinearCombination

/-!
# Sums over positions: list sums as `Finset` sums, values of expressions given by matrices
-/

namespace Verif

open Finset (range sum_congr)

theorem lsum_range (n : Nat) (f : Nat → ℚ) : ((List.range n).map f).sum = ∑ i ∈ range n, f i := by
  induction n with
  | zero => simp
  | succ n ih => rw [List.range_succ, Finset.sum_range_succ, ← ih]; simp

theorem lsum_getD {α : Type} (l : List α) (d : α) (g : α → ℚ) :
    (l.map g).sum = ∑ k ∈ range l.length, g (l.getD k d) := by
  induction l with
  | nil => simp
  | cons a l ih =>
    rw [List.map_cons, List.sum_cons, ih, List.length_cons, Finset.sum_range_succ']
    simp [add_comm]

/-- A sum whose terms vanish outside the positions of `l` is the sum over `l`. -/
theorem sum_support {n : Nat} {l : List Nat} (hn : l.Nodup) (hl : ∀ i ∈ l, i < n) (g : Nat → ℚ)
    (h0 : ∀ i, i ∉ l → g i = 0) : ∑ i ∈ range n, g i = ∑ k ∈ range l.length, g (l.getD k 0) := by
  rw [← lsum_getD, ← List.sum_toFinset g hn]
  symm
  apply Finset.sum_subset
  · intro i hi
    exact Finset.mem_range.mpr (hl i (List.mem_toFinset.mp hi))
  · intro i _ hi
    exact h0 i (fun h => hi (List.mem_toFinset.mpr h))

theorem LinExpr.val_range {e : LinExpr} {n : Nat} (h : e.Fits n) (x : Nat → ℚ) :
    e.val x = ∑ i ∈ range n, Dict.get e.coeffs i * x i := by
  unfold LinExpr.val
  rw [← sum_range_get e.coeffs h.1.nodup n (fun k hk => lt_of_lt_of_le (h.1.bound k hk) h.2), lsum_range]

theorem QuadExpr.val_range {e : QuadExpr} {n : Nat} (h : e.Fits n) (x : Nat → ℚ) :
    e.val x = ∑ i ∈ range n, ∑ j ∈ range n, Dict.get e.coeffs (i, j) * (x i * x j) := by
  unfold QuadExpr.val
  rw [← sum_range2_get e.coeffs h.1.nodup n (fun k hk => ⟨lt_of_lt_of_le (h.1.bound k hk).1 h.2,
    lt_of_lt_of_le (h.1.bound k hk).2 h.2⟩) (fun i j => x i * x j), lsum_range]
  exact sum_congr rfl fun i _ => lsum_range _ _

theorem linList_val {vi : Assoc String Nat} {n N : Nat} {L : Nat → ℚ} {e : LinExpr}
    (h : LinExpr.ofInput vi n (.list ((List.range N).map L)) = .ok e) (w : Nat → ℚ) :
    e.val w = ∑ i ∈ range N, L i * w i := by
  simp only [LinExpr.ofInput, Except.ok.injEq] at h
  subst h
  simp only [LinExpr.val]
  rw [sum_linOfList, List.length_map, List.length_range, lsum_range]
  refine sum_congr rfl fun i hi => ?_
  simp [List.getD_eq_getElem?_getD, Finset.mem_range.mp hi]

theorem matrix_val {vi : Assoc String Nat} {n N : Nat} {M : Nat → Nat → ℚ} {e : QuadExpr}
    (h : QuadExpr.ofInput vi n (.matrix ((List.range N).map fun i => (List.range N).map fun j => M i j)) = .ok e)
    (w : Nat → ℚ) : e.val w = ∑ i ∈ range N, ∑ j ∈ range N, M i j * (w i * w j) := by
  simp only [QuadExpr.ofInput] at h
  split at h
  · simp only [Except.ok.injEq] at h
    subst h
    simp only [QuadExpr.val]
    rw [sum_triangle _ (fun k => w k.1 * w k.2) (fun i j => mul_comm _ _), sum_quadOfMatrix, List.length_map,
      List.length_range, lsum_range]
    refine sum_congr rfl fun i hi => ?_
    have hr : ((List.range N).map fun i => (List.range N).map fun j => M i j).getD i [] =
        (List.range N).map fun j => M i j := by
      simp [List.getD_eq_getElem?_getD, Finset.mem_range.mp hi]
    rw [hr, List.length_map, List.length_range, lsum_range]
    refine sum_congr rfl fun j hj => ?_
    simp [List.getD_eq_getElem?_getD, Finset.mem_range.mp hj]
  · simp at h

end Verif

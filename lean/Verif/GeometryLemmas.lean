import Verif.Geometry
import Verif.TourLemmas
import Mathlib.Tactic.Linarith
import Mathlib.Tactic.Positivity

/-!
# Lemmas about instances with nodes in the plane
-/

namespace Verif

theorem rint_near (r : ℝ) : |(rint r : ℝ) - r| ≤ 1 / 2 := by
  have h1 := Int.floor_le r
  have h2 := Int.lt_floor_add_one r
  unfold rint
  split_ifs <;> rw [abs_le] <;> push_cast <;> constructor <;> linarith

theorem rint_half (r : ℝ) (h : |(rint r : ℝ) - r| = 1 / 2) : (2 : ℤ) ∣ rint r := by
  have h1 := Int.floor_le r
  have h2 := Int.lt_floor_add_one r
  unfold rint at h ⊢
  split_ifs at h ⊢ with h3 h4 h5
  · rw [abs_of_nonpos (by linarith)] at h
    linarith
  · push_cast at h
    rw [abs_of_nonneg (by linarith)] at h
    linarith
  · exact Int.dvd_of_emod_eq_zero h5
  · omega

theorem rint_nonneg {r : ℝ} (h : 0 ≤ r) : 0 ≤ rint r := by
  have := Int.floor_nonneg.mpr h
  unfold rint
  split_ifs <;> omega

theorem hypot_mono {a b c d : ℚ} (h1 : |a| ≤ |c|) (h2 : |b| ≤ |d|) : hypot a b ≤ hypot c d := by
  unfold hypot
  apply Real.sqrt_le_sqrt
  have e1 : (a : ℝ) ^ 2 ≤ (c : ℝ) ^ 2 := by exact_mod_cast sq_le_sq.mpr h1
  have e2 : (b : ℝ) ^ 2 ≤ (d : ℝ) ^ 2 := by exact_mod_cast sq_le_sq.mpr h2
  exact add_le_add e1 e2

theorem hypot_neg (a b : ℚ) : hypot (-a) (-b) = hypot a b := by
  unfold hypot
  push_cast
  rw [neg_sq, neg_sq]

theorem hypot_nonneg (a b : ℚ) : 0 ≤ hypot a b := Real.sqrt_nonneg _

/-- If all distances are within the radius, all edges are there. -/
theorem geometricGraph_eq {n : Nat} {radius : ℝ} {pos : Nat → ℚ × ℚ}
    (h : ∀ i < n, ∀ j < n, hypot ((pos i).1 - (pos j).1) ((pos i).2 - (pos j).2) ≤ radius) :
    geometricGraph n radius pos = ⟨n, (List.range n).flatMap fun i => ((List.range n).filter fun j => decide (i < j)).map
      fun j => (i, j, some (rint (hypot ((pos i).1 - (pos j).1) ((pos i).2 - (pos j).2)) : ℚ))⟩ := by
  unfold geometricGraph
  simp only [Graph.mk.injEq, true_and]
  rw [List.flatMap_def, List.flatMap_def]
  congr 1
  refine List.map_congr_left fun i hi => ?_
  congr 1
  refine List.filter_congr fun j hj => ?_
  have := h i (List.mem_range.mp hi) j (List.mem_range.mp hj)
  simp [this]

theorem mem_completeEdges {n : Nat} {f : Nat → Nat → ℚ} {e : Nat × Nat × Option ℚ} :
    e ∈ ((List.range n).flatMap fun i => ((List.range n).filter fun j => decide (i < j)).map fun j =>
      (i, j, some (f i j))) ↔ e.1 < e.2.1 ∧ e.2.1 < n ∧ e.2.2 = some (f e.1 e.2.1) := by
  obtain ⟨a, b, c⟩ := e
  simp only [List.mem_flatMap, List.mem_map, List.mem_filter, List.mem_range, decide_eq_true_eq, Prod.mk.injEq]
  constructor
  · rintro ⟨i, hi, j, ⟨hj, hij⟩, rfl, rfl, rfl⟩
    exact ⟨hij, hj, rfl⟩
  · rintro ⟨h1, h2, rfl⟩
    exact ⟨a, by omega, b, ⟨h2, h1⟩, rfl, rfl, rfl⟩

theorem completeEdges_simple (n : Nat) (f : Nat → Nat → ℚ) :
    Graph.Simple ⟨n, (List.range n).flatMap fun i => ((List.range n).filter fun j => decide (i < j)).map fun j =>
      (i, j, some (f i j))⟩ := by
  intro e he e' he' h
  rw [mem_completeEdges] at he he'
  obtain ⟨a, b, c⟩ := e
  obtain ⟨a', b', c'⟩ := e'
  simp only at h he he'
  rcases h with ⟨rfl, rfl⟩ | ⟨rfl, rfl⟩
  · rw [he.2.2, he'.2.2]
  · omega

theorem completeEdges_weighs {n : Nat} {f : Nat → Nat → ℚ} (hf : ∀ i j, f i j = f j i) {i j : Nat} (hi : i < n)
    (hj : j < n) (hij : i ≠ j) :
    Graph.Weighs ⟨n, (List.range n).flatMap fun i => ((List.range n).filter fun j => decide (i < j)).map fun j =>
      (i, j, some (f i j))⟩ i j (f i j) := by
  unfold Graph.Weighs
  simp only [mem_completeEdges]
  rcases Nat.lt_or_gt_of_ne hij with h | h
  · exact Or.inl ⟨h, hj, trivial⟩
  · exact Or.inr ⟨h, hi, by rw [hf]⟩

theorem dist_symm (p q : ℚ × ℚ) : hypot (p.1 - q.1) (p.2 - q.2) = hypot (q.1 - p.1) (q.2 - p.2) := by
  rw [← hypot_neg, neg_sub, neg_sub]

/-- Two numbers between the same ends differ at most as much as the ends. -/
theorem abs_sub_le_ends {low high a b : ℚ} (ha : min low high ≤ a ∧ a ≤ max low high)
    (hb : min low high ≤ b ∧ b ≤ max low high) : |a - b| ≤ |high - low| := by
  rw [abs_le]
  rcases le_total low high with h | h
  · rw [min_eq_left h, max_eq_right h] at ha hb
    rw [abs_of_nonneg (by linarith)]
    constructor <;> linarith
  · rw [min_eq_right h, max_eq_left h] at ha hb
    rw [abs_of_nonpos (by linarith)]
    constructor <;> linarith

theorem foldl_max_le (l : List ℚ) (a : ℚ) : a ≤ l.foldl max a ∧ ∀ b ∈ l, b ≤ l.foldl max a := by
  induction l generalizing a with
  | nil => simp
  | cons c l ih =>
    obtain ⟨h1, h2⟩ := ih (max a c)
    rw [List.foldl_cons]
    refine ⟨(le_max_left _ _).trans h1, fun b hb => ?_⟩
    rcases List.mem_cons.mp hb with rfl | hb
    · exact (le_max_right _ _).trans h1
    · exact h2 b hb

theorem foldl_min_le (l : List ℚ) (a : ℚ) : l.foldl min a ≤ a ∧ ∀ b ∈ l, l.foldl min a ≤ b := by
  induction l generalizing a with
  | nil => simp
  | cons c l ih =>
    obtain ⟨h1, h2⟩ := ih (min a c)
    rw [List.foldl_cons]
    refine ⟨h1.trans (min_le_left _ _), fun b hb => ?_⟩
    rcases List.mem_cons.mp hb with rfl | hb
    · exact h1.trans (min_le_right _ _)
    · exact h2 b hb

theorem le_maxOf {l : List ℚ} {b : ℚ} (h : b ∈ l) : b ≤ maxOf l := by
  cases l with
  | nil => simp at h
  | cons a l =>
    rcases List.mem_cons.mp h with rfl | h
    · exact (foldl_max_le l b).1
    · exact (foldl_max_le l a).2 b h

theorem minOf_le {l : List ℚ} {b : ℚ} (h : b ∈ l) : minOf l ≤ b := by
  cases l with
  | nil => simp at h
  | cons a l =>
    rcases List.mem_cons.mp h with rfl | h
    · exact (foldl_min_le l b).1
    · exact (foldl_min_le l a).2 b h

end Verif

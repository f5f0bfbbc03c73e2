import Verif.DictLemmas
import Verif.ExprLemmas

/-! # Sums over lists and ranges -/

namespace Verif

/-- Scalar product of two vectors given as lists. -/
def dot (a b : List ℚ) : ℚ := (List.zipWith (· * ·) a b).sum

/-- Sum of two vectors given as lists. -/
def vadd (a b : List ℚ) : List ℚ := List.zipWith (· + ·) a b

theorem dot_eq_range (f : Nat → ℚ) (h : List ℚ) :
    dot ((List.range h.length).map f) h = ((List.range h.length).map fun i => f i * pt h i).sum := by
  induction h generalizing f with
  | nil => rfl
  | cons a h ih =>
    rw [List.length_cons, List.range_succ_eq_map]
    simp only [dot, List.map_cons, List.zipWith_cons_cons, List.sum_cons, List.map_map]
    have := ih (f ∘ Nat.succ)
    simp only [dot] at this
    rw [this]
    simp [pt, Function.comp_def]

theorem pt_vadd {x h : List ℚ} (hl : x.length = h.length) (i : Nat) :
    pt (vadd x h) i = pt x i + pt h i := by
  unfold pt vadd
  rw [List.getD_eq_getElem?_getD, List.getD_eq_getElem?_getD, List.getD_eq_getElem?_getD,
    List.getElem?_zipWith]
  by_cases hi : i < x.length
  · have hi' : i < h.length := hl ▸ hi
    simp [List.getElem?_eq_getElem hi, List.getElem?_eq_getElem hi']
  · have hi' : ¬ i < h.length := hl ▸ hi
    simp [List.getElem?_eq_none (not_lt.mp hi), List.getElem?_eq_none (not_lt.mp hi')]

theorem sum_range_ite (n k : Nat) (hk : k < n) (f : Nat → ℚ) :
    ((List.range n).map fun i => if k = i then f i else 0).sum = f k := by
  induction n with
  | zero => omega
  | succ n ih =>
    rw [List.range_succ]
    simp only [List.map_append, List.sum_append, List.map_cons, List.map_nil, List.sum_cons,
      List.sum_nil]
    by_cases h : k = n
    · subst h
      have : ((List.range k).map fun i => if k = i then f i else 0) = (List.range k).map fun _ => 0 := by
        apply List.map_congr_left
        intro a ha; simp at ha; simp; omega
      rw [this]; simp
    · rw [ih (by omega)]; simp [h]

theorem sum_map_add {α : Type} (l : List α) (f g : α → ℚ) :
    (l.map fun a => f a + g a).sum = (l.map f).sum + (l.map g).sum := by
  induction l with
  | nil => simp
  | cons a l ih => simp [ih]; ring

theorem sum_map_zero {α : Type} (l : List α) : (l.map fun _ => (0 : ℚ)).sum = 0 := by
  induction l with
  | nil => rfl
  | cons a l ih => simp

/-- Rearranging the sum over the entries of a matrix by rows. -/
theorem sum_by_rows (s : Dict (Nat × Nat)) (n : Nat) (hb : ∀ k ∈ Assoc.keys s, k.1 < n)
    (f : Nat × Nat → ℚ) (g : Nat → ℚ) :
    ((List.range n).map fun r => Dict.sum (s.filter fun p => p.1.1 = r) f * g r).sum
      = Dict.sum s fun k => g k.1 * f k := by
  induction s with
  | nil => simp
  | cons p s ih =>
    have hb' : ∀ k ∈ Assoc.keys s, k.1 < n := fun k hk => hb k (by simp [Assoc.keys] at hk ⊢; tauto)
    have hp : p.1.1 < n := hb p.1 (by simp [Assoc.keys])
    rw [Dict.sum_cons, ← ih hb', ← sum_range_ite n p.1.1 hp (fun r => p.2 * (g r * f p.1))]
    rw [← sum_map_add]
    congr 1
    apply List.map_congr_left
    intro r _
    rw [List.filter_cons]
    by_cases h : p.1.1 = r
    · simp [h]; ring
    · simp [h]

/-- Summing the coefficients read one by one is summing over the stored entries. -/
theorem sum_range_get (d : Dict Nat) (hd : (Assoc.keys d).Nodup) (n : Nat)
    (hb : ∀ k ∈ Assoc.keys d, k < n) (g : Nat → ℚ) :
    ((List.range n).map fun i => Dict.get d i * g i).sum = Dict.sum d g := by
  induction d with
  | nil => simp
  | cons p d ih =>
    have hd' : p.1 ∉ Assoc.keys d ∧ (Assoc.keys d).Nodup := by
      simpa [Assoc.keys, List.nodup_cons] using hd
    have hb' : ∀ k ∈ Assoc.keys d, k < n := fun k hk => hb k (by simp [Assoc.keys] at hk ⊢; tauto)
    have hp : p.1 < n := hb p.1 (by simp [Assoc.keys])
    rw [Dict.sum_cons, ← ih hd'.2 hb', ← sum_range_ite n p.1 hp (fun r => p.2 * g r), ← sum_map_add]
    congr 1
    apply List.map_congr_left
    intro r _
    rw [Dict.get_cons]
    by_cases h : p.1 = r
    · subst h; simp [Dict.get_eq_zero_of_not_mem hd'.1]
    · simp [h]

theorem sum_range2_get (d : Dict (Nat × Nat)) (hd : (Assoc.keys d).Nodup) (n : Nat)
    (hb : ∀ k ∈ Assoc.keys d, k.1 < n ∧ k.2 < n) (g : Nat → Nat → ℚ) :
    ((List.range n).map fun i => ((List.range n).map fun j => Dict.get d (i, j) * g i j).sum).sum
      = Dict.sum d fun k => g k.1 k.2 := by
  induction d with
  | nil => simp
  | cons p d ih =>
    have hd' : p.1 ∉ Assoc.keys d ∧ (Assoc.keys d).Nodup := by
      simpa [Assoc.keys, List.nodup_cons] using hd
    have hb' : ∀ k ∈ Assoc.keys d, k.1 < n ∧ k.2 < n :=
      fun k hk => hb k (by simp only [Assoc.keys, List.map_cons, List.mem_cons] at hk ⊢; exact Or.inr hk)
    have hp := hb p.1 (by simp [Assoc.keys])
    rw [Dict.sum_cons, ← ih hd'.2 hb',
      ← sum_range_ite n p.1.1 hp.1 (fun r => p.2 * g r p.1.2), ← sum_map_add]
    congr 1
    apply List.map_congr_left
    intro r _
    by_cases h : p.1.1 = r
    · simp only [h, if_true]
      rw [← sum_range_ite n p.1.2 hp.2 (fun c => p.2 * g r c), ← sum_map_add]
      congr 1
      apply List.map_congr_left
      intro c _
      rw [Dict.get_cons]
      by_cases h2 : p.1.2 = c
      · have : p.1 = (r, c) := by rw [← h, ← h2]
        simp [h2, this]
        left
        rw [this] at hd'
        exact Dict.get_eq_zero_of_not_mem hd'.1
      · have : ¬ p.1 = (r, c) := fun h' => h2 (by rw [h'])
        simp [h2, this]
    · simp only [h, if_false, zero_add]
      congr 1
      apply List.map_congr_left
      intro c _
      rw [Dict.get_cons]
      have : ¬ p.1 = (r, c) := fun h' => h (by rw [h'])
      simp [this]

end Verif

import Verif.GoemansWilliamson
import Verif.ResultLemmas
import Verif.SumLemmas

/-!
# Lemmas about cuts and their values
-/

namespace Verif

open Finset (range sum_congr)

/-- Total weight of the pairs on different sides. -/
def cutWeight (n : Nat) (w : Nat → Nat → ℚ) (x : Nat → ℚ) : ℚ :=
  ∑ i ∈ range n, ∑ j ∈ range i, if x i ≠ x j then w i j else 0

/-- A 0/1 vector of length `n`. -/
def IsCut (n : Nat) (x : List Nat) : Prop := x.length = n ∧ ∀ v ∈ x, v = 0 ∨ v = 1

/-- The same cut with the sides exchanged. -/
def flipCut (x : List Nat) : List Nat := x.map fun v => 1 - v

theorem pt_cut (x : List Nat) (i : Nat) : pt (cutPoint x) i = (x.getD i 0 : ℚ) := by
  simp only [pt, cutPoint, List.getD_eq_getElem?_getD, List.getElem?_map]
  cases x[i]? <;> simp

theorem IsCut.val {n : Nat} {x : List Nat} (h : IsCut n x) (i : Nat) :
    pt (cutPoint x) i = 0 ∨ pt (cutPoint x) i = 1 := by
  rw [pt_cut, List.getD_eq_getElem?_getD]
  cases hx : x[i]? with
  | none => simp
  | some v =>
    rcases h.2 v (List.mem_of_getElem? hx) with rfl | rfl <;> simp

theorem cut_sum (n : Nat) (a : Nat → Nat → ℚ) (hs : ∀ i j, a i j = a j i) (x : Nat → ℚ)
    (hx : ∀ i < n, x i = 0 ∨ x i = 1) :
    ∑ i ∈ range n, ∑ j ∈ range n, a i j * (x i * (1 - x j)) = cutWeight n a x := by
  induction n with
  | zero => simp [cutWeight]
  | succ n ih =>
    unfold cutWeight at *
    rw [Finset.sum_range_succ, Finset.sum_range_succ (f := fun i => ∑ j ∈ range i, if x i ≠ x j then a i j else 0),
      ← ih fun i hi => hx i (by omega)]
    simp only [Finset.sum_range_succ, Finset.sum_add_distrib]
    have h0 : x n * (1 - x n) = 0 := by rcases hx n (by omega) with h | h <;> rw [h] <;> norm_num
    rw [h0, mul_zero, add_zero, add_assoc, ← Finset.sum_add_distrib]
    congr 1
    refine sum_congr rfl fun j hj => ?_
    have hj' := Finset.mem_range.mp hj
    rw [hs j n]
    rcases hx n (by omega) with h | h <;> rcases hx j (by omega) with h' | h' <;> rw [h, h'] <;> norm_num

theorem adjacency_symm (p : QP) (i j : Nat) : adjacency p i j = adjacency p j i := by
  unfold adjacency; ring

theorem maxCutValue_eq {n : Nat} {adj : Nat → Nat → ℚ} (hs : ∀ i j, adj i j = adj j i) {x : List Nat}
    (hx : IsCut n x) : maxCutValue n adj x = cutWeight n adj (pt (cutPoint x)) := by
  rw [← cut_sum n adj hs _ fun i _ => hx.val i]
  unfold maxCutValue
  rw [lsum_range]
  refine sum_congr rfl fun i _ => ?_
  rw [lsum_range]
  refine sum_congr rfl fun j _ => ?_
  rw [pt_cut, pt_cut]

theorem IsCut.flip {n : Nat} {x : List Nat} (h : IsCut n x) : IsCut n (flipCut x) := by
  refine ⟨by simp [flipCut, h.1], ?_⟩
  intro v hv
  obtain ⟨w, hw, rfl⟩ := List.mem_map.mp hv
  rcases h.2 w hw with rfl | rfl <;> simp

theorem flip_flip {n : Nat} {x : List Nat} (h : IsCut n x) : flipCut (flipCut x) = x := by
  unfold flipCut
  rw [List.map_map]
  conv_rhs => rw [← List.map_id x]
  refine List.map_congr_left fun v hv => ?_
  rcases h.2 v hv with rfl | rfl <;> rfl

theorem flip_ne {n : Nat} (hn : 0 < n) {x : List Nat} (h : IsCut n x) : flipCut x ≠ x := by
  intro e
  cases x with
  | nil => have := h.1; simp at this; omega
  | cons a l =>
    simp only [flipCut, List.map_cons, List.cons.injEq] at e
    rcases h.2 a (by simp) with rfl | rfl <;> simp at e

theorem cutWeight_flip {n : Nat} {w : Nat → Nat → ℚ} {x : List Nat} (h : IsCut n x) :
    cutWeight n w (pt (cutPoint (flipCut x))) = cutWeight n w (pt (cutPoint x)) := by
  have hf : ∀ i < n, pt (cutPoint (flipCut x)) i = 1 - pt (cutPoint x) i := by
    intro i hi
    rw [pt_cut, pt_cut, List.getD_eq_getElem?_getD, List.getD_eq_getElem?_getD, flipCut, List.getElem?_map]
    have hl : i < x.length := by rw [h.1]; exact hi
    rw [List.getElem?_eq_getElem hl]
    rcases h.2 x[i] (List.getElem_mem hl) with e | e <;> simp [e]
  unfold cutWeight
  refine sum_congr rfl fun i hi => sum_congr rfl fun j hj => ?_
  have hi' := Finset.mem_range.mp hi
  have hj' := Finset.mem_range.mp hj
  rw [hf i hi', hf j (by omega)]
  rcases h.val i with e | e <;> rcases h.val j with e' | e' <;> rw [e, e'] <;> norm_num

/-- The second difference of an objective is given by its quadratic coefficients. -/
theorem objective_second {o : Objective} {n : Nat} (hl : o.linear.Fits n) (hq : o.quadratic.Fits n) {i j : Nat}
    (hi : i < n) (hj : j < n) :
    o.val (fun k => (if k = i then 1 else 0) + if k = j then 1 else 0) - o.val (fun k => if k = i then 1 else 0) -
      o.val (fun k => if k = j then 1 else 0) + o.val (fun _ => 0) =
      Dict.get o.quadratic.coeffs (i, j) + Dict.get o.quadratic.coeffs (j, i) := by
  have hsum : ∀ (B : Nat → Nat → ℚ) (u v : Nat), u < n → v < n →
      ∑ a ∈ range n, ∑ b ∈ range n, B a b * ((if a = u then 1 else 0) * if b = v then 1 else 0) = B u v := by
    intro B u v hu hv
    rw [Finset.sum_eq_single u]
    · rw [Finset.sum_eq_single v]
      · simp
      · intro b _ hb; simp [hb]
      · intro h; exact absurd (Finset.mem_range.mpr hv) h
    · intro a _ ha; simp [ha]
    · intro h; exact absurd (Finset.mem_range.mpr hu) h
  simp only [Objective.val, LinExpr.val_range hl, QuadExpr.val_range hq]
  have e1 : ∀ a b : Nat, (((if a = i then (1 : ℚ) else 0) + if a = j then 1 else 0) *
      ((if b = i then 1 else 0) + if b = j then 1 else 0)) =
      (if a = i then 1 else 0) * (if b = i then 1 else 0) + (if a = i then 1 else 0) * (if b = j then 1 else 0) +
      ((if a = j then 1 else 0) * (if b = i then 1 else 0) + (if a = j then 1 else 0) * if b = j then 1 else 0) := by
    intro a b; ring
  simp only [e1, mul_add, Finset.sum_add_distrib]
  rw [hsum _ i j hi hj, hsum _ j i hj hi]
  simp only [mul_zero, Finset.sum_const_zero, zero_mul]
  ring

/-- The second difference of a cut function. -/
theorem cutWeight_second {n : Nat} {w : Nat → Nat → ℚ} {i j : Nat} (hi : i < n) (hj : j < i) :
    cutWeight n w (fun k => (if k = i then 1 else 0) + if k = j then 1 else 0) -
      cutWeight n w (fun k => if k = i then 1 else 0) - cutWeight n w (fun k => if k = j then 1 else 0) +
      cutWeight n w (fun _ => 0) = -2 * w i j := by
  unfold cutWeight
  rw [← Finset.sum_sub_distrib, ← Finset.sum_sub_distrib, ← Finset.sum_add_distrib, Finset.sum_eq_single i]
  · rw [← Finset.sum_sub_distrib, ← Finset.sum_sub_distrib, ← Finset.sum_add_distrib, Finset.sum_eq_single j]
    · have h1 : i ≠ j := by omega
      have h2 : j ≠ i := by omega
      simp [h1, h2]; ring
    · intro b hb hbj
      have h1 : i ≠ j := by omega
      have h2 : b ≠ i := by have := Finset.mem_range.mp hb; omega
      simp [h1, h2, hbj]
    · intro h; exact absurd (Finset.mem_range.mpr hj) h
  · intro a _ ha
    rw [← Finset.sum_sub_distrib, ← Finset.sum_sub_distrib, ← Finset.sum_add_distrib]
    refine Finset.sum_eq_zero fun b hb => ?_
    have hab : a ≠ b := by have := Finset.mem_range.mp hb; omega
    by_cases h1 : a = j
    · subst h1
      have h2 : b ≠ a := fun h => hab h.symm
      have h3 : b ≠ i := by have := Finset.mem_range.mp hb; omega
      simp [ha, h2, h3]
    · by_cases h2 : b = i
      · subst h2
        have h3 : b ≠ j := by omega
        simp [ha, h1, h3]
      · by_cases h3 : b = j
        · subst h3; simp [ha, h1, h2]
        · simp [ha, h1, h2, h3]
  · intro h; exact absurd (Finset.mem_range.mpr hi) h

/-- If the objective is the cut function of `w` on 0/1 points, the extracted matrix is `w`. -/
theorem adjacency_of_cut {p : QP} {n : Nat} {w : Nat → Nat → ℚ} (hl : p.objective.linear.Fits n)
    (hq : p.objective.quadratic.Fits n)
    (hw : ∀ x : Nat → ℚ, (∀ i < n, x i = 0 ∨ x i = 1) → p.objective.val x = cutWeight n w x) {i j : Nat}
    (hi : i < n) (hj : j < i) : adjacency p i j = w i j := by
  have h1 := objective_second hl hq hi (show j < n by omega)
  have h2 := cutWeight_second (n := n) (w := w) hi hj
  rw [hw _ (by
      intro k _
      by_cases h : k = i
      · have : k ≠ j := by omega
        rw [if_pos h, if_neg this]; right; norm_num
      · by_cases h' : k = j
        · rw [if_neg h, if_pos h']; right; norm_num
        · rw [if_neg h, if_neg h']; left; norm_num),
    hw _ (by intro k _; by_cases h : k = i <;> simp [h]),
    hw _ (by intro k _; by_cases h : k = j <;> simp [h]), hw _ (by simp)] at h1
  unfold adjacency
  linarith

theorem cutWeight_congr {n : Nat} {w w' : Nat → Nat → ℚ} (h : ∀ i < n, ∀ j < i, w i j = w' i j) (x : Nat → ℚ) :
    cutWeight n w x = cutWeight n w' x := by
  unfold cutWeight
  refine sum_congr rfl fun i hi => sum_congr rfl fun j hj => ?_
  rw [h i (Finset.mem_range.mp hi) j (Finset.mem_range.mp hj)]

/-! ## Merging complementary cuts -/

theorem cutStr_inj {n : Nat} {x y : List Nat} (hx : IsCut n x) (hy : IsCut n y) (h : cutStr x = cutStr y) : x = y := by
  have key : ∀ x : List Nat, (∀ v ∈ x, v = 0 ∨ v = 1) → ∃ g : List Char → List Nat, g = (fun l => l.map fun c =>
      if c = '1' then 1 else 0) ∧ g (cutStr x).toList = x := by
    intro x hx
    refine ⟨_, rfl, ?_⟩
    unfold cutStr
    rw [String.toList_join]
    induction x with
    | nil => rfl
    | cons v l ih =>
      rw [List.map_cons, List.flatMap_cons, List.map_append, ih fun w hw => hx w (by simp [hw])]
      rcases hx v (by simp) with rfl | rfl
      · have : (toString 0).toList = ['0'] := by decide +kernel
        rw [this]; simp
      · have : (toString 1).toList = ['1'] := by decide +kernel
        rw [this]; simp
  obtain ⟨g, e, h1⟩ := key x hx.2
  obtain ⟨g', e', h2⟩ := key y hy.2
  rw [← h1, ← h2, h, e, e']

theorem normalizeCut_ok {n : Nat} (hn : 0 < n) {c : List Nat × ℚ} (h : IsCut n c.1) :
    ∃ d, normalizeCut c = .ok d ∧ IsCut n d.1 ∧ d.2 = c.2 ∧ (d.1 = c.1 ∨ d.1 = flipCut c.1) ∧ d.1.getD 0 0 = 0 := by
  obtain ⟨x, v⟩ := c
  cases x with
  | nil => have := h.1; simp at this; omega
  | cons a l =>
    simp only [normalizeCut]
    by_cases ha : a = 1
    · rw [if_pos ha]
      have e : ((a :: l).map fun v => if v = 1 then 0 else 1) = flipCut (a :: l) := by
        refine List.map_congr_left fun v hv => ?_
        rcases h.2 v hv with rfl | rfl <;> rfl
      refine ⟨_, rfl, ?_, rfl, Or.inr ?_, ?_⟩
      · simp only [e]; exact h.flip
      · simp only [e]
      · simp [ha]
    · rw [if_neg ha]
      refine ⟨_, rfl, h, rfl, Or.inl rfl, ?_⟩
      rcases h.2 a (by simp) with h0 | h0
      · simp [h0]
      · exact absurd h0 ha

/-- One normalized cut. -/
def Normal (n : Nat) (c d : List Nat × ℚ) : Prop :=
  IsCut n d.1 ∧ d.2 = c.2 ∧ (d.1 = c.1 ∨ d.1 = flipCut c.1) ∧ d.1.getD 0 0 = 0

theorem normalizeCuts_ok {n : Nat} (hn : 0 < n) {l : List (List Nat × ℚ)} (h : ∀ c ∈ l, IsCut n c.1) :
    ∃ r, normalizeCuts l = .ok r ∧ List.Forall₂ (Normal n) l r := by
  induction l with
  | nil => exact ⟨[], rfl, .nil⟩
  | cons c l ih =>
    obtain ⟨r, h1, h2⟩ := ih fun c hc => h c (by simp [hc])
    obtain ⟨d, h3, h4⟩ := normalizeCut_ok hn (h c (by simp))
    exact ⟨d :: r, by simp only [normalizeCuts, h3, h1], .cons h4 h2⟩

theorem dropSeen_mem {seen : List String} {l : List (List Nat × ℚ)} {c : List Nat × ℚ} (h : c ∈ dropSeen seen l) :
    c ∈ l ∧ cutStr c.1 ∉ seen := by
  induction l generalizing seen with
  | nil => simp [dropSeen] at h
  | cons d l ih =>
    simp only [dropSeen] at h
    split at h
    · obtain ⟨a, b⟩ := ih h; exact ⟨by simp [a], b⟩
    · rename_i hd
      rcases List.mem_cons.mp h with rfl | h
      · exact ⟨by simp, hd⟩
      · obtain ⟨a, b⟩ := ih h
        exact ⟨by simp [a], fun hm => b (by simp [hm])⟩

theorem dropSeen_cover {seen : List String} {l : List (List Nat × ℚ)} {c : List Nat × ℚ} (h : c ∈ l)
    (hs : cutStr c.1 ∉ seen) : ∃ d ∈ dropSeen seen l, cutStr d.1 = cutStr c.1 := by
  induction l generalizing seen with
  | nil => simp at h
  | cons d l ih =>
    simp only [dropSeen]
    rcases List.mem_cons.mp h with rfl | h
    · rw [if_neg hs]; exact ⟨c, by simp, rfl⟩
    · split
      · exact ih h hs
      · by_cases hd : cutStr d.1 = cutStr c.1
        · exact ⟨d, by simp, hd⟩
        · obtain ⟨e, he, h1⟩ := ih h (seen := cutStr d.1 :: seen) (by
            rw [List.mem_cons, not_or]; exact ⟨fun e => hd e.symm, hs⟩)
          exact ⟨e, by simp [he], h1⟩

theorem dropSeen_nodup (seen : List String) (l : List (List Nat × ℚ)) :
    (dropSeen seen l).Pairwise fun a b => cutStr a.1 ≠ cutStr b.1 := by
  induction l generalizing seen with
  | nil => exact List.Pairwise.nil
  | cons d l ih =>
    simp only [dropSeen]
    split
    · exact ih seen
    · refine List.Pairwise.cons ?_ (ih _)
      intro b hb e
      exact (dropSeen_mem hb).2 (by simp [e])

theorem dropSeen_length (seen : List String) (l : List (List Nat × ℚ)) : (dropSeen seen l).length ≤ l.length := by
  induction l generalizing seen with
  | nil => simp [dropSeen]
  | cons d l ih =>
    simp only [dropSeen]
    split
    · have := ih seen; simp only [List.length_cons]; omega
    · have := ih (cutStr d.1 :: seen); simp only [List.length_cons]; omega

end Verif

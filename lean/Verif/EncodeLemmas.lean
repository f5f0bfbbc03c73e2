import Verif.IntToBin
import Verif.ProgramLemmas
import Mathlib.Tactic.Ring
import Mathlib.Tactic.Linarith
import Mathlib.Tactic.Positivity
import Mathlib.Data.Nat.Log
import Mathlib.Algebra.Order.Floor.Ring
import Mathlib.Data.Rat.Floor
import Mathlib.Data.List.Nodup

/-!
# Helper lemmas: the bit encoding
-/

namespace Verif

theorem pow_sum_le (p : Nat) (b : Nat → ℚ) (h : ∀ i, i < p → b i = 0 ∨ b i = 1) :
    ∃ m : Nat, ((List.range p).map fun i => b i * (2 : ℚ) ^ i).sum = m ∧ m + 1 ≤ 2 ^ p := by
  induction p with
  | zero => exact ⟨0, by simp, by simp⟩
  | succ p ih =>
    obtain ⟨m, hm, hle⟩ := ih (fun i hi => h i (Nat.lt_succ_of_lt hi))
    rcases h p (Nat.lt_succ_self p) with hp | hp
    · exact ⟨m, by simp [List.range_succ, hm, hp], by rw [pow_succ]; omega⟩
    · refine ⟨m + 2 ^ p, by simp [List.range_succ, hm, hp], by rw [pow_succ]; omega⟩

theorem pow_sum_surj (p m : Nat) (h : m < 2 ^ p) :
    ∃ b : Nat → ℚ, (∀ i, b i = 0 ∨ b i = 1) ∧ ((List.range p).map fun i => b i * (2 : ℚ) ^ i).sum = m := by
  induction p generalizing m with
  | zero => exact ⟨fun _ => 0, by simp, by simp at h; simp [h]⟩
  | succ p ih =>
    have key : ∀ (b : Nat → ℚ) (e : ℚ), ((List.range p).map fun i => (if i = p then e else b i) * (2 : ℚ) ^ i)
        = (List.range p).map fun i => b i * (2 : ℚ) ^ i := by
      intro b e
      apply List.map_congr_left
      intro i hi
      rw [if_neg (by have := List.mem_range.mp hi; omega)]
    by_cases hm : m < 2 ^ p
    · obtain ⟨b, hb, hs⟩ := ih m hm
      refine ⟨fun i => if i = p then 0 else b i, fun i => ?_, ?_⟩
      · by_cases hi : i = p <;> simp [hi, hb]
      · simp only [List.range_succ, List.map_append, List.sum_append]
        rw [key, hs]; simp
    · obtain ⟨b, hb, hs⟩ := ih (m - 2 ^ p) (by rw [pow_succ] at h; omega)
      refine ⟨fun i => if i = p then 1 else b i, fun i => ?_, ?_⟩
      · by_cases hi : i = p <;> simp [hi, hb]
      · simp only [List.range_succ, List.map_append, List.sum_append]
        rw [key, hs]
        have : 2 ^ p ≤ m := not_lt.mp hm
        push_cast [Nat.cast_sub this]
        simp

theorem encodeCoeffs_nat (n : Nat) (h : 1 ≤ n) :
    encodeCoeffs (n : ℚ) = .ok (((List.range (Nat.log2 n)).map fun i => (2 : ℚ) ^ i) ++
      [((n - (2 ^ Nat.log2 n - 1) : Nat) : ℚ)]) := by
  have h1 : ¬ (n : ℚ) ≤ 0 := by
    have : (0 : ℚ) < n := by exact_mod_cast h
    linarith
  have h2 : ¬ (n : ℚ) < 1 := by
    have : (1 : ℚ) ≤ n := by exact_mod_cast h
    linarith
  have h3 : ((n : ℚ)).floor.toNat = n := by
    have : ((n : ℚ)).floor = (n : ℤ) := by
      exact (Int.floor_natCast (R := ℚ) n)
    rw [this]; simp
  have h4 : 2 ^ Nat.log2 n ≤ n := Nat.log2_self_le (by omega)
  have h5 : 1 ≤ 2 ^ Nat.log2 n := Nat.one_le_two_pow
  unfold encodeCoeffs
  rw [if_neg h1, if_neg h2]
  simp only [h3]
  congr 3
  rw [Nat.cast_sub (by omega), Nat.cast_sub h5]
  push_cast; ring

theorem zipIdx_map_range {α : Type} (f : Nat → α) (p : Nat) :
    ((List.range p).map f).zipIdx = (List.range p).map fun i => (f i, i) := by
  induction p with
  | zero => rfl
  | succ p ih => simp [List.range_succ, List.zipIdx_append, ih]

/-- The shape of the encoding of an integer variable of range `n`. -/
theorem convertVar_nat (name : String) (lb ub : ℚ) (n : Nat) (h : 1 ≤ n) (hr : ub - lb = n) :
    convertVar name lb ub = .ok (((List.range (Nat.log2 n)).map fun i => (name ++ delim ++ toString i, (2 : ℚ) ^ i))
      ++ [(name ++ delim ++ toString (Nat.log2 n), ((n - (2 ^ Nat.log2 n - 1) : Nat) : ℚ))]) := by
  unfold convertVar
  rw [hr, encodeCoeffs_nat n h]
  simp [List.zipIdx_append, zipIdx_map_range, Function.comp_def]

theorem bitName_inj (name : String) {i j : Nat} (h : name ++ delim ++ toString i = name ++ delim ++ toString j) :
    i = j := repr_injective (append_left_cancel h)

/-- Everything needed about the encoding of an integer variable with integral bounds. -/
structure EncOK (lb ub : ℚ) (enc : List (String × ℚ)) : Prop where
  nodup : (enc.map Prod.fst).Nodup
  int : ∀ p ∈ enc, ∃ z : Int, p.2 = z
  range : ∀ Y : String → ℚ, (∀ p ∈ enc, Y p.1 = 0 ∨ Y p.1 = 1) →
    (∃ z : Int, (enc.map fun p => Y p.1 * p.2).sum + lb = z) ∧
      lb ≤ (enc.map fun p => Y p.1 * p.2).sum + lb ∧ (enc.map fun p => Y p.1 * p.2).sum + lb ≤ ub
  surj : ∀ z : Int, lb ≤ z → (z : ℚ) ≤ ub → ∃ Y : String → ℚ, (∀ s, Y s = 0 ∨ Y s = 1) ∧
    (enc.map fun p => Y p.1 * p.2).sum + lb = z

theorem encOK_nat (name : String) (l : Int) (n : Nat) (h : 1 ≤ n) :
    EncOK (l : ℚ) (l + n) (((List.range (Nat.log2 n)).map fun i => (name ++ delim ++ toString i, (2 : ℚ) ^ i))
      ++ [(name ++ delim ++ toString (Nat.log2 n), ((n - (2 ^ Nat.log2 n - 1) : Nat) : ℚ))]) := by
  have h4 : 2 ^ Nat.log2 n ≤ n := Nat.log2_self_le (by omega)
  have h5 : 1 ≤ 2 ^ Nat.log2 n := Nat.one_le_two_pow
  have h6 : n < 2 ^ (Nat.log2 n + 1) := Nat.lt_log2_self
  rw [pow_succ] at h6
  generalize Nat.log2 n = p at *
  have hsum : ∀ Y : String → ℚ,
      ((((List.range p).map fun i => (name ++ delim ++ toString i, (2 : ℚ) ^ i))
        ++ [(name ++ delim ++ toString p, ((n - (2 ^ p - 1) : Nat) : ℚ))]).map fun q => Y q.1 * q.2).sum =
      ((List.range p).map fun i => Y (name ++ delim ++ toString i) * (2 : ℚ) ^ i).sum
        + Y (name ++ delim ++ toString p) * ((n - (2 ^ p - 1) : Nat) : ℚ) := by
    intro Y
    simp [Function.comp_def]
  refine ⟨?_, ?_, ?_, ?_⟩
  · have : (((List.range p).map fun i => (name ++ delim ++ toString i, (2 : ℚ) ^ i))
        ++ [(name ++ delim ++ toString p, ((n - (2 ^ p - 1) : Nat) : ℚ))]).map Prod.fst =
        (List.range (p + 1)).map fun i => name ++ delim ++ toString i := by
      simp [List.range_succ, Function.comp_def]
    rw [this]
    exact List.nodup_range.map_on (fun i _ j _ hij => bitName_inj name hij)
  · intro q hq
    rcases List.mem_append.mp hq with hq | hq
    · obtain ⟨i, _, rfl⟩ := List.mem_map.mp hq
      exact ⟨2 ^ i, by push_cast; rfl⟩
    · simp only [List.mem_singleton] at hq
      subst hq
      exact ⟨((n - (2 ^ p - 1) : Nat) : Int), by push_cast; rfl⟩
  · intro Y hY
    rw [hsum]
    obtain ⟨m, hm, hle⟩ := pow_sum_le p (fun i => Y (name ++ delim ++ toString i)) (by
      intro i hi
      exact hY (name ++ delim ++ toString i, (2 : ℚ) ^ i)
        (List.mem_append_left _ (List.mem_map_of_mem (List.mem_range.mpr hi))))
    rw [hm]
    have hp := hY (name ++ delim ++ toString p, ((n - (2 ^ p - 1) : Nat) : ℚ)) (by simp)
    simp only at hp
    rcases hp with hp | hp
    · rw [hp]
      have : (m : ℚ) ≤ n := by exact_mod_cast (by omega : m ≤ n)
      have h0 : (0 : ℚ) ≤ m := by positivity
      exact ⟨⟨l + m, by push_cast; ring⟩, by linarith, by linarith⟩
    · rw [hp]
      have : ((m + (n - (2 ^ p - 1)) : Nat) : ℚ) ≤ n := by exact_mod_cast (by omega : m + (n - (2 ^ p - 1)) ≤ n)
      have h0 : (0 : ℚ) ≤ ((m + (n - (2 ^ p - 1)) : Nat) : ℚ) := by positivity
      rw [Nat.cast_add] at this h0
      refine ⟨⟨l + (m + (n - (2 ^ p - 1)) : Nat), ?_⟩, by linarith, by linarith⟩
      push_cast; ring
  · intro z hz1 hz2
    have hz1' : l ≤ z := by exact_mod_cast hz1
    have hz2' : z ≤ l + n := by exact_mod_cast hz2
    obtain ⟨m, rfl⟩ : ∃ m : Nat, z = l + m := ⟨(z - l).toNat, by omega⟩
    have hmn : m ≤ n := by omega
    have mk : ∀ b : Nat → ℚ, (∀ i, b i = 0 ∨ b i = 1) →
        ∃ Y : String → ℚ, (∀ s, Y s = 0 ∨ Y s = 1) ∧ ∀ i, Y (name ++ delim ++ toString i) = b i := by
      intro b hb
      classical
      refine ⟨fun s => if hs : ∃ i : Nat, name ++ delim ++ toString i = s then b hs.choose else 0, ?_, ?_⟩
      · intro s
        by_cases hs : ∃ i : Nat, name ++ delim ++ toString i = s
        · simp only [hs, dite_true]; exact hb _
        · simp only [hs, dite_false]; exact Or.inl trivial
      · intro i
        have hs : ∃ j : Nat, name ++ delim ++ toString j = name ++ delim ++ toString i := ⟨i, rfl⟩
        beta_reduce
        rw [dif_pos hs, bitName_inj name hs.choose_spec]
    by_cases hlt : m < 2 ^ p
    · obtain ⟨b, hb, hs⟩ := pow_sum_surj p m hlt
      obtain ⟨Y, hY, hYb⟩ := mk (fun i => if i = p then 0 else b i) (fun i => by
        by_cases hi : i = p <;> simp [hi, hb])
      refine ⟨Y, hY, ?_⟩
      rw [hsum, hYb p, if_pos rfl]
      have : (List.range p).map (fun i => Y (name ++ delim ++ toString i) * (2 : ℚ) ^ i) =
          (List.range p).map fun i => b i * (2 : ℚ) ^ i := by
        apply List.map_congr_left
        intro i hi
        rw [hYb i, if_neg (by have := List.mem_range.mp hi; omega)]
      rw [this, hs]; push_cast; ring
    · obtain ⟨b, hb, hs⟩ := pow_sum_surj p (m - (n - (2 ^ p - 1))) (by omega)
      obtain ⟨Y, hY, hYb⟩ := mk (fun i => if i = p then 1 else b i) (fun i => by
        by_cases hi : i = p <;> simp [hi, hb])
      refine ⟨Y, hY, ?_⟩
      rw [hsum, hYb p, if_pos rfl]
      have : (List.range p).map (fun i => Y (name ++ delim ++ toString i) * (2 : ℚ) ^ i) =
          (List.range p).map fun i => b i * (2 : ℚ) ^ i := by
        apply List.map_congr_left
        intro i hi
        rw [hYb i, if_neg (by have := List.mem_range.mp hi; omega)]
      rw [this, hs, Nat.cast_sub (by omega)]; push_cast; ring

theorem int_range {lb ub : ℚ} (hl : ∃ z : Int, lb = z) (hu : ∃ z : Int, ub = z) (h : lb < ub) :
    ∃ (l : Int) (n : Nat), 1 ≤ n ∧ lb = l ∧ ub = l + n := by
  obtain ⟨l, rfl⟩ := hl
  obtain ⟨u, rfl⟩ := hu
  have : l < u := by exact_mod_cast h
  refine ⟨l, (u - l).toNat, by omega, rfl, ?_⟩
  have h2 : ((u - l).toNat : Int) = u - l := by omega
  have h3 : (((u - l).toNat : Int) : ℚ) = ((u - l : Int) : ℚ) := by rw [h2]
  push_cast at h3
  rw [h3]; ring

theorem convertVar_encOK {name : String} {lb ub : ℚ} {enc : List (String × ℚ)}
    (hl : ∃ z : Int, lb = z) (hu : ∃ z : Int, ub = z) (h : lb < ub)
    (he : convertVar name lb ub = .ok enc) : EncOK lb ub enc := by
  obtain ⟨l, n, hn, rfl, rfl⟩ := int_range hl hu h
  rw [convertVar_nat name _ _ n hn (by ring)] at he
  simp only [Except.ok.injEq] at he
  subst he
  exact encOK_nat name l n hn

theorem convertVar_success {name : String} {lb ub : ℚ}
    (hl : ∃ z : Int, lb = z) (hu : ∃ z : Int, ub = z) (h : lb < ub) :
    ∃ enc, convertVar name lb ub = .ok enc := by
  obtain ⟨l, n, hn, rfl, rfl⟩ := int_range hl hu h
  exact ⟨_, convertVar_nat name _ _ n hn (by ring)⟩

/-- All coefficients of the encoding are one when the range is at most two. -/
theorem convertVar_ones {name : String} {lb ub : ℚ} {enc : List (String × ℚ)}
    (hl : ∃ z : Int, lb = z) (hu : ∃ z : Int, ub = z) (h : ub - lb ≤ 2)
    (he : convertVar name lb ub = .ok enc) : ∀ p ∈ enc, p.2 = 1 := by
  by_cases hlt : lb < ub
  · obtain ⟨l, n, hn, rfl, rfl⟩ := int_range hl hu hlt
    rw [convertVar_nat name _ _ n hn (by ring)] at he
    simp only [Except.ok.injEq] at he
    have : n ≤ 2 := by
      have : (n : ℚ) ≤ 2 := by linarith
      exact_mod_cast this
    have : n = 1 ∨ n = 2 := by omega
    rcases this with rfl | rfl
    · have : Nat.log2 1 = 0 := by decide
      rw [this] at he
      subst he; simp
    · have : Nat.log2 2 = 1 := by decide +kernel
      rw [this] at he
      subst he
      simp [List.range_succ]
  · unfold convertVar encodeCoeffs at he
    rw [if_pos (by linarith)] at he
    simp at he

end Verif

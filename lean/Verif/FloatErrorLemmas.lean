import Verif.PropsFloat
import Verif.PropsFloatDecimal

/-!
# Propagation of rounding errors

`Near k w a b`: `a` is computed for the exact `b` with at most `k` roundings one after the other, and `w` bounds the sum of
the absolute values of the terms of `b`.
-/

namespace Verif

/-- Half the distance of 1 and the next double. -/
def ulp : ℚ := 1 / 2 ^ 53

theorem ulp_nonneg : 0 ≤ ulp := by norm_num [ulp]

theorem one_le_pow_ulp (k : ℕ) : 1 ≤ (1 + ulp) ^ k := one_le_pow₀ (by linarith [ulp_nonneg])

/-- See the head of the file. -/
structure Near (k : ℕ) (w a b : ℚ) : Prop where
  err : |a - b| ≤ ((1 + ulp) ^ k - 1) * w
  size : |b| ≤ w

theorem Near.nonneg {k : ℕ} {w a b : ℚ} (h : Near k w a b) : 0 ≤ w := (abs_nonneg _).trans h.size

theorem Near.refl (a : ℚ) : Near 0 |a| a a := ⟨by simp, le_refl _⟩

theorem Near.mono {k k' : ℕ} {w a b : ℚ} (h : Near k w a b) (hk : k ≤ k') : Near k' w a b := by
  refine ⟨h.err.trans (mul_le_mul_of_nonneg_right ?_ h.nonneg), h.size⟩
  have := pow_le_pow_right₀ (a := 1 + ulp) (by linarith [ulp_nonneg]) hk
  linarith

theorem Near.abs_le {k : ℕ} {w a b : ℚ} (h : Near k w a b) : |a| ≤ (1 + ulp) ^ k * w := by
  have h1 : |a| ≤ |a - b| + |b| := by
    have := abs_add_le (a - b) b
    simpa using this
  have := h.err
  have := h.size
  nlinarith

theorem Near.fl {fl : ℚ → ℚ} (hf : IsRounding fl) {k : ℕ} {w a b : ℚ} (h : Near k w a b) : Near (k + 1) w (fl a) b := by
  refine ⟨?_, h.size⟩
  have h1 : |fl a - b| ≤ |fl a - a| + |a - b| := by
    have := abs_add_le (fl a - a) (a - b)
    simpa using this
  have h2 : |fl a - a| ≤ ulp * |a| := by
    have := fl_err hf a
    rw [ulp]; linarith
  have h3 := mul_le_mul_of_nonneg_left h.abs_le ulp_nonneg
  have h4 := h.err
  rw [pow_succ]
  nlinarith

theorem Near.add {k : ℕ} {w w' a a' b b' : ℚ} (h : Near k w a b) (h' : Near k w' a' b') :
    Near k (w + w') (a + a') (b + b') := by
  constructor
  · have h1 : |a + a' - (b + b')| ≤ |a - b| + |a' - b'| := by
      have := abs_add_le (a - b) (a' - b')
      have e : a + a' - (b + b') = a - b + (a' - b') := by ring
      rw [e]; exact this
    have := h.err
    have := h'.err
    rw [mul_add]; linarith
  · have := abs_add_le b b'
    have := h.size
    have := h'.size
    linarith

theorem Near.mul {k k' : ℕ} {w w' a a' b b' : ℚ} (h : Near k w a b) (h' : Near k' w' a' b') :
    Near (k + k') (w * w') (a * a') (b * b') := by
  constructor
  · have e : a * a' - b * b' = a * (a' - b') + (a - b) * b' := by ring
    have h1 : |a * a' - b * b'| ≤ |a| * |a' - b'| + |a - b| * |b'| := by
      rw [e, ← abs_mul, ← abs_mul]
      exact abs_add_le _ _
    have h2 : |a| * |a' - b'| ≤ ((1 + ulp) ^ k * w) * (((1 + ulp) ^ k' - 1) * w') :=
      mul_le_mul h.abs_le h'.err (abs_nonneg _) (mul_nonneg (by linarith [one_le_pow_ulp k]) h.nonneg)
    have h3 : |a - b| * |b'| ≤ (((1 + ulp) ^ k - 1) * w) * w' :=
      mul_le_mul h.err h'.size (abs_nonneg _) (mul_nonneg (by linarith [one_le_pow_ulp k]) h.nonneg)
    rw [pow_add]
    calc _ ≤ _ := h1
      _ ≤ _ := add_le_add h2 h3
      _ = _ := by ring
  · rw [abs_mul]
    exact mul_le_mul h.size h'.size (abs_nonneg _) h.nonneg

theorem Near.round {fl : ℚ → ℚ} (hf : IsRounding fl) (a : ℚ) : Near 1 |a| (fl a) a := (Near.refl a).fl hf

/-- A sum with rounding, in any order. -/
theorem flSum_err {fl : ℚ → ℚ} (hf : IsRounding fl) {l : List ℚ} {s : ℚ} (h : FlSum fl l s) :
    Near (l.length - 1) (l.map abs).sum s l.sum := by
  induction h with
  | nil => exact ⟨by simp, by simp⟩
  | single a => exact ⟨by simp, by simp⟩
  | @add l m n a b _ _ hl hm hp ih1 ih2 =>
    have l1 := List.length_pos_iff.mpr hl
    have m1 := List.length_pos_iff.mpr hm
    have hlen : n.length = l.length + m.length := by rw [hp.length_eq, List.length_append]
    have hsum : n.sum = l.sum + m.sum := by rw [hp.sum_eq, List.sum_append]
    have habs : (n.map abs).sum = (l.map abs).sum + (m.map abs).sum := by
      rw [(hp.map abs).sum_eq, List.map_append, List.sum_append]
    rw [hsum, habs]
    have k1 := ih1.mono (k' := n.length - 2) (by omega)
    have k2 := ih2.mono (k' := n.length - 2) (by omega)
    have := (k1.add k2).fl hf
    rwa [show n.length - 2 + 1 = n.length - 1 by omega] at this

theorem sum_map_sub' {α : Type} (l : List α) (f g : α → ℚ) :
    (l.map f).sum - (l.map g).sum = (l.map fun a => f a - g a).sum := by
  induction l with
  | nil => simp
  | cons a l ih => simp only [List.map_cons, List.sum_cons, ← ih]; ring

/-- A sum with rounding, of numbers that have errors already. -/
theorem flSum_near {fl : ℚ → ℚ} (hf : IsRounding fl) {α : Type} (l : List α) (f g w : α → ℚ) {k : ℕ} {s : ℚ}
    (h : FlSum fl (l.map f) s) (hk : ∀ a ∈ l, Near k (w a) (f a) (g a)) :
    Near (k + l.length) (l.map w).sum s (l.map g).sum := by
  have h1 := flSum_err hf h
  have hw : ((l.map f).map abs).sum ≤ (1 + ulp) ^ k * (l.map w).sum := by
    rw [List.map_map, ← List.sum_map_mul_left]
    exact List.sum_le_sum fun a ha => (hk a ha).abs_le
  have hd : |(l.map f).sum - (l.map g).sum| ≤ ((1 + ulp) ^ k - 1) * (l.map w).sum := by
    have e : (l.map f).sum - (l.map g).sum = (l.map fun a => f a - g a).sum := by
      exact sum_map_sub' l f g
    rw [e, ← List.sum_map_mul_left]
    refine (abs_sum_le _).trans ?_
    rw [List.map_map]
    exact List.sum_le_sum fun a ha => (hk a ha).err
  have hw0 : 0 ≤ (l.map w).sum := List.sum_nonneg fun v hv => by
    obtain ⟨a, ha, rfl⟩ := List.mem_map.mp hv
    exact (hk a ha).nonneg
  have hn : Near (l.length - 1) (((1 + ulp) ^ k) * (l.map w).sum) s (l.map f).sum := by
    rw [List.length_map] at h1
    exact ⟨h1.err.trans (mul_le_mul_of_nonneg_left hw (by linarith [one_le_pow_ulp (l.length - 1)])), h1.size.trans hw⟩
  constructor
  · have hn := (hn.mono (k' := l.length) (by omega)).err
    have h2 : |s - (l.map g).sum| ≤ |s - (l.map f).sum| + |(l.map f).sum - (l.map g).sum| := by
      have := abs_add_le (s - (l.map f).sum) ((l.map f).sum - (l.map g).sum)
      simpa using this
    rw [pow_add]
    calc _ ≤ _ := h2
      _ ≤ _ := add_le_add hn hd
      _ = _ := by ring
  · refine (abs_sum_le _).trans ?_
    rw [List.map_map]
    exact List.sum_le_sum fun a ha => (hk a ha).size

/-- `(1 + 2^-53)^k - 1` is at most `k * 2^-52` for up to `2^52` roundings. -/
theorem pow_ulp_le {k : ℕ} (hk : k ≤ 2 ^ 52) : (1 + ulp) ^ k - 1 ≤ k / 2 ^ 52 := by
  have hk' : (k : ℚ) ≤ 2 ^ 52 := by exact_mod_cast hk
  have := (pow_bounds (u := ulp) (e := 2 * (k * ulp)) (le_refl k) ulp_nonneg (by norm_num [ulp])
    (by rw [ulp]; linarith) (le_refl _)).2
  have e : 2 * ((k : ℚ) * ulp) = k / 2 ^ 52 := by rw [ulp]; ring
  linarith

theorem fl_zero {fl : ℚ → ℚ} (hf : IsRounding fl) : fl 0 = 0 := by
  have := hf 0
  simpa [NearestDouble] using this

/-- The double nearest to a positive number, in rational numbers. -/
theorem fl_pos {fl : ℚ → ℚ} (hf : IsRounding fl) {q : ℚ} (hq : 0 < q) : ∃ m : ℤ,
    fl q = m * (2 : ℚ) ^ (Int.log 2 (q : ℝ) - 52) ∧ |q - fl q| ≤ (2 : ℚ) ^ (Int.log 2 (q : ℝ) - 52) / 2 ∧
    (2 : ℚ) ^ Int.log 2 (q : ℝ) ≤ q ∧ q < (2 : ℚ) ^ (Int.log 2 (q : ℝ) + 1) := by
  have hn := hf q
  have hq' : (0 : ℝ) < q := by exact_mod_cast hq
  rw [NearestDouble, if_neg hq'.ne', abs_of_pos hq'] at hn
  obtain ⟨m, h1, h2⟩ := hn
  refine ⟨m, ?_, ?_, ?_, ?_⟩
  · rw [← Rat.cast_inj (α := ℝ)]; push_cast; exact h1
  · have e : (2 : ℝ) ^ (Int.log 2 (q : ℝ) - 53) = 2 ^ (Int.log 2 (q : ℝ) - 52) / 2 := by
      rw [show Int.log 2 (q : ℝ) - 53 = Int.log 2 (q : ℝ) - 52 - 1 by ring, zpow_sub_one₀ (by norm_num)]
      ring
    rw [e] at h2
    rw [← Rat.cast_le (K := ℝ)]; push_cast; exact h2
  · have := Int.zpow_log_le_self (b := 2) (r := (q : ℝ)) (by norm_num) hq'
    rw [← Rat.cast_le (K := ℝ)]; push_cast; exact_mod_cast this
  · have := Int.lt_zpow_succ_log_self (b := 2) (by norm_num) (q : ℝ)
    rw [← Rat.cast_lt (K := ℝ)]; push_cast; exact_mod_cast this

theorem two_zpow_split (L : ℤ) (k : ℕ) : (2 : ℚ) ^ (L + k) = ((2 ^ k : ℤ) : ℚ) * 2 ^ L := by
  rw [zpow_add₀ (by norm_num), zpow_natCast, mul_comm]
  push_cast; rfl

/-- Multiples of `g` that differ by less than `g` are in order. -/
theorem grid_le {g a b : ℚ} {m k : ℤ} (hg : 0 < g) (ha : a = m * g) (hb : b = k * g) (h : a < b + g) : a ≤ b := by
  rw [ha, hb] at h ⊢
  have : (m : ℚ) < k + 1 := by
    by_contra hc
    have hc := not_lt.mp hc
    have := mul_le_mul_of_nonneg_right hc hg.le
    linarith
  have hmk : m ≤ k := by
    have : m < k + 1 := by exact_mod_cast this
    omega
  exact mul_le_mul_of_nonneg_right (by exact_mod_cast hmk) hg.le

theorem fl_mono_pos {fl : ℚ → ℚ} (hf : IsRounding fl) {q q' : ℚ} (hq : 0 < q) (h : q ≤ q') : fl q ≤ fl q' := by
  rcases eq_or_lt_of_le h with rfl | h
  · exact le_refl _
  have hq' : 0 < q' := hq.trans h
  obtain ⟨m, a1, a2, a3, a4⟩ := fl_pos hf hq
  obtain ⟨k, b1, b2, b3, b4⟩ := fl_pos hf hq'
  have hL : Int.log 2 (q : ℝ) ≤ Int.log 2 (q' : ℝ) :=
    Int.log_mono_right (by exact_mod_cast hq) (by exact_mod_cast h.le)
  generalize Int.log 2 (q : ℝ) = L at *
  generalize Int.log 2 (q' : ℝ) = L' at *
  have hg : (0 : ℚ) < 2 ^ (L - 52) := by positivity
  have hg' : (0 : ℚ) < 2 ^ (L' - 52) := by positivity
  rw [abs_le] at a2 b2
  rcases eq_or_lt_of_le hL with rfl | hlt
  · exact grid_le hg a1 b1 (by linarith)
  · have h1 : fl q ≤ 2 ^ (L + 1) := by
      have e := two_zpow_split (L - 52) 53
      rw [show L - 52 + ((53 : ℕ) : ℤ) = L + 1 by push_cast; ring] at e
      exact grid_le hg a1 e (by linarith)
    have h2 : (2 : ℚ) ^ L' ≤ fl q' := by
      have e := two_zpow_split (L' - 52) 52
      rw [show L' - 52 + ((52 : ℕ) : ℤ) = L' by push_cast; ring] at e
      exact grid_le hg' e b1 (by linarith)
    exact h1.trans ((zpow_le_zpow_right₀ (by norm_num) (by omega)).trans h2)

theorem fl_nonneg {fl : ℚ → ℚ} (hf : IsRounding fl) {q : ℚ} (hq : 0 ≤ q) : 0 ≤ fl q := by
  have h := fl_err hf q
  rw [abs_of_nonneg hq, abs_le] at h
  linarith

theorem IsRounding.mirror {fl : ℚ → ℚ} (hf : IsRounding fl) : IsRounding fun q => -fl (-q) := by
  intro q
  have h := hf (-q)
  unfold NearestDouble at h ⊢
  push_cast at h ⊢
  by_cases h0 : (q : ℝ) = 0
  · simpa [h0] using h
  · rw [if_neg (by simpa using h0), abs_neg] at h
    rw [if_neg h0]
    obtain ⟨m, h1, h2⟩ := h
    refine ⟨-m, by rw [h1]; push_cast; ring, ?_⟩
    rw [← abs_neg]
    convert h2 using 2
    ring

/-- Rounding to the nearest double keeps the order. -/
theorem fl_mono {fl : ℚ → ℚ} (hf : IsRounding fl) {q q' : ℚ} (h : q ≤ q') : fl q ≤ fl q' := by
  rcases lt_trichotomy q 0 with h0 | rfl | h0
  · rcases lt_or_ge q' 0 with h0' | h0'
    · have := fl_mono_pos hf.mirror (q := -q') (q' := -q) (by linarith) (by linarith)
      simp only [neg_neg] at this
      linarith
    · have h1 := fl_nonneg hf h0'
      have h2 := fl_nonneg hf.mirror (q := -q) (by linarith)
      simp only [neg_neg] at h2
      linarith
  · rw [fl_zero hf]; exact fl_nonneg hf h
  · exact fl_mono_pos hf h0 h

end Verif

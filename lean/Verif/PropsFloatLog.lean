import Verif.FloatLog
import Verif.EncodeLemmas

/-!
# The integer encoding with the floating point logarithm: C88
-/

namespace Verif

/-- Some choice of the bits gives the number. -/
def Reaches (coeffs : List ℚ) (v : ℚ) : Prop :=
  ∃ bits : List ℚ, bits.length = coeffs.length ∧ (∀ b ∈ bits, b = 0 ∨ b = 1) ∧ (List.zipWith (· * ·) bits coeffs).sum = v

theorem zipWith_pow (b : Nat → ℚ) (p : Nat) :
    List.zipWith (· * ·) ((List.range p).map b) ((List.range p).map fun i => (2 : ℚ) ^ i) =
      (List.range p).map fun i => b i * (2 : ℚ) ^ i := by
  rw [List.zipWith_map, List.zipWith_self]

/-- The bits as a function. -/
theorem reaches_iff (p : Nat) (c v : ℚ) :
    Reaches (((List.range p).map fun i => (2 : ℚ) ^ i) ++ [c]) v ↔
      ∃ b : Nat → ℚ, (∀ i, b i = 0 ∨ b i = 1) ∧ ∃ e : ℚ, (e = 0 ∨ e = 1) ∧
        ((List.range p).map fun i => b i * (2 : ℚ) ^ i).sum + e * c = v := by
  constructor
  · rintro ⟨bits, hl, hb, hs⟩
    simp only [List.length_append, List.length_map, List.length_range, List.length_singleton] at hl
    obtain ⟨init, e, rfl⟩ : ∃ init e, bits = init ++ [e] :=
      ⟨bits.dropLast, bits.getLast (by rintro rfl; simp at hl), (List.dropLast_append_getLast _).symm⟩
    simp only [List.length_append, List.length_singleton, Nat.add_right_cancel_iff] at hl
    have hinit : init = (List.range p).map fun i => init.getD i 0 := by
      apply List.ext_getElem
      · simp [hl]
      · intro i h1 h2; simp [List.getD_eq_getElem?_getD, h1]
    refine ⟨fun i => init.getD i 0, fun i => ?_, e, hb e (by simp), ?_⟩
    · by_cases h : i < init.length
      · beta_reduce
        rw [List.getD_eq_getElem?_getD, List.getElem?_eq_getElem h]; exact hb _ (by simp [List.getElem_mem])
      · left; beta_reduce; rw [List.getD_eq_getElem?_getD, List.getElem?_eq_none (not_lt.mp h)]; rfl
    · rw [List.zipWith_append (by simp [hl]), hinit, zipWith_pow] at hs
      simpa using hs
  · rintro ⟨b, hb, e, he, hs⟩
    refine ⟨(List.range p).map b ++ [e], by simp, ?_, ?_⟩
    · intro x hx
      simp only [List.mem_append, List.mem_map, List.mem_singleton] at hx
      rcases hx with ⟨i, _, rfl⟩ | rfl
      · exact hb i
      · exact he
    · rw [List.zipWith_append (by simp), zipWith_pow]
      simpa using hs

/-- With any number of powers that does not exceed the range, and not too few, exactly the range is reached. -/
theorem reaches_range (p r : Nat) (h1 : 2 ^ p ≤ r + 1) (h2 : r < 2 ^ (p + 1)) (v : ℚ) :
    Reaches (((List.range p).map fun i => (2 : ℚ) ^ i) ++ [(r : ℚ) - (2 ^ p - 1)]) v ↔ ∃ n : Nat, n ≤ r ∧ v = n := by
  have hc : (r : ℚ) - (2 ^ p - 1) = ((r + 1 - 2 ^ p : Nat) : ℚ) := by push_cast [Nat.cast_sub h1]; ring
  rw [reaches_iff, hc]
  constructor
  · rintro ⟨b, hb, e, he, hs⟩
    obtain ⟨m, hm, hle⟩ := pow_sum_le p b fun i _ => hb i
    rw [hm] at hs
    rcases he with rfl | rfl
    · exact ⟨m, by omega, by rw [← hs]; ring⟩
    · exact ⟨m + (r + 1 - 2 ^ p), by omega, by rw [← hs]; push_cast; ring⟩
  · rintro ⟨n, hn, rfl⟩
    by_cases h : n < 2 ^ p
    · obtain ⟨b, hb, hs⟩ := pow_sum_surj p n h
      exact ⟨b, hb, 0, Or.inl rfl, by rw [hs]; ring⟩
    · obtain ⟨b, hb, hs⟩ := pow_sum_surj p (n - (r + 1 - 2 ^ p)) (by rw [pow_succ] at h2; omega)
      refine ⟨b, hb, 1, Or.inr rfl, ?_⟩
      rw [hs, Nat.cast_sub (by rw [pow_succ] at h2; omega)]; ring

/-- The value nearest to a logarithm between two integers is between them as well. -/
theorem nearest_between {x y : ℝ} {k : ℕ} (h0 : 1 ≤ x) (hk : (k : ℝ) ≤ x) (hk' : x < k + 1) (hb : x < 64)
    (h : NearestDouble x y) : (k : ℝ) ≤ y ∧ y ≤ k + 1 ∧ |x - y| ≤ 1 / 2 ^ 48 := by
  unfold NearestDouble at h
  have hx : 0 < x := by linarith
  rw [if_neg hx.ne', abs_of_pos hx] at h
  obtain ⟨m, hm, hd⟩ := h
  set e := Int.log 2 x with he
  have he0 : 0 ≤ e := by
    have : (2 : ℝ) ^ (0 : ℤ) ≤ x := by simpa using h0
    exact (Int.zpow_le_iff_le_log (by norm_num) hx).mp (by exact_mod_cast this)
  have he5 : e ≤ 5 := by
    have : x < ((2 : ℕ) : ℝ) ^ (6 : ℤ) := by norm_num; linarith
    have := (Int.lt_zpow_iff_log_lt (by norm_num) hx).mp this
    omega
  -- the distance of two numbers is `u`
  set u : ℝ := (2 : ℝ) ^ (e - 52) with hu
  have hu0 : 0 < u := by positivity
  have hhalf : (2 : ℝ) ^ (e - 53) = u / 2 := by
    rw [hu, show e - 53 = (e - 52) - 1 by ring, zpow_sub_one₀ (by norm_num)]; ring
  rw [hhalf] at hd
  obtain ⟨j, hj⟩ : ∃ j : ℕ, 52 - e = j := ⟨(52 - e).toNat, by omega⟩
  have hone : (1 : ℝ) = (2 : ℝ) ^ j * u := by
    rw [hu, ← zpow_natCast, ← zpow_add₀ (by norm_num), show (j : ℤ) + (e - 52) = 0 by omega, zpow_zero]
  have hgrid : ∀ n : ℕ, (n : ℝ) = ((n * 2 ^ j : ℤ) : ℝ) * u := by
    intro n; push_cast; rw [mul_assoc, ← hone, mul_one]
  rw [abs_le] at hd
  refine ⟨?_, ?_, ?_⟩
  · rw [hgrid k] at hk ⊢
    rw [hm] at hd ⊢
    have : ((k * 2 ^ j : ℤ) : ℝ) - 1 < m := by
      by_contra hc
      push Not at hc
      nlinarith
    have : (k * 2 ^ j : ℤ) - 1 < m := by exact_mod_cast this
    have : (k * 2 ^ j : ℤ) ≤ m := by omega
    have : ((k * 2 ^ j : ℤ) : ℝ) ≤ m := by exact_mod_cast this
    nlinarith
  · have h1 := hgrid (k + 1)
    push_cast at h1
    have h2 : ((k : ℝ) + 1) = (((k + 1) * 2 ^ j : ℤ) : ℝ) * u := by push_cast; linarith
    rw [h2] at hk' ⊢
    rw [hm] at hd ⊢
    have : (m : ℝ) < (((k + 1) * 2 ^ j : ℤ) : ℝ) + 1 := by
      by_contra hc
      push Not at hc
      nlinarith
    have : m < ((k + 1) * 2 ^ j : ℤ) + 1 := by exact_mod_cast this
    have : m ≤ ((k + 1) * 2 ^ j : ℤ) := by omega
    have : (m : ℝ) ≤ (((k + 1) * 2 ^ j : ℤ) : ℝ) := by exact_mod_cast this
    nlinarith
  · have : u ≤ (2 : ℝ) ^ (-47 : ℤ) := by
      rw [hu]; exact zpow_le_zpow_right₀ (by norm_num) (by omega)
    have h47 : (2 : ℝ) ^ (-47 : ℤ) / 2 = 1 / 2 ^ 48 := by norm_num
    rw [← h47, abs_le]
    clear_value u
    clear hgrid hone hhalf hu hm h47
    generalize (2 : ℝ) ^ (-47 : ℤ) = w at this ⊢
    obtain ⟨hd1, hd2⟩ := hd
    constructor
    · linarith
    · linarith

/-- A logarithm that is almost an integer belongs to a number that is almost a power of two. -/
theorem near_power {r n : ℕ} {ε : ℝ} (hr : 1 ≤ r) (hε : 0 ≤ ε) (h : (n : ℝ) - ε ≤ Real.logb 2 r) :
    (2 : ℝ) ^ n * (1 - 0.6931471808 * ε) ≤ r := by
  have hr0 : (0 : ℝ) < r := by exact_mod_cast hr
  have h1 : (2 : ℝ) ^ ((n : ℝ) - ε) ≤ r := by
    rwa [Real.le_logb_iff_rpow_le (by norm_num) hr0] at h
  rw [sub_eq_add_neg, Real.rpow_add (by norm_num), Real.rpow_natCast] at h1
  refine le_trans (mul_le_mul_of_nonneg_left ?_ (by positivity)) h1
  rw [Real.rpow_def_of_pos (by norm_num)]
  have h3 := Real.add_one_le_exp (Real.log 2 * -ε)
  have h4 := Real.log_two_lt_d9
  nlinarith

/-- The integer part of the rounded logarithm: the exact one, or one more for a range just below a power of two. -/
theorem floor_log {r : ℕ} (hr : 2 ≤ r) (h2 : r < 2 ^ 50) {y : ℝ} (hy : NearestDouble (Real.logb 2 r) y) :
    ⌊y⌋₊ = Nat.log 2 r ∨ ⌊y⌋₊ = Nat.log 2 r + 1 ∧
      (2 : ℝ) ^ (Nat.log 2 r + 1) * (1 - 0.6931471808 * (1 / 2 ^ 48)) ≤ r := by
  have hr0 : (0 : ℝ) < r := by exact_mod_cast (by omega : 0 < r)
  obtain ⟨k, hk⟩ : ∃ k, k = Nat.log 2 r := ⟨_, rfl⟩
  rw [← hk]
  have hlo : 2 ^ k ≤ r := hk ▸ Nat.pow_log_le_self 2 (by omega)
  have hhi : r < 2 ^ (k + 1) := hk ▸ Nat.lt_pow_succ_log_self (by norm_num) r
  have hk50 : k < 50 := by
    by_contra hc
    have : 2 ^ 50 ≤ 2 ^ k := Nat.pow_le_pow_right (by norm_num) (by omega)
    omega
  have hx1 : (k : ℝ) ≤ Real.logb 2 r := by
    rw [Real.le_logb_iff_rpow_le (by norm_num) hr0, Real.rpow_natCast]; exact_mod_cast hlo
  have hx2 : Real.logb 2 r < k + 1 := by
    rw [Real.logb_lt_iff_lt_rpow (by norm_num) hr0]
    have : ((k : ℝ) + 1) = ((k + 1 : ℕ) : ℝ) := by push_cast; ring
    rw [this, Real.rpow_natCast]; exact_mod_cast hhi
  have hx3 : 1 ≤ Real.logb 2 r := by
    rw [Real.le_logb_iff_rpow_le (by norm_num) hr0, Real.rpow_one]; exact_mod_cast hr
  have hx4 : Real.logb 2 r < 64 := by
    have : (k : ℝ) < 50 := by exact_mod_cast hk50
    linarith
  obtain ⟨hy1, hy2, hy3⟩ := nearest_between hx3 hx1 hx2 hx4 hy
  rcases lt_or_eq_of_le hy2 with hlt | heq
  · left
    rw [Nat.floor_eq_iff (by have : (0 : ℝ) ≤ k := by positivity
                             linarith)]
    exact ⟨hy1, hlt⟩
  · right
    refine ⟨by rw [heq, show ((k : ℝ) + 1) = ((k + 1 : ℕ) : ℝ) by push_cast; ring, Nat.floor_natCast], ?_⟩
    refine near_power (by omega) (by positivity) ?_
    rw [abs_le] at hy3
    push_cast
    rw [heq] at hy3
    linarith [hy3.1]

/-- **C88, the part that holds.**  Full statement: for every positive integer range the coefficients computed with the
floating point logarithm reach exactly the numbers `0, ..., r`.  Proved: for all ranges below `2 ^ 50 - 2` and any
correctly rounded logarithm.  Missing (false): larger ranges, `C88_violated`. -/
theorem C88_encoding_partial (r : ℕ) (h1 : 1 ≤ r) (h2 : r < 2 ^ 50 - 2) (y : ℝ) (hy : NearestDouble (Real.logb 2 r) y) :
    ∃ cs, encodeCoeffsFloat y r = .ok cs ∧ ∀ v, Reaches cs v ↔ ∃ n : ℕ, n ≤ r ∧ v = n := by
  refine ⟨_, by rw [encodeCoeffsFloat, if_neg (by omega)], fun v => ?_⟩
  suffices 2 ^ ⌊y⌋₊ ≤ r + 1 ∧ r < 2 ^ (⌊y⌋₊ + 1) from reaches_range _ _ this.1 this.2 v
  rcases Nat.lt_or_ge r 2 with hr | hr
  · have : r = 1 := by omega
    subst this
    simp only [NearestDouble, Nat.cast_one, Real.logb_one, if_true] at hy
    subst hy
    simp
  · have hl := floor_log hr (by omega) hy
    obtain ⟨k, hk⟩ : ∃ k, k = Nat.log 2 r := ⟨_, rfl⟩
    have hlo : 2 ^ k ≤ r := hk ▸ Nat.pow_log_le_self 2 (by omega)
    have hhi : r < 2 ^ (k + 1) := hk ▸ Nat.lt_pow_succ_log_self (by norm_num) r
    have hk50 : k < 50 := by
      by_contra hc
      have : 2 ^ 50 ≤ 2 ^ k := Nat.pow_le_pow_right (by norm_num) (by omega)
      omega
    rw [← hk] at hl
    rcases hl with hl | ⟨hl, hp⟩
    · rw [hl]; exact ⟨by omega, hhi⟩
    · rw [hl]
      refine ⟨?_, lt_trans hhi (Nat.pow_lt_pow_right (by norm_num) (by omega))⟩
      -- the difference to the power of two is an integer below 2, or 3 if the power is `2 ^ 50`
      by_contra hc
      push Not at hc
      have hc' : (r : ℝ) + 2 ≤ 2 ^ (k + 1) := by
        have : r + 2 ≤ 2 ^ (k + 1) := hc
        exact_mod_cast this
      rcases Nat.lt_or_ge k 49 with hk49 | hk49
      · have : (2 : ℝ) ^ (k + 1) ≤ 2 ^ 49 := pow_le_pow_right₀ (by norm_num) (by omega)
        norm_num at hp this
        linarith
      · have : k = 49 := by omega
        rw [this] at hp
        have hr3 : (r : ℝ) + 3 ≤ 2 ^ 50 := by
          have : r + 3 ≤ 2 ^ 50 := by omega
          exact_mod_cast this
        norm_num at hp hr3
        linarith

/-- **C88, exactness**: for ranges below `2 ^ 48` the rounded logarithm gives the same coefficients as the exact one of
`encodeCoeffs`, which the other theorems about integer variables use. -/
theorem C88_exact (r : ℕ) (h1 : 1 ≤ r) (h2 : r < 2 ^ 48) (y : ℝ) (hy : NearestDouble (Real.logb 2 r) y) :
    encodeCoeffsFloat y r = encodeCoeffs r := by
  have hq : (1 : ℚ) ≤ r := by exact_mod_cast h1
  have hf : (r : ℚ).floor.toNat = r := by
    have : (r : ℚ).floor = (r : ℤ) := by exact_mod_cast Rat.floor_intCast (r : ℤ)
    rw [this]; simp
  have hfl : ⌊y⌋₊ = Nat.log2 r := by
    rw [Nat.log2_eq_log_two]
    rcases Nat.lt_or_ge r 2 with hr | hr
    · have : r = 1 := by omega
      subst this
      simp only [NearestDouble, Nat.cast_one, Real.logb_one, if_true] at hy
      subst hy
      simp
    · rcases floor_log hr (by omega) hy with h | ⟨_, hp⟩
      · exact h
      · exfalso
        have hhi : r < 2 ^ (Nat.log 2 r + 1) := Nat.lt_pow_succ_log_self (by norm_num) r
        have hk : Nat.log 2 r + 1 ≤ 48 := by
          by_contra hc
          have := Nat.pow_le_pow_right (show 0 < 2 by norm_num) (show 48 ≤ Nat.log 2 r by omega)
          have := Nat.pow_log_le_self 2 (x := r) (by omega)
          omega
        have hc : (r : ℝ) + 1 ≤ 2 ^ (Nat.log 2 r + 1) := by exact_mod_cast hhi
        have : (2 : ℝ) ^ (Nat.log 2 r + 1) ≤ 2 ^ 48 := pow_le_pow_right₀ (by norm_num) hk
        norm_num at hp this
        linarith
  rw [encodeCoeffsFloat, encodeCoeffs, if_neg (by omega), if_neg (by linarith), if_neg (by linarith), hf, hfl]

/-- A range of 8: the logarithm is exact, the coefficients are 1, 2, 4, 1. -/
example : NearestDouble (Real.logb 2 (8 : ℕ)) 3 ∧ encodeCoeffsFloat 3 8 = .ok [1, 2, 4, 1] := by
  have h : Real.logb 2 ((8 : ℕ) : ℝ) = 3 := by
    rw [show ((8 : ℕ) : ℝ) = (2 : ℝ) ^ (3 : ℝ) by norm_num, Real.logb_rpow (by norm_num) (by norm_num)]
  have hlog : Int.log 2 |(3 : ℝ)| = 1 := by
    rw [abs_of_pos (by norm_num), show (3 : ℝ) = ((3 : ℕ) : ℝ) by norm_num, Int.log_natCast]; rfl
  refine ⟨?_, ?_⟩
  · rw [h, NearestDouble, if_neg (by norm_num), hlog]
    exact ⟨3 * 2 ^ 51, by norm_num, by norm_num⟩
  · rw [encodeCoeffsFloat, if_neg (by norm_num), show ⌊(3 : ℝ)⌋₊ = 3 from Nat.floor_ofNat 3]
    decide +kernel

/-- **C88 is violated**: for a range of `2 ^ 50 - 2` the logarithm is rounded to 50, the last coefficient is -1, and the
number -1 is reached: the decoded value is below the lower bound. -/
theorem C88_violated : NearestDouble (Real.logb 2 ((2 ^ 50 - 2 : ℕ) : ℝ)) 50 ∧
    ∀ y : ℝ, NearestDouble (Real.logb 2 ((2 ^ 50 - 2 : ℕ) : ℝ)) y →
    ∃ cs, encodeCoeffsFloat y (2 ^ 50 - 2) = .ok cs ∧ cs.getLast? = some (-1) ∧ Reaches cs (-1) := by
  set x := Real.logb 2 ((2 ^ 50 - 2 : ℕ) : ℝ) with hx
  have hr0 : (0 : ℝ) < ((2 ^ 50 - 2 : ℕ) : ℝ) := by norm_num
  have hx1 : (49 : ℝ) ≤ x := by
    rw [hx, Real.le_logb_iff_rpow_le (by norm_num) hr0, show (49 : ℝ) = ((49 : ℕ) : ℝ) by norm_num, Real.rpow_natCast]
    norm_num
  have hx2 : x < 50 := by
    rw [hx, Real.logb_lt_iff_lt_rpow (by norm_num) hr0, show (50 : ℝ) = ((50 : ℕ) : ℝ) by norm_num, Real.rpow_natCast]
    norm_num
  have hx3 : 50 - 1 / 2 ^ 48 < x := by
    have h1 : x = 50 + Real.log (1 - 1 / 2 ^ 49) / Real.log 2 := by
      rw [hx, show ((2 ^ 50 - 2 : ℕ) : ℝ) = 2 ^ 50 * (1 - 1 / 2 ^ 49) by norm_num, Real.logb,
        Real.log_mul (by positivity) (by norm_num), Real.log_pow]
      have : Real.log 2 ≠ 0 := by positivity
      field_simp
      norm_num
      ring
    have h2 : 1 - (1 - 1 / 2 ^ 49 : ℝ)⁻¹ ≤ Real.log (1 - 1 / 2 ^ 49) := Real.one_sub_inv_le_log_of_pos (by norm_num)
    have h3 := Real.log_two_gt_d9
    have h4 : -(1 / 2 ^ 48) < Real.log (1 - 1 / 2 ^ 49) / Real.log 2 := by
      rw [lt_div_iff₀ (by linarith)]
      refine lt_of_lt_of_le ?_ h2
      norm_num at h3 ⊢
      linarith
    rw [h1]; linarith
  have hlog : Int.log 2 |x| = 5 := by
    rw [abs_of_pos (by linarith)]
    have hxp : 0 < x := by linarith
    apply le_antisymm
    · have : x < ((2 : ℕ) : ℝ) ^ (6 : ℤ) := by norm_num; linarith
      have := (Int.lt_zpow_iff_log_lt (by norm_num) hxp).mp this
      omega
    · refine (Int.zpow_le_iff_le_log (by norm_num) hxp).mp ?_
      norm_num; linarith
  refine ⟨?_, fun y hy => ?_⟩
  · rw [NearestDouble, if_neg (by linarith), hlog]
    refine ⟨50 * 2 ^ 47, by norm_num, ?_⟩
    norm_num at hx3 ⊢
    rw [abs_le]
    constructor <;> linarith
  unfold NearestDouble at hy
  rw [if_neg (by linarith), hlog] at hy
  obtain ⟨m, hm, hd⟩ := hy
  norm_num at hm hd hx3
  have hfl : ⌊y⌋₊ = 50 := by
    rw [abs_le] at hd
    have hge : (50 : ℝ) ≤ y := by
      have h1 : (50 * 2 ^ 47 - 1 : ℝ) < m := by
        rw [hm] at hd; norm_num; linarith [hd.1, hd.2]
      have h2 : (50 * 2 ^ 47 - 1 : ℤ) < m := by exact_mod_cast h1
      have h3 : (50 * 2 ^ 47 : ℤ) ≤ m := by omega
      have h4 : (50 * 2 ^ 47 : ℝ) ≤ m := by exact_mod_cast h3
      rw [hm]; norm_num at h4; linarith
    rw [Nat.floor_eq_iff (by linarith)]
    exact ⟨by push_cast; exact hge, by push_cast; linarith [hd.1]⟩
  refine ⟨_, by rw [encodeCoeffsFloat, if_neg (by norm_num)], ?_, ?_⟩
  · rw [hfl, List.getLast?_append]; norm_num
  · rw [hfl, reaches_iff]
    exact ⟨fun _ => 0, fun _ => Or.inl rfl, 1, Or.inr rfl, by norm_num⟩

end Verif

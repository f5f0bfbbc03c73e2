import Verif.GroverDraw
import Mathlib.MeasureTheory.Integral.IntervalIntegral.Basic
import Mathlib.Analysis.SpecialFunctions.Integrals.Basic

/-!
# C81: the chance of an improvement in the Grover search
-/

namespace Verif

open Finset

/-! ## Averages over the draws -/

theorem integral_ceil (f : Nat → ℝ) (K : Nat) : ∫ x in (0 : ℝ)..K, f ⌈x⌉₊ = ∑ r ∈ range K, f (r + 1) := by
  have hcon : ∀ r : Nat, Set.EqOn (fun x : ℝ => f ⌈x⌉₊) (fun _ => f (r + 1)) (Set.Ioc (r : ℝ) ((r + 1 : Nat) : ℝ)) := by
    intro r x hx
    have : ⌈x⌉₊ = r + 1 := by
      rw [Nat.ceil_eq_iff (by omega)]
      exact ⟨by simpa using hx.1, by simpa using hx.2⟩
    simp only [this]
  have hle : ∀ r : Nat, (r : ℝ) ≤ ((r + 1 : Nat) : ℝ) := fun r => by push_cast; linarith
  have hint : ∀ r < K, IntervalIntegrable (fun x : ℝ => f ⌈x⌉₊) MeasureTheory.volume (r : ℝ) ((r + 1 : Nat) : ℝ) := by
    intro r _
    rw [intervalIntegrable_iff_integrableOn_Ioc_of_le (hle r)]
    exact MeasureTheory.IntegrableOn.congr_fun (by simp [MeasureTheory.integrableOn_const_iff]) (hcon r).symm measurableSet_Ioc
  have := intervalIntegral.sum_integral_adjacent_intervals (a := fun r : Nat => (r : ℝ)) hint
  simp only [Nat.cast_zero] at this
  rw [← this]
  refine Finset.sum_congr rfl fun r _ => ?_
  rw [intervalIntegral.integral_of_le (hle r), MeasureTheory.setIntegral_congr_fun measurableSet_Ioc (hcon r)]
  simp

theorem integral_draw (f : Nat → ℝ) {m : Nat} (hm : 2 ≤ m) :
    ∫ u in (0 : ℝ)..1, f (rotationDraw m u) = (∑ r ∈ range (m - 1), f (r + 1)) / ((m : ℝ) - 1) := by
  have hm' : (0 : ℝ) < (m : ℝ) - 1 := by
    have : (2 : ℝ) ≤ m := by exact_mod_cast hm
    linarith
  have hc : ((m - 1 : Nat) : ℝ) = (m : ℝ) - 1 := by push_cast [Nat.cast_sub (by omega : 1 ≤ m)]; ring
  have h1 : ∀ u : ℝ, f (rotationDraw m u) = (fun x : ℝ => f ⌈x⌉₊) (((m : ℝ) - 1) * u) := fun u => by
    simp [rotationDraw]
  simp only [h1]
  rw [intervalIntegral.integral_comp_mul_left (fun x : ℝ => f ⌈x⌉₊) hm'.ne']
  rw [mul_zero, mul_one, ← hc, integral_ceil, smul_eq_mul, div_eq_inv_mul]

theorem integral_draw_one (f : Nat → ℝ) : ∫ u in (0 : ℝ)..1, f (rotationDraw 1 u) = f 0 := by
  simp [rotationDraw]

/-- The sum of the probabilities of the rotations `1, …, m - 1`. -/
theorem sum_sin_sq (θ : ℝ) (K : Nat) :
    4 * Real.sin (2 * θ) * ∑ r ∈ range K, Real.sin ((2 * ((r + 1 : Nat) : ℝ) + 1) * θ) ^ 2 =
      2 * K * Real.sin (2 * θ) - (Real.sin (4 * (K + 1) * θ) - Real.sin (4 * θ)) := by
  induction K with
  | zero => simp
  | succ K ih =>
    rw [Finset.sum_range_succ, mul_add, ih]
    have h1 : Real.sin ((2 * ((K + 1 : Nat) : ℝ) + 1) * θ) ^ 2 =
        1 / 2 - Real.cos (2 * ((2 * ((K + 1 : Nat) : ℝ) + 1) * θ)) / 2 := Real.sin_sq_eq_half_sub _
    have h2 : Real.sin (4 * (((K + 1 : Nat) : ℝ) + 1) * θ) - Real.sin (4 * (K + 1) * θ) =
        2 * Real.sin (2 * θ) * Real.cos (2 * ((2 * ((K + 1 : Nat) : ℝ) + 1) * θ)) := by
      rw [Real.sin_sub_sin]
      push_cast
      congr 2
      · ring_nf
      · ring_nf
    rw [h1]
    push_cast at h2 ⊢
    linarith

/-- Specification: the average success probability of `1, …, K` rotations if the share `p` of the keys is below the threshold. -/
noncomputable def averageProb (p : ℝ) (K : Nat) : ℝ :=
  (∑ r ∈ range K, Real.sin ((2 * ((r + 1 : Nat) : ℝ) + 1) * Real.arcsin (Real.sqrt p)) ^ 2) / K

theorem sin_arcsin_sqrt {p : ℝ} (h0 : 0 ≤ p) (h1 : p ≤ 1) : Real.sin (Real.arcsin (Real.sqrt p)) = Real.sqrt p :=
  Real.sin_arcsin (by linarith [Real.sqrt_nonneg p]) (Real.sqrt_le_one.mpr h1)

theorem cos_double {p : ℝ} (h0 : 0 ≤ p) (h1 : p ≤ 1) : Real.cos (2 * Real.arcsin (Real.sqrt p)) = 1 - 2 * p := by
  rw [Real.cos_two_mul', Real.cos_sq', sin_arcsin_sqrt h0 h1, Real.sq_sqrt h0]
  ring

theorem sin_double_sq {p : ℝ} (h0 : 0 ≤ p) (h1 : p ≤ 1) :
    Real.sin (2 * Real.arcsin (Real.sqrt p)) ^ 2 = 4 * (p * (1 - p)) := by
  rw [Real.sin_sq, cos_double h0 h1]
  ring

theorem sin_double_nonneg {p : ℝ} : 0 ≤ Real.sin (2 * Real.arcsin (Real.sqrt p)) := by
  have h1 : 0 ≤ Real.arcsin (Real.sqrt p) := Real.arcsin_nonneg.mpr (Real.sqrt_nonneg p)
  exact Real.sin_nonneg_of_nonneg_of_le_pi (by linarith) (by linarith [Real.arcsin_le_pi_div_two (Real.sqrt p)])

theorem average_eq {p : ℝ} (h0 : 0 ≤ p) (h1 : p ≤ 1) {K : Nat} (hK : 0 < K) {σ : ℝ} (hσ : 0 < σ)
    (hs : Real.sin (2 * Real.arcsin (Real.sqrt p)) = σ) :
    averageProb p K = 1 / 2 - Real.sin (4 * (K + 1) * Real.arcsin (Real.sqrt p)) / (4 * K * σ) + (1 - 2 * p) / (2 * K) := by
  have h2 := sum_sin_sq (Real.arcsin (Real.sqrt p)) K
  have h3 : Real.sin (4 * Real.arcsin (Real.sqrt p)) = 2 * σ * (1 - 2 * p) := by
    rw [← hs, ← cos_double h0 h1, ← Real.sin_two_mul]
    ring_nf
  rw [hs, h3] at h2
  have hK' : (0 : ℝ) < K := by exact_mod_cast hK
  unfold averageProb
  generalize Real.sin (4 * (K + 1) * Real.arcsin (Real.sqrt p)) = S at h2 ⊢
  generalize (∑ r ∈ range K, Real.sin ((2 * ((r + 1 : Nat) : ℝ) + 1) * Real.arcsin (Real.sqrt p)) ^ 2) = T at h2 ⊢
  rw [div_eq_iff hK'.ne']
  field_simp
  linarith

theorem average_ge {p : ℝ} (h0 : 0 ≤ p) (h1 : p ≤ 1) {K : Nat} (hK : 0 < K) {σ : ℝ} (hσ : 0 < σ)
    (hs : Real.sin (2 * Real.arcsin (Real.sqrt p)) = σ) :
    1 / 2 - 1 / (4 * (K * σ)) + (1 - 2 * p) / (2 * K) ≤ averageProb p K := by
  rw [average_eq h0 h1 hK hσ hs]
  have hK' : (0 : ℝ) < K := by exact_mod_cast hK
  have : Real.sin (4 * (K + 1) * Real.arcsin (Real.sqrt p)) / (4 * K * σ) ≤ 1 / (4 * (K * σ)) := by
    rw [show 4 * (K : ℝ) * σ = 4 * (K * σ) by ring]
    gcongr
    exact Real.sin_le_one _
  linarith

theorem share_bound {N M : ℝ} (hN : 2 ≤ N) (h1 : 1 ≤ M) (h2 : M + 1 ≤ N) : 2 / N ≤ 4 * (M / N * (1 - M / N)) := by
  have hN0 : 0 < N := by linarith
  have h3 : 4 * (M / N * (1 - M / N)) = 4 * (M * (N - M)) / N / N := by field_simp
  rw [h3]
  gcongr
  rw [le_div_iff₀ hN0]
  nlinarith [mul_nonneg (by linarith : (0 : ℝ) ≤ M - 1) (by linarith : (0 : ℝ) ≤ N - M - 1)]

theorem rpow_half_sq (n : Nat) : ((2 : ℝ) ^ ((n : ℝ) / 2)) ^ 2 = 2 ^ n := by
  rw [← Real.rpow_natCast, ← Real.rpow_mul (by norm_num)]
  norm_num

theorem rpow_half_pos (n : Nat) : (0 : ℝ) < (2 : ℝ) ^ ((n : ℝ) / 2) := by positivity

/-- The bounds for many keys. -/
theorem average_large {n M K : Nat} (h1 : 1 ≤ M) (h2 : M < 2 ^ n) (hK : (2 : ℝ) ^ ((n : ℝ) / 2) ≤ K + 1) (hn : 4 ≤ n) :
    (2 * M ≤ 2 ^ n → 1 / 4 ≤ averageProb ((M : ℝ) / (2 ^ n : Nat)) K) ∧
      (5 ≤ n → 1 / 8 ≤ averageProb ((M : ℝ) / (2 ^ n : Nat)) K) := by
  obtain ⟨s, hs⟩ : ∃ s, s = (2 : ℝ) ^ ((n : ℝ) / 2) := ⟨_, rfl⟩
  have hs2 : s ^ 2 = ((2 ^ n : Nat) : ℝ) := by rw [hs, rpow_half_sq]; push_cast; rfl
  have hs0 : 0 < s := hs ▸ rpow_half_pos n
  rw [← hs] at hK
  obtain ⟨N, hN⟩ : ∃ N : ℝ, N = ((2 ^ n : Nat) : ℝ) := ⟨_, rfl⟩
  rw [← hN] at hs2 ⊢
  have h16 : (16 : ℝ) ≤ N := by
    rw [hN]
    exact_mod_cast (le_trans (by norm_num) (Nat.pow_le_pow_right (by norm_num) hn) : 16 ≤ 2 ^ n)
  have hs4 : 4 ≤ s := by nlinarith
  have hM1 : (1 : ℝ) ≤ M := by exact_mod_cast h1
  have hM2 : (M : ℝ) + 1 ≤ N := by rw [hN]; exact_mod_cast h2
  have hN0 : 0 < N := by linarith
  have hp0 : 0 ≤ (M : ℝ) / N := by positivity
  have hp1 : (M : ℝ) / N ≤ 1 := by rw [div_le_one hN0]; linarith
  obtain ⟨σ, hσ⟩ : ∃ σ, Real.sin (2 * Real.arcsin (Real.sqrt (M / N))) = σ := ⟨_, rfl⟩
  have hσ2 : σ ^ 2 = 4 * (M / N * (1 - M / N)) := by rw [← hσ, sin_double_sq hp0 hp1]
  have hσ0 : 0 ≤ σ := hσ ▸ sin_double_nonneg
  have hb : 2 / N ≤ σ ^ 2 := by rw [hσ2]; exact share_bound (by linarith) hM1 hM2
  have hsσ : 1.4 ≤ s * σ := by
    have : 2 ≤ (s * σ) ^ 2 := by
      rw [mul_pow, hs2]
      rw [div_le_iff₀ hN0] at hb
      linarith
    have h0 : 0 ≤ s * σ := by positivity
    nlinarith
  have hσp : 0 < σ := by
    by_contra h
    have : σ = 0 := le_antisymm (not_lt.mp h) hσ0
    rw [this, mul_zero] at hsσ
    norm_num at hsσ
  have hK0 : (3 : ℝ) ≤ K := by linarith
  have hKn : 0 < K := by
    have : (0 : ℝ) < K := by linarith
    exact_mod_cast this
  have hKσ : s * σ - σ ≤ K * σ := by nlinarith
  have hge := average_ge hp0 hp1 hKn hσp hσ
  have hσs : σ * 4 ≤ s * σ := by nlinarith
  have hKσ0 : 1.05 ≤ K * σ := by linarith
  constructor
  · intro hh
    have hp : (M : ℝ) / N ≤ 1 / 2 := by
      rw [div_le_iff₀ hN0, hN]
      have : (2 : ℝ) * M ≤ ((2 ^ n : Nat) : ℝ) := by exact_mod_cast hh
      linarith
    have h3 : 0 ≤ (1 - 2 * ((M : ℝ) / N)) / (2 * K) := div_nonneg (by linarith) (by linarith)
    have h4 : 1 / (4 * (K * σ)) ≤ 1 / 4 := by
      apply one_div_le_one_div_of_le <;> linarith
    linarith
  · intro h5
    have h32 : (32 : ℝ) ≤ N := by
      rw [hN]
      exact_mod_cast (le_trans (by norm_num) (Nat.pow_le_pow_right (by norm_num) h5) : 32 ≤ 2 ^ n)
    have hs5 : 5.6 ≤ s := by nlinarith
    have hσs : σ * 5.6 ≤ s * σ := by nlinarith
    have hKσ1 : 1.15 ≤ K * σ := by linarith
    have h4 : 1 / (4 * (K * σ)) ≤ 1 / 4.6 := by
      apply one_div_le_one_div_of_le <;> linarith
    have h6 : -(1 / 9.2) ≤ (1 - 2 * ((M : ℝ) / N)) / (2 * K) := by
      rw [neg_le, ← neg_div]
      rw [div_le_div_iff₀ (by linarith) (by norm_num)]
      nlinarith
    have h7 : (1 : ℝ) / 4.6 + 1 / 9.2 ≤ 3 / 8 := by norm_num
    linarith

/-- The first multiples of the angle. -/
theorem average_small {p : ℝ} (h0 : 0 ≤ p) (h1 : p ≤ 1) :
    averageProb p 1 = p * (3 - 4 * p) ^ 2 ∧
    averageProb p 2 = (p * (3 - 4 * p) ^ 2 + p * (5 - 20 * p + 16 * p ^ 2) ^ 2) / 2 ∧
    averageProb p 3 = (p * (3 - 4 * p) ^ 2 + p * (5 - 20 * p + 16 * p ^ 2) ^ 2 +
      p * (7 - 56 * p + 112 * p ^ 2 - 64 * p ^ 3) ^ 2) / 3 := by
  obtain ⟨θ, hθ⟩ : ∃ θ, θ = Real.arcsin (Real.sqrt p) := ⟨_, rfl⟩
  have hs : Real.sin θ ^ 2 = p := by rw [hθ, sin_arcsin_sqrt h0 h1, Real.sq_sqrt h0]
  have hc : Real.cos θ ^ 2 = 1 - p := by rw [Real.cos_sq', hs]
  have hc2 : Real.cos (2 * θ) = 1 - 2 * p := by rw [hθ, cos_double h0 h1]
  have step : ∀ x : ℝ, Real.sin (x + 2 * θ) = 2 * Real.cos (2 * θ) * Real.sin x - Real.sin (x - 2 * θ) := fun x => by
    rw [Real.sin_add, Real.sin_sub]; ring
  have s3 : Real.sin (3 * θ) = (3 - 4 * p) * Real.sin θ := by
    have := step θ
    rw [hc2, show θ - 2 * θ = -θ by ring, Real.sin_neg, show θ + 2 * θ = 3 * θ by ring] at this
    rw [this]; ring
  have s5 : Real.sin (5 * θ) = (5 - 20 * p + 16 * p ^ 2) * Real.sin θ := by
    have := step (3 * θ)
    rw [hc2, show 3 * θ - 2 * θ = θ by ring, show 3 * θ + 2 * θ = 5 * θ by ring, s3] at this
    rw [this]; ring
  have s7 : Real.sin (7 * θ) = (7 - 56 * p + 112 * p ^ 2 - 64 * p ^ 3) * Real.sin θ := by
    have := step (5 * θ)
    rw [hc2, show 5 * θ - 2 * θ = 3 * θ by ring, show 5 * θ + 2 * θ = 7 * θ by ring, s5, s3] at this
    rw [this]; ring
  have e3 : Real.sin (3 * θ) ^ 2 = p * (3 - 4 * p) ^ 2 := by rw [s3, mul_pow, hs]; ring
  have e5 : Real.sin (5 * θ) ^ 2 = p * (5 - 20 * p + 16 * p ^ 2) ^ 2 := by rw [s5, mul_pow, hs]; ring
  have e7 : Real.sin (7 * θ) ^ 2 = p * (7 - 56 * p + 112 * p ^ 2 - 64 * p ^ 3) ^ 2 := by rw [s7, mul_pow, hs]; ring
  unfold averageProb
  rw [← hθ]
  refine ⟨?_, ?_, ?_⟩
  · simp only [Finset.sum_range_succ, Finset.sum_range_zero]
    norm_num
    rw [e3]
  · simp only [Finset.sum_range_succ, Finset.sum_range_zero]
    norm_num
    rw [e3, e5]
  · simp only [Finset.sum_range_succ, Finset.sum_range_zero]
    norm_num
    rw [e3, e5, e7]

/-! ## The range -/

theorem ceil_half (n : Nat) : 1 ≤ ⌈(2 : ℝ) ^ ((n : ℝ) / 2)⌉₊ := Nat.one_le_iff_ne_zero.mpr (by
  rw [Ne, Nat.ceil_eq_zero, not_le]
  exact rpow_half_pos n)

theorem nextRange_le (n m : Nat) : nextRange n m ≤ ⌈(2 : ℝ) ^ ((n : ℝ) / 2)⌉₊ := Nat.ceil_le_ceil (min_le_right _ _)

theorem nextRange_grows {n m : Nat} (hm : 1 ≤ m) (h : m < ⌈(2 : ℝ) ^ ((n : ℝ) / 2)⌉₊) : m + 1 ≤ nextRange n m := by
  unfold nextRange
  rw [Nat.add_one_le_iff, Nat.lt_ceil]
  have hm' : (1 : ℝ) ≤ m := by exact_mod_cast hm
  exact lt_min (by linarith) (Nat.lt_ceil.mp h)

theorem nextRange_top (n : Nat) : nextRange n ⌈(2 : ℝ) ^ ((n : ℝ) / 2)⌉₊ = ⌈(2 : ℝ) ^ ((n : ℝ) / 2)⌉₊ := by
  have h := Nat.le_ceil ((2 : ℝ) ^ ((n : ℝ) / 2))
  have h0 := rpow_half_pos n
  unfold nextRange
  rw [min_eq_right (by linarith)]

theorem range_bounds (n i : Nat) : min (i + 1) ⌈(2 : ℝ) ^ ((n : ℝ) / 2)⌉₊ ≤ (nextRange n)^[i] 1 ∧
    (nextRange n)^[i] 1 ≤ ⌈(2 : ℝ) ^ ((n : ℝ) / 2)⌉₊ := by
  have h1 := ceil_half n
  induction i with
  | zero => simpa using h1
  | succ i ih =>
    rw [Function.iterate_succ_apply']
    refine ⟨?_, nextRange_le _ _⟩
    rcases eq_or_lt_of_le ih.2 with h | h
    · rw [h, nextRange_top]
      exact min_le_right _ _
    · have := nextRange_grows (by omega) h
      omega

/-- **C81** (range): after `⌈2^(n/2)⌉ - 1` measurements without improvement the range of the rotations is `⌈2^(n/2)⌉`, and
it stays there. -/
theorem C81_range (n i : Nat) (h : ⌈(2 : ℝ) ^ ((n : ℝ) / 2)⌉₊ ≤ i + 1) :
    (nextRange n)^[i] 1 = ⌈(2 : ℝ) ^ ((n : ℝ) / 2)⌉₊ := by
  have := range_bounds n i
  omega

theorem ceil_root {n c : Nat} (h1 : (c : ℝ) ^ 2 < 2 ^ n) (h2 : (2 : ℝ) ^ n ≤ ((c : ℝ) + 1) ^ 2) :
    ⌈(2 : ℝ) ^ ((n : ℝ) / 2)⌉₊ = c + 1 := by
  rw [← rpow_half_sq n] at h1 h2
  rw [Nat.ceil_eq_iff (by omega)]
  have h0 := rpow_half_pos n
  constructor
  · simp only [Nat.add_sub_cancel]
    exact lt_of_pow_lt_pow_left₀ 2 h0.le h1
  · push_cast
    exact (pow_le_pow_iff_left₀ h0.le (by positivity) two_ne_zero).mp h2

/-! ## The measurements -/

/-- The number of keys with a negative value. -/
def below (nKey : Nat) (o : Objective) : Nat := ((range (2 ^ nKey)).filter fun k => o.val (pt (keyPt nKey k)) < 0).card

theorem improve_eq {nKey nValue : Nat} (hv : 0 < nValue) {o : Objective} {form : Unitary (nKey + nValue + 1)}
    (hF : FormSpec nKey nValue o form) (hr : Representable nKey nValue o) :
    improveProb nKey nValue o form 1 = (below nKey o : ℝ) / (2 ^ nKey : Nat) ∧
    ∀ m, 2 ≤ m → improveProb nKey nValue o form m = averageProb ((below nKey o : ℝ) / (2 ^ nKey : Nat)) (m - 1) := by
  have hM : (below nKey o : ℝ) / (2 ^ nKey : Nat) ≤ 1 := by
    rw [div_le_one (by positivity)]
    exact_mod_cast (Finset.card_filter_le _ _).trans (by simp)
  constructor
  · unfold improveProb
    simp only [C75_probability hv hF hr]
    rw [integral_draw_one fun r => Real.sin ((2 * (r : ℝ) + 1) * Real.arcsin (Real.sqrt
        (((range (2 ^ nKey)).filter fun k => o.val (pt (keyPt nKey k)) < 0).card / (2 ^ nKey : Nat)))) ^ 2]
    change Real.sin ((2 * ((0 : Nat) : ℝ) + 1) * Real.arcsin (Real.sqrt ((below nKey o : ℝ) / (2 ^ nKey : Nat)))) ^ 2 = _
    rw [Nat.cast_zero, mul_zero, zero_add, one_mul, sin_arcsin_sqrt (by positivity) hM, Real.sq_sqrt (by positivity)]
  · intro m hm
    unfold improveProb
    simp only [C75_probability hv hF hr]
    rw [integral_draw (fun r => Real.sin ((2 * (r : ℝ) + 1) * Real.arcsin (Real.sqrt
        (((range (2 ^ nKey)).filter fun k => o.val (pt (keyPt nKey k)) < 0).card / (2 ^ nKey : Nat)))) ^ 2) hm]
    unfold averageProb below
    congr 1
    push_cast [Nat.cast_sub (by omega : 1 ≤ m)]
    ring

theorem average_range {n M : Nat} (hn : 1 ≤ n) (h1 : 1 ≤ M) (h2 : M < 2 ^ n) :
    (2 * M ≤ 2 ^ n → 1 / 4 ≤ averageProb ((M : ℝ) / (2 ^ n : Nat)) (⌈(2 : ℝ) ^ ((n : ℝ) / 2)⌉₊ - 1)) ∧
      (¬ (n = 2 ∧ M = 3) → 1 / 8 ≤ averageProb ((M : ℝ) / (2 ^ n : Nat)) (⌈(2 : ℝ) ^ ((n : ℝ) / 2)⌉₊ - 1)) := by
  have hp0 : 0 ≤ (M : ℝ) / (2 ^ n : Nat) := by positivity
  have hp1 : (M : ℝ) / (2 ^ n : Nat) ≤ 1 := by
    rw [div_le_one (by positivity)]
    exact_mod_cast h2.le
  obtain ⟨a1, a2, a3⟩ := average_small hp0 hp1
  by_cases h5 : 5 ≤ n
  · have hK : (2 : ℝ) ^ ((n : ℝ) / 2) ≤ ((⌈(2 : ℝ) ^ ((n : ℝ) / 2)⌉₊ - 1 : Nat) : ℝ) + 1 := by
      have h := Nat.le_ceil ((2 : ℝ) ^ ((n : ℝ) / 2))
      have := ceil_half n
      have e : ((⌈(2 : ℝ) ^ ((n : ℝ) / 2)⌉₊ - 1 : Nat) : ℝ) + 1 = ⌈(2 : ℝ) ^ ((n : ℝ) / 2)⌉₊ := by
        rw [Nat.cast_sub this]; push_cast; ring
      rw [e]
      exact h
    obtain ⟨b1, b2⟩ := average_large h1 h2 hK (by omega)
    exact ⟨b1, fun _ => b2 h5⟩
  · have hcases : n = 1 ∨ n = 2 ∨ n = 3 ∨ n = 4 := by omega
    rcases hcases with rfl | rfl | rfl | rfl
    · rw [ceil_root (c := 1) (by norm_num) (by norm_num), Nat.add_sub_cancel, a1]
      interval_cases M <;> norm_num
    · rw [ceil_root (c := 1) (by norm_num) (by norm_num), Nat.add_sub_cancel, a1]
      interval_cases M <;> norm_num
    · rw [ceil_root (c := 2) (by norm_num) (by norm_num), Nat.add_sub_cancel, a2]
      interval_cases M <;> norm_num
    · rw [ceil_root (c := 3) (by norm_num) (by norm_num), Nat.add_sub_cancel, a3]
      interval_cases M <;> norm_num

theorem ceil_two_le {n : Nat} (hn : 1 ≤ n) : 2 ≤ ⌈(2 : ℝ) ^ ((n : ℝ) / 2)⌉₊ := by
  rw [show (2 : Nat) = 1 + 1 from rfl, Nat.add_one_le_iff, Nat.lt_ceil, Nat.cast_one]
  exact Real.one_lt_rpow (by norm_num) (by have : (1 : ℝ) ≤ n := by exact_mod_cast hn
                                           linarith)

theorem improve_bounds {nKey nValue : Nat} (hv : 0 < nValue) {o : Objective} {form : Unitary (nKey + nValue + 1)}
    (hF : FormSpec nKey nValue o form) (hr : Representable nKey nValue o) {m : Nat} (hm : 1 ≤ m) :
    0 ≤ improveProb nKey nValue o form m ∧ improveProb nKey nValue o form m ≤ 1 := by
  obtain ⟨h1, h2⟩ := improve_eq hv hF hr
  rcases eq_or_lt_of_le hm with rfl | h
  · rw [h1]
    refine ⟨by positivity, ?_⟩
    rw [div_le_one (by positivity)]
    exact_mod_cast (Finset.card_filter_le _ _).trans (by simp)
  · rw [h2 m h]
    unfold averageProb
    have hK : (0 : ℝ) < (m - 1 : Nat) := by exact_mod_cast (by omega : 0 < m - 1)
    refine ⟨by positivity, ?_⟩
    rw [div_le_one hK]
    calc _ ≤ ∑ r ∈ range (m - 1), (1 : ℝ) := Finset.sum_le_sum fun r _ => Real.sin_sq_le_one _
      _ = _ := by simp

/-- **C81** (one measurement), partial: let `M` of the `2^n` keys be below the threshold, at least one and not all of them.
When the range of the rotations is `⌈2^(n/2)⌉`, one measurement shows a key below the threshold with probability at least
1/8, and at least 1/4 if at most half of the keys are below the threshold.  Full statement: for every such `M` and `n`.
Missing: three of four keys, where the probability is 0 (`C81_violated`). -/
theorem C81_improve_partial {nKey nValue : Nat} (hk : 1 ≤ nKey) (hv : 0 < nValue) {o : Objective}
    {form : Unitary (nKey + nValue + 1)} (hF : FormSpec nKey nValue o form) (hr : Representable nKey nValue o)
    (h1 : 1 ≤ below nKey o) (h2 : below nKey o < 2 ^ nKey) (h3 : ¬ (nKey = 2 ∧ below nKey o = 3)) :
    1 / 8 ≤ improveProb nKey nValue o form ⌈(2 : ℝ) ^ ((nKey : ℝ) / 2)⌉₊ ∧
      (2 * below nKey o ≤ 2 ^ nKey → 1 / 4 ≤ improveProb nKey nValue o form ⌈(2 : ℝ) ^ ((nKey : ℝ) / 2)⌉₊) := by
  rw [(improve_eq hv hF hr).2 _ (ceil_two_le hk)]
  obtain ⟨a, b⟩ := average_range hk h1 h2
  exact ⟨b h3, a⟩

theorem miss_top {nKey nValue : Nat} (hv : 0 < nValue) {o : Objective} {form : Unitary (nKey + nValue + 1)}
    (hF : FormSpec nKey nValue o form) (hr : Representable nKey nValue o) {q : ℝ} (hq : 0 ≤ q)
    (hi : 1 - q ≤ improveProb nKey nValue o form ⌈(2 : ℝ) ^ ((nKey : ℝ) / 2)⌉₊) (l : Nat) :
    missProb nKey nValue o form l ⌈(2 : ℝ) ^ ((nKey : ℝ) / 2)⌉₊ ≤ q ^ l ∧
      0 ≤ missProb nKey nValue o form l ⌈(2 : ℝ) ^ ((nKey : ℝ) / 2)⌉₊ := by
  have hb := improve_bounds hv hF hr (ceil_half nKey)
  induction l with
  | zero => simp [missProb]
  | succ l ih =>
    rw [missProb, nextRange_top, pow_succ']
    exact ⟨mul_le_mul (by linarith) ih.1 ih.2 hq, mul_nonneg (by linarith) ih.2⟩

theorem miss_iterate {nKey nValue : Nat} (hv : 0 < nValue) {o : Objective} {form : Unitary (nKey + nValue + 1)}
    (hF : FormSpec nKey nValue o form) (hr : Representable nKey nValue o) (i l : Nat) {m : Nat} (hm : 1 ≤ m)
    (hn : 0 ≤ missProb nKey nValue o form l ((nextRange nKey)^[i] m)) :
    missProb nKey nValue o form (i + l) m ≤ missProb nKey nValue o form l ((nextRange nKey)^[i] m) ∧
      0 ≤ missProb nKey nValue o form (i + l) m := by
  induction i generalizing m with
  | zero => simpa using hn
  | succ i ih =>
    have hm' : 1 ≤ nextRange nKey m := by
      unfold nextRange
      rw [Nat.one_le_ceil_iff]
      have : (1 : ℝ) ≤ m := by exact_mod_cast hm
      exact lt_min (by linarith) (rpow_half_pos nKey)
    have hb := improve_bounds hv hF hr hm
    rw [Function.iterate_succ_apply] at hn ⊢
    obtain ⟨a, b⟩ := ih hm' hn
    rw [show i + 1 + l = (i + l) + 1 by omega, missProb]
    exact ⟨(mul_le_of_le_one_left b (by linarith)).trans a, mul_nonneg (by linarith) b⟩

/-- **C81** (search), partial: under the same conditions the probability that `l + ⌈2^(n/2)⌉ - 1` measurements in a row
show no key below the threshold is at most `(7/8)^l`, and at most `(3/4)^l` if at most half of the keys are below the
threshold.  Full statement: for every number of keys below the threshold but none.  Missing: three of four keys, where the
probability never falls below 1/4 (`C81_violated`). -/
theorem C81_search_partial {nKey nValue : Nat} (hk : 1 ≤ nKey) (hv : 0 < nValue) {o : Objective}
    {form : Unitary (nKey + nValue + 1)} (hF : FormSpec nKey nValue o form) (hr : Representable nKey nValue o)
    (h1 : 1 ≤ below nKey o) (h2 : below nKey o < 2 ^ nKey) (h3 : ¬ (nKey = 2 ∧ below nKey o = 3)) (l : Nat) :
    missProb nKey nValue o form (⌈(2 : ℝ) ^ ((nKey : ℝ) / 2)⌉₊ - 1 + l) 1 ≤ (7 / 8) ^ l ∧
      (2 * below nKey o ≤ 2 ^ nKey →
        missProb nKey nValue o form (⌈(2 : ℝ) ^ ((nKey : ℝ) / 2)⌉₊ - 1 + l) 1 ≤ (3 / 4) ^ l) := by
  obtain ⟨a, b⟩ := C81_improve_partial hk hv hF hr h1 h2 h3
  have hi := C81_range nKey (⌈(2 : ℝ) ^ ((nKey : ℝ) / 2)⌉₊ - 1) (by omega)
  obtain ⟨c, d⟩ := miss_top hv hF hr (q := 7 / 8) (by norm_num) (by linarith) l
  have e := (miss_iterate hv hF hr _ l le_rfl (by rw [hi]; exact d)).1
  rw [hi] at e
  refine ⟨e.trans c, fun hM => e.trans ?_⟩
  exact (miss_top hv hF hr (q := 3 / 4) (by norm_num) (by linarith [b hM]) l).1

/-- **C81** (all keys): if every key is below the threshold, the first measurement shows one. -/
theorem C81_all {nKey nValue : Nat} (hv : 0 < nValue) {o : Objective}
    {form : Unitary (nKey + nValue + 1)} (hF : FormSpec nKey nValue o form) (hr : Representable nKey nValue o)
    (h : below nKey o = 2 ^ nKey) : improveProb nKey nValue o form 1 = 1 := by
  rw [(improve_eq hv hF hr).1, h, div_self (by positivity)]

/-- Minimize `x y` with binary `x` and `y`. -/
def drawQP : QP := (runCalls (QP.empty "") [.addVars (.count 2) 0 1 .binary (some "x") (.hole "" ""),
  .objective .minimize 0 (.dict []) (.dict [((.name "x0", .name "x1"), 1)])]).2

/-- Its objective after the key `11` has been measured: minus the threshold 1. -/
def drawObj : Objective := { groverObjective drawQP.objective with constant := -1 }

theorem drawObj_representable : Representable 2 3 drawObj := by
  have h : ∀ k < 2 ^ 2, drawObj.val (pt (keyPt 2 k)) = ((if k = 3 then 0 else -1 : Int) : ℚ) := by decide +kernel
  intro k hk
  refine ⟨_, h k hk, ?_⟩
  split <;> norm_num

theorem drawObj_below : below 2 drawObj = 3 := by decide +kernel

/-- **C81** is violated: minimize `x y`, and let `11` be the first key that is measured, with the value 1.  Three of the four
keys are better, but no number of measurements finds one of them with a probability above 3/4: after a first measurement
without improvement exactly one rotation is made each time, and it turns the state away from all the better keys. -/
theorem C81_violated : (∀ x ∈ [[0, 0], [0, 1], [1, 0]], drawQP.objective.val (pt x) < drawQP.objective.val (pt [1, 1])) ∧
    FormSpec 2 3 drawObj (writeForm 2 3 drawObj) ∧ Representable 2 3 drawObj ∧
    ∀ l, missProb 2 3 drawObj (writeForm 2 3 drawObj) (l + 1) 1 = 1 / 4 := by
  refine ⟨by decide +kernel, writeForm_spec _ _ _, drawObj_representable, fun l => ?_⟩
  obtain ⟨h1, h2⟩ := improve_eq (by norm_num) (writeForm_spec 2 3 drawObj) drawObj_representable
  rw [drawObj_below] at h1 h2
  have hc : ⌈(2 : ℝ) ^ (((2 : Nat) : ℝ) / 2)⌉₊ = 2 := ceil_root (c := 1) (by norm_num) (by norm_num)
  have hnext : nextRange 2 1 = 2 := by
    have := C81_range 2 1 (by rw [hc])
    rwa [hc] at this
  have htop : nextRange 2 2 = 2 := by
    have := nextRange_top 2
    rwa [hc] at this
  have h0 : improveProb 2 3 drawObj (writeForm 2 3 drawObj) 2 = 0 := by
    rw [h2 2 le_rfl, (average_small (by positivity) (by norm_num)).1]
    norm_num
  have hone : ∀ l, missProb 2 3 drawObj (writeForm 2 3 drawObj) l 2 = 1 := by
    intro l
    induction l with
    | zero => rfl
    | succ l ih => rw [missProb, h0, htop, ih]; norm_num
  rw [missProb, h1, hnext, hone]
  norm_num

/-- `x + 2 y - x y - 1`: one of the four keys has a negative value, so the bounds of `C81_search_partial` apply. -/
def drawObj1 : Objective := groverObjective (runCalls (QP.empty "") [
  .addVars (.count 2) 0 1 .binary (some "x") (.hole "" ""), .objective .minimize (-1)
    (.dict [(.name "x0", 1), (.name "x1", 2)]) (.dict [((.name "x0", .name "x1"), -1)])]).2.objective

example : FormSpec 2 3 drawObj1 (writeForm 2 3 drawObj1) ∧ Representable 2 3 drawObj1 ∧ below 2 drawObj1 = 1 := by
  refine ⟨writeForm_spec _ _ _, ?_, by decide +kernel⟩
  have h : ∀ k < 2 ^ 2, drawObj1.val (pt (keyPt 2 k)) = (([-1, 1, 0, 1].getD k 0 : Int) : ℚ) := by decide +kernel
  intro k hk
  refine ⟨_, h k hk, ?_⟩
  interval_cases k <;> simp

/-- An objective below the threshold everywhere. -/
example : FormSpec 2 3 { drawObj with constant := -2 } (writeForm 2 3 { drawObj with constant := -2 }) ∧
    Representable 2 3 { drawObj with constant := -2 } ∧ below 2 { drawObj with constant := -2 } = 2 ^ 2 := by
  refine ⟨writeForm_spec _ _ _, ?_, by decide +kernel⟩
  have h : ∀ k < 2 ^ 2, ({ drawObj with constant := -2 } : Objective).val (pt (keyPt 2 k)) =
      ((if k = 3 then -1 else -2 : Int) : ℚ) := by decide +kernel
  intro k hk
  refine ⟨_, h k hk, ?_⟩
  split <;> norm_num

end Verif

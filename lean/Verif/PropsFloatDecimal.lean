import Verif.PropsFloat

/-!
# Rounding, and constraints with decimal data (C99)
-/

namespace Verif

/-- A rounding exists. -/
theorem exists_rounding : ∃ fl, IsRounding fl := by
  refine ⟨fun q => if q = 0 then 0 else
    (round ((q : ℝ) / (2 : ℝ) ^ (Int.log 2 |(q : ℝ)| - 52)) : ℚ) * (2 : ℚ) ^ (Int.log 2 |(q : ℝ)| - 52), fun q => ?_⟩
  unfold NearestDouble
  by_cases h0 : q = 0
  · subst h0; simp
  · have h0' : (q : ℝ) ≠ 0 := by exact_mod_cast h0
    rw [if_neg h0']
    refine ⟨round ((q : ℝ) / (2 : ℝ) ^ (Int.log 2 |(q : ℝ)| - 52)), ?_, ?_⟩
    · simp only [h0, if_false]; push_cast; rfl
    · simp only [h0, if_false]
      push_cast
      generalize Int.log 2 |(q : ℝ)| = L
      have hu : (0 : ℝ) < (2 : ℝ) ^ (L - 52) := by positivity
      have h1 := abs_sub_round ((q : ℝ) / (2 : ℝ) ^ (L - 52))
      have h2 : (q : ℝ) - (round ((q : ℝ) / (2 : ℝ) ^ (L - 52)) : ℝ) * (2 : ℝ) ^ (L - 52) =
          ((q : ℝ) / (2 : ℝ) ^ (L - 52) - round ((q : ℝ) / (2 : ℝ) ^ (L - 52))) * (2 : ℝ) ^ (L - 52) := by
        field_simp
      rw [h2, abs_mul, abs_of_pos hu, show L - 53 = -1 + (L - 52) by ring, zpow_add₀ (by norm_num)]
      refine mul_le_mul_of_nonneg_right (h1.trans (by norm_num)) hu.le

/-- The rounded value of a number, if there is no tie. -/
theorem fl_value {fl : ℚ → ℚ} (h : IsRounding fl) {q : ℚ} (L m : ℤ) (h1 : (2 : ℚ) ^ L ≤ q) (h2 : q < (2 : ℚ) ^ (L + 1))
    (hm : |q - m * (2 : ℚ) ^ (L - 52)| < (2 : ℚ) ^ (L - 53)) : fl q = m * (2 : ℚ) ^ (L - 52) := by
  have hq : 0 < q := lt_of_lt_of_le (by positivity) h1
  have hn := h q
  unfold NearestDouble at hn
  have hqr : (0 : ℝ) < q := by exact_mod_cast hq
  rw [if_neg hqr.ne'] at hn
  have hz : ∀ e : ℤ, (((2 : ℚ) ^ e : ℚ) : ℝ) = (2 : ℝ) ^ e := fun e => by push_cast; rfl
  have h1r : (2 : ℝ) ^ L ≤ q := by rw [← hz]; exact Rat.cast_le.mpr h1
  have h2r : (q : ℝ) < (2 : ℝ) ^ (L + 1) := by rw [← hz]; exact Rat.cast_lt.mpr h2
  have hlog : Int.log 2 |(q : ℝ)| = L := by
    rw [abs_of_pos hqr]
    apply le_antisymm
    · have : Int.log 2 (q : ℝ) < L + 1 := by
        have := (Int.lt_zpow_iff_log_lt (b := 2) (by norm_num) (x := L + 1) hqr).mp (by simpa using h2r)
        exact this
      omega
    · exact (Int.zpow_le_iff_le_log (b := 2) (by norm_num) hqr).mp (by simpa using h1r)
  rw [hlog] at hn
  obtain ⟨m', hy, hd⟩ := hn
  have hu : (0 : ℝ) < (2 : ℝ) ^ (L - 52) := by positivity
  have hmr : |(q : ℝ) - m * (2 : ℝ) ^ (L - 52)| < (2 : ℝ) ^ (L - 53) := by
    have := Rat.cast_lt (K := ℝ).mpr hm
    push_cast at this
    exact this
  have hhalf : (2 : ℝ) ^ (L - 53) = (2 : ℝ) ^ (L - 52) / 2 := by
    rw [show L - 53 = (L - 52) + (-1) by ring, zpow_add₀ (by norm_num)]; norm_num; ring
  have hlt : |((m - m' : ℤ) : ℝ)| * (2 : ℝ) ^ (L - 52) < 1 * (2 : ℝ) ^ (L - 52) := by
    rw [← abs_of_pos hu, ← abs_mul, abs_of_pos hu]
    have : ((m - m' : ℤ) : ℝ) * (2 : ℝ) ^ (L - 52) = (q - (fl q : ℝ)) - (q - m * (2 : ℝ) ^ (L - 52)) := by
      rw [hy]; push_cast; ring
    rw [this]
    refine lt_of_le_of_lt (abs_sub _ _) ?_
    rw [hhalf] at hd hmr
    linarith
  have := lt_of_mul_lt_mul_right hlt hu.le
  have hz : |m - m'| < 1 := by exact_mod_cast this
  have := Int.abs_lt_one_iff.mp hz
  have hmm : m' = m := by omega
  rw [hmm] at hy
  apply Rat.cast_injective (α := ℝ)
  rw [hy]
  push_cast
  rfl

theorem flSum_single {fl : ℚ → ℚ} {a r : ℚ} (h : FlSum fl [a] r) : r = a := by
  generalize hl : [a] = l at h
  cases h with
  | nil => simp at hl
  | single b => simpa using hl.symm
  | @add l m n a b h1 h2 hl1 hm1 hp =>
    subst hl
    have := hp.length_eq
    have h1 := List.length_pos_iff.mpr hl1
    have h2 := List.length_pos_iff.mpr hm1
    simp at this
    omega

theorem flSum_pair {fl : ℚ → ℚ} {a b r : ℚ} (h : FlSum fl [a, b] r) : r = fl (a + b) := by
  generalize hl : [a, b] = l at h
  cases h with
  | nil => simp at hl
  | single b => simp at hl
  | @add l m n a' b' h1 h2 hl1 hm1 hp =>
    subst hl
    have hlen := hp.length_eq
    have p1 := List.length_pos_iff.mpr hl1
    have p2 := List.length_pos_iff.mpr hm1
    simp at hlen
    obtain ⟨u, rfl⟩ := List.length_eq_one_iff.mp (show l.length = 1 by omega)
    obtain ⟨v, rfl⟩ := List.length_eq_one_iff.mp (show m.length = 1 by omega)
    rw [flSum_single h1, flSum_single h2]
    have := hp.sum_eq
    simp at this
    rw [this]

/-- **C99 is violated** (inequalities): the constraint `0.1 x <= 0.7` is reported as violated at `x = 7`, for every rounding. -/
theorem C99_violated {fl : ℚ → ℚ} (h : IsRounding fl) :
    Sense.rel .le (1 / 10 * 7 : ℚ) (7 / 10) ∧
    ∀ r, (LinExpr.mk 1 [(0, fl (1 / 10))]).FlVal fl (pt [7]) r → ¬ Sense.flHolds fl .le r (fl (7 / 10)) := by
  have e1 : fl (1 / 10) = 7205759403792794 / 2 ^ 56 := by
    rw [fl_value h (-4) 7205759403792794 (by norm_num) (by norm_num) (by norm_num [abs_lt])]; norm_num
  have e2 : fl (7 / 10) = 6305039478318694 / 2 ^ 53 := by
    rw [fl_value h (-1) 6305039478318694 (by norm_num) (by norm_num) (by norm_num [abs_lt])]; norm_num
  have e3 : fl (7205759403792794 / 2 ^ 56 * 7) = 6305039478318695 / 2 ^ 53 := by
    rw [fl_value h (-1) 6305039478318695 (by norm_num) (by norm_num) (by norm_num [abs_lt])]; norm_num
  refine ⟨by norm_num [Sense.rel], fun r hr => ?_⟩
  have := flSum_single hr
  simp only [pt, List.getD_cons_zero, e1] at this
  rw [this, e3, e2]
  norm_num [Sense.flHolds]

/-- **C99 is violated** (equalities with right-hand side 0): the constraint `0.1 x - 0.7 y = 0` is reported as violated at
`(7, 1)`, for every rounding: the relative tolerance of `isclose` is of no use at 0. -/
theorem C99_violated_zero {fl : ℚ → ℚ} (h : IsRounding fl) :
    Sense.rel .eq (1 / 10 * 7 + -(7 / 10) * 1 : ℚ) 0 ∧
    ∀ r, (LinExpr.mk 2 [(0, fl (1 / 10)), (1, -fl (7 / 10))]).FlVal fl (pt [7, 1]) r → ¬ Sense.flHolds fl .eq r 0 := by
  have e1 : fl (1 / 10) = 7205759403792794 / 2 ^ 56 := by
    rw [fl_value h (-4) 7205759403792794 (by norm_num) (by norm_num) (by norm_num [abs_lt])]; norm_num
  have e2 : fl (7 / 10) = 6305039478318694 / 2 ^ 53 := by
    rw [fl_value h (-1) 6305039478318694 (by norm_num) (by norm_num) (by norm_num [abs_lt])]; norm_num
  have e3 : fl (7205759403792794 / 2 ^ 56 * 7) = 6305039478318695 / 2 ^ 53 := by
    rw [fl_value h (-1) 6305039478318695 (by norm_num) (by norm_num) (by norm_num [abs_lt])]; norm_num
  have e4 : fl (-(6305039478318694 / 2 ^ 53) * 1) = -(6305039478318694 / 2 ^ 53) := by
    have := fl_exact h (-6305039478318694) 53 (by norm_num)
    push_cast at this
    rw [neg_div] at this
    rw [mul_one]
    exact this
  have e5 : fl (6305039478318695 / 2 ^ 53 + -(6305039478318694 / 2 ^ 53)) = 1 / 2 ^ 53 := by
    have := fl_exact h 1 53 (by norm_num)
    push_cast at this
    rw [← this]
    congr 1
    norm_num
  refine ⟨by norm_num [Sense.rel], fun r hr => ?_⟩
  have hr := flSum_pair hr
  simp only [pt, List.getD_cons_zero, List.getD_cons_succ, e1, e2, e3, e4, e5] at hr
  subst hr
  have e6 : fl (0 - 1 / 2 ^ 53) = -(1 / 2 ^ 53) := by
    have := fl_exact h (-1) 53 (by norm_num)
    push_cast at this
    rw [zero_sub]
    rw [neg_div] at this
    exact this
  have e7 : fl 0 = 0 := by simpa using fl_exact h 0 0 (by norm_num)
  intro hf
  rcases hf with hf | hf | hf
  · norm_num at hf
  · rw [e6, mul_zero, e7] at hf
    norm_num at hf
  · rw [e6] at hf
    have h1 := fl_abs_le h (fl (1 / 10 ^ 9) * (1 / 2 ^ 53))
    have h2 := fl_abs_le h (1 / 10 ^ 9)
    rw [abs_mul] at h1
    rw [abs_of_pos (show (0 : ℚ) < 1 / 10 ^ 9 by norm_num)] at h2
    rw [abs_neg] at hf
    rw [abs_of_pos (show (0 : ℚ) < 1 / 2 ^ 53 by norm_num)] at h1 hf
    have h3 : |fl (1 / 10 ^ 9)| * (1 / 2 ^ 53) ≤ 2 * (1 / 10 ^ 9) * (1 / 2 ^ 53) := mul_le_mul_of_nonneg_right h2 (by norm_num)
    have h4 : 2 * (2 * (1 / 10 ^ 9) * (1 / 2 ^ 53)) < (1 / 2 ^ 53 : ℚ) := by norm_num
    linarith

theorem fl_near {fl : ℚ → ℚ} (h : IsRounding fl) {q : ℚ} (hq : 0 ≤ q) :
    q * (1 - 1 / 2 ^ 53) ≤ fl q ∧ fl q ≤ q * (1 + 1 / 2 ^ 53) := by
  have := abs_le.mp (fl_err h q)
  rw [abs_of_nonneg hq] at this
  constructor <;> nlinarith [this.1, this.2]

theorem flSum_near_aux {fl : ℚ → ℚ} {u : ℚ} (hu0 : 0 ≤ u) (hu1 : u ≤ 1)
    (hfl : ∀ q, 0 ≤ q → q * (1 - u) ≤ fl q ∧ fl q ≤ q * (1 + u)) {l : List ℚ} {s : ℚ} (hs : FlSum fl l s)
    (hl : ∀ v ∈ l, 0 ≤ v) : l.sum * (1 - u) ^ l.length ≤ s ∧ s ≤ l.sum * (1 + u) ^ l.length := by
  induction hs with
  | nil => simp
  | single a =>
    have := hl a (by simp)
    simp only [List.sum_singleton, List.length_singleton, pow_one]
    constructor <;> nlinarith
  | @add l m n a b h1 h2 hl1 hm1 hp ih1 ih2 =>
    have p1 := List.length_pos_iff.mpr hl1
    have p2 := List.length_pos_iff.mpr hm1
    have gl : ∀ v ∈ l, 0 ≤ v := fun v hv => hl v (hp.mem_iff.mpr (by simp [hv]))
    have gm : ∀ v ∈ m, 0 ≤ v := fun v hv => hl v (hp.mem_iff.mpr (by simp [hv]))
    obtain ⟨a1, a2⟩ := ih1 gl
    obtain ⟨b1, b2⟩ := ih2 gm
    have sl : 0 ≤ l.sum := List.sum_nonneg gl
    have sm : 0 ≤ m.sum := List.sum_nonneg gm
    have hn : n.sum = l.sum + m.sum := by rw [hp.sum_eq, List.sum_append]
    have hlen : n.length = l.length + m.length := by rw [hp.length_eq, List.length_append]
    have w0 : (0 : ℚ) ≤ 1 - u := by linarith
    have w1 : 1 - u ≤ 1 := by linarith
    have v1 : 1 ≤ 1 + u := by linarith
    obtain ⟨k, hk⟩ : ∃ k, n.length = k + 1 := ⟨n.length - 1, by omega⟩
    have c1 : (1 - u) ^ k ≤ (1 - u) ^ l.length := pow_le_pow_of_le_one w0 w1 (by omega)
    have c2 : (1 - u) ^ k ≤ (1 - u) ^ m.length := pow_le_pow_of_le_one w0 w1 (by omega)
    have d1 : (1 + u) ^ l.length ≤ (1 + u) ^ k := pow_le_pow_right₀ v1 (by omega)
    have d2 : (1 + u) ^ m.length ≤ (1 + u) ^ k := pow_le_pow_right₀ v1 (by omega)
    have lo : n.sum * (1 - u) ^ k ≤ a + b := by
      rw [hn, add_mul]
      exact add_le_add ((mul_le_mul_of_nonneg_left c1 sl).trans a1) ((mul_le_mul_of_nonneg_left c2 sm).trans b1)
    have hi : a + b ≤ n.sum * (1 + u) ^ k := by
      rw [hn, add_mul]
      exact add_le_add (a2.trans (mul_le_mul_of_nonneg_left d1 sl)) (b2.trans (mul_le_mul_of_nonneg_left d2 sm))
    have hab : 0 ≤ a + b := (mul_nonneg (by rw [hn]; linarith) (pow_nonneg w0 _)).trans lo
    obtain ⟨f1, f2⟩ := hfl (a + b) hab
    rw [hk, pow_succ, pow_succ, ← mul_assoc, ← mul_assoc]
    exact ⟨(mul_le_mul_of_nonneg_right lo w0).trans f1, f2.trans (mul_le_mul_of_nonneg_right hi (by linarith))⟩

theorem term_near {fl : ℚ → ℚ} {u : ℚ} (hu0 : 0 ≤ u) (hu1 : u ≤ 1)
    (hfl : ∀ q, 0 ≤ q → q * (1 - u) ≤ fl q ∧ fl q ≤ q * (1 + u)) {c x : ℚ} (hc : 0 ≤ c) (hx : 0 ≤ x) :
    c * x * (1 - u) ^ 3 ≤ fl (fl c * fl x) ∧ fl (fl c * fl x) ≤ c * x * (1 + u) ^ 3 := by
  obtain ⟨c1, c2⟩ := hfl c hc
  obtain ⟨x1, x2⟩ := hfl x hx
  have w0 : (0 : ℚ) ≤ 1 - u := by linarith
  have c0 : 0 ≤ fl c := (mul_nonneg hc w0).trans c1
  have x0 : 0 ≤ fl x := (mul_nonneg hx w0).trans x1
  obtain ⟨p1, p2⟩ := hfl _ (mul_nonneg c0 x0)
  have lo : c * (1 - u) * (x * (1 - u)) ≤ fl c * fl x := mul_le_mul c1 x1 (mul_nonneg hx w0) c0
  have hi : fl c * fl x ≤ c * (1 + u) * (x * (1 + u)) := mul_le_mul c2 x2 x0 (mul_nonneg hc (by linarith))
  constructor
  · refine le_trans (le_of_eq ?_) ((mul_le_mul_of_nonneg_right lo w0).trans p1)
    ring
  · refine (p2.trans (mul_le_mul_of_nonneg_right hi (by linarith : (0 : ℚ) ≤ 1 + u))).trans (le_of_eq ?_)
    ring

/-- Bounds of the computed left-hand side, for nonnegative data. -/
theorem lin_near {fl : ℚ → ℚ} {u : ℚ} (hu0 : 0 ≤ u) (hu1 : u ≤ 1)
    (hfl : ∀ q, 0 ≤ q → q * (1 - u) ≤ fl q ∧ fl q ≤ q * (1 + u)) (n : Nat) (d : Dict Nat) (hd : ∀ p ∈ d, 0 ≤ p.2)
    (x : Nat → ℚ) (hx : ∀ i, 0 ≤ x i) (r : ℚ)
    (hr : (LinExpr.mk n (d.map fun p => (p.1, fl p.2))).FlVal fl (fun i => fl (x i)) r) :
    Dict.sum d x * (1 - u) ^ (d.length + 3) ≤ r ∧ r ≤ Dict.sum d x * (1 + u) ^ (d.length + 3) := by
  unfold LinExpr.FlVal at hr
  rw [List.map_map] at hr
  have w0 : (0 : ℚ) ≤ 1 - u := by linarith
  have ht : ∀ p ∈ d, p.2 * x p.1 * (1 - u) ^ 3 ≤ fl (fl p.2 * fl (x p.1)) ∧
      fl (fl p.2 * fl (x p.1)) ≤ p.2 * x p.1 * (1 + u) ^ 3 := fun p hp => term_near hu0 hu1 hfl (hd p hp) (hx _)
  obtain ⟨h1, h2⟩ := flSum_near_aux hu0 hu1 hfl hr (by
    intro v hv
    obtain ⟨p, hp, rfl⟩ := List.mem_map.mp hv
    exact (mul_nonneg (mul_nonneg (hd p hp) (hx _)) (pow_nonneg w0 _)).trans (ht p hp).1)
  rw [List.length_map] at h1 h2
  have lo : Dict.sum d x * (1 - u) ^ 3 ≤ (d.map ((fun p => fl (p.2 * fl (x p.1))) ∘ fun p => (p.1, fl p.2))).sum := by
    rw [Dict.sum, ← List.sum_map_mul_right]
    exact List.sum_le_sum fun p hp => (ht p hp).1
  have hi : (d.map ((fun p => fl (p.2 * fl (x p.1))) ∘ fun p => (p.1, fl p.2))).sum ≤ Dict.sum d x * (1 + u) ^ 3 := by
    rw [Dict.sum, ← List.sum_map_mul_right]
    exact List.sum_le_sum fun p hp => (ht p hp).2
  rw [add_comm, pow_add, pow_add, ← mul_assoc, ← mul_assoc]
  exact ⟨(mul_le_mul_of_nonneg_right lo (pow_nonneg w0 _)).trans h1,
    h2.trans (mul_le_mul_of_nonneg_right hi (pow_nonneg (by linarith) _))⟩

theorem pow_bounds {u e : ℚ} {K k : ℕ} (hk : k ≤ K) (hu0 : 0 ≤ u) (hu1 : u ≤ 1) (hK : K * u ≤ 1 / 2) (he : 2 * (K * u) ≤ e) :
    1 - e ≤ (1 - u) ^ k ∧ (1 + u) ^ k ≤ 1 + e := by
  have hku : (k : ℚ) * u ≤ K * u := mul_le_mul_of_nonneg_right (by exact_mod_cast hk) hu0
  have hk0 : 0 ≤ (k : ℚ) * u := by positivity
  have lo : 1 - k * u ≤ (1 - u) ^ k := by
    have := one_add_mul_le_pow (a := -u) (by linarith) k
    calc 1 - k * u = 1 + k * -u := by ring
      _ ≤ (1 + -u) ^ k := this
      _ = (1 - u) ^ k := by ring
  refine ⟨by linarith, ?_⟩
  have hprod : (1 + u) ^ k * (1 - u) ^ k ≤ 1 := by
    rw [← mul_pow]
    exact pow_le_one₀ (by nlinarith) (by nlinarith)
  have hp0 : 0 ≤ (1 + u) ^ k := by positivity
  have h1 : (1 + u) ^ k * (1 - k * u) ≤ 1 := (mul_le_mul_of_nonneg_left lo hp0).trans hprod
  have h2 : (1 + u) ^ k ≤ 2 := by
    by_contra hc
    have hc := not_le.mp hc
    nlinarith
  nlinarith

theorem near_million {fl : ℚ → ℚ} (h : IsRounding fl) (n : Nat) (d : Dict Nat) (hlen : d.length ≤ 10 ^ 6)
    (hd : ∀ p ∈ d, 0 ≤ p.2) (x : Nat → ℚ) (hx : ∀ i, 0 ≤ x i) (r : ℚ)
    (hr : (LinExpr.mk n (d.map fun p => (p.1, fl p.2))).FlVal fl (fun i => fl (x i)) r) :
    Dict.sum d x * (1 - 1 / (4 * 10 ^ 9)) ≤ r ∧ r ≤ Dict.sum d x * (1 + 1 / (4 * 10 ^ 9)) := by
  obtain ⟨h1, h2⟩ := lin_near (u := 1 / 2 ^ 53) (by norm_num) (by norm_num) (fun q hq => fl_near h hq) n d hd x hx r hr
  obtain ⟨b1, b2⟩ := pow_bounds (u := 1 / 2 ^ 53) (e := 1 / (4 * 10 ^ 9)) (K := 10 ^ 6 + 3) (k := d.length + 3) (by omega)
    (by norm_num) (by norm_num) (by norm_num) (by norm_num)
  have hs : 0 ≤ Dict.sum d x := List.sum_nonneg fun v hv => by
    obtain ⟨p, hp, rfl⟩ := List.mem_map.mp hv
    exact mul_nonneg (hd p hp) (hx _)
  exact ⟨(mul_le_mul_of_nonneg_left b1 hs).trans h1, h2.trans (mul_le_mul_of_nonneg_left b2 hs)⟩

/-- **C99, the part that holds for equalities.**  Full statement: a point that satisfies a constraint as it is written, with
decimal numbers, passes the check although the coefficients, the right-hand side and the point are rounded when they are
stored and the left-hand side is computed with rounding.  Proved: for linear equality constraints with nonnegative data and
up to a million terms.  Missing (false): inequalities without slack (`C99_violated`) and cancellation (`C99_violated_zero`). -/
theorem C99_equality_partial {fl : ℚ → ℚ} (h : IsRounding fl) (n : Nat) (d : Dict Nat) (hlen : d.length ≤ 10 ^ 6)
    (hd : ∀ p ∈ d, 0 ≤ p.2) (x : Nat → ℚ) (hx : ∀ i, 0 ≤ x i) (b : ℚ) (hb : Sense.rel .eq (Dict.sum d x) b) (r : ℚ)
    (hr : (LinExpr.mk n (d.map fun p => (p.1, fl p.2))).FlVal fl (fun i => fl (x i)) r) :
    Sense.flHolds fl .eq r (fl b) := by
  obtain ⟨h1, h2⟩ := near_million h n d hlen hd x hx r hr
  have hb : Dict.sum d x = b := hb
  rw [hb] at h1 h2
  have b0 : 0 ≤ b := hb ▸ List.sum_nonneg fun v hv => by
    obtain ⟨p, hp, rfl⟩ := List.mem_map.mp hv
    exact mul_nonneg (hd p hp) (hx _)
  obtain ⟨c1, c2⟩ := fl_near h b0
  obtain ⟨t1, -⟩ := fl_near h (show (0 : ℚ) ≤ 1 / 10 ^ 9 by norm_num)
  have fb0 : 0 ≤ fl b := (mul_nonneg b0 (by norm_num)).trans c1
  have t0 : 0 ≤ fl (1 / 10 ^ 9) := le_trans (by norm_num) t1
  obtain ⟨m1, -⟩ := fl_near h (mul_nonneg t0 fb0)
  right; left
  have hdiff : |fl b - r| ≤ b * (3 / (10 ^ 10)) := by
    rw [abs_le]
    constructor
    · have : b * (1 - 1 / 2 ^ 53) - b * (1 + 1 / (4 * 10 ^ 9)) = b * (-(1 / 2 ^ 53) - 1 / (4 * 10 ^ 9)) := by ring
      have h3 : b * (-(3 / 10 ^ 10)) ≤ b * (-(1 / 2 ^ 53) - 1 / (4 * 10 ^ 9)) := mul_le_mul_of_nonneg_left (by norm_num) b0
      linarith
    · have : b * (1 + 1 / 2 ^ 53) - b * (1 - 1 / (4 * 10 ^ 9)) = b * (1 / 2 ^ 53 + 1 / (4 * 10 ^ 9)) := by ring
      have h3 : b * (1 / 2 ^ 53 + 1 / (4 * 10 ^ 9)) ≤ b * (3 / 10 ^ 10) := mul_le_mul_of_nonneg_left (by norm_num) b0
      linarith
  have hl : |fl (fl b - r)| ≤ b * (6 / 10 ^ 10) := by
    have := fl_abs_le h (fl b - r)
    linarith
  have hr' : b * (6 / 10 ^ 10) ≤ fl (fl (1 / 10 ^ 9) * fl b) := by
    have e1 : (9 / 10 ^ 10 : ℚ) ≤ fl (1 / 10 ^ 9) := le_trans (by norm_num) t1
    have e2 : b * (9 / 10) ≤ fl b := le_trans (mul_le_mul_of_nonneg_left (by norm_num) b0) c1
    have e3 : (9 / 10 ^ 10) * (b * (9 / 10)) ≤ fl (1 / 10 ^ 9) * fl b := mul_le_mul e1 e2 (by positivity) t0
    have e4 : fl (1 / 10 ^ 9) * fl b * (9 / 10) ≤ fl (1 / 10 ^ 9) * fl b * (1 - 1 / 2 ^ 53) :=
      mul_le_mul_of_nonneg_left (by norm_num) (mul_nonneg t0 fb0)
    have e5 : b * (6 / 10 ^ 10) ≤ 9 / 10 ^ 10 * (b * (9 / 10)) * (9 / 10) := by
      have : 9 / 10 ^ 10 * (b * (9 / 10)) * (9 / 10) = b * (729 / 10 ^ 12) := by ring
      rw [this]
      exact mul_le_mul_of_nonneg_left (by norm_num) b0
    linarith
  exact hl.trans (hr'.trans (le_abs_self _))

/-- **C99, the part that holds for inequalities**: with nonnegative data and up to a million terms, an inequality that holds
with a relative slack of `1e-9` passes the check. -/
theorem C99_slack_partial {fl : ℚ → ℚ} (h : IsRounding fl) (n : Nat) (d : Dict Nat) (hlen : d.length ≤ 10 ^ 6)
    (hd : ∀ p ∈ d, 0 ≤ p.2) (x : Nat → ℚ) (hx : ∀ i, 0 ≤ x i) (b : ℚ) (b0 : 0 ≤ b) (r : ℚ)
    (hr : (LinExpr.mk n (d.map fun p => (p.1, fl p.2))).FlVal fl (fun i => fl (x i)) r) :
    (Sense.rel .le (Dict.sum d x) (b * (1 - 1 / 10 ^ 9)) → Sense.flHolds fl .le r (fl b)) ∧
    (Sense.rel .ge (Dict.sum d x) (b * (1 + 1 / 10 ^ 9)) → Sense.flHolds fl .ge r (fl b)) := by
  obtain ⟨h1, h2⟩ := near_million h n d hlen hd x hx r hr
  obtain ⟨c1, c2⟩ := fl_near h b0
  refine ⟨fun hb => ?_, fun hb => ?_⟩
  · have hb : Dict.sum d x ≤ b * (1 - 1 / 10 ^ 9) := hb
    show r ≤ fl b
    have e1 : Dict.sum d x * (1 + 1 / (4 * 10 ^ 9)) ≤ b * (1 - 1 / 10 ^ 9) * (1 + 1 / (4 * 10 ^ 9)) :=
      mul_le_mul_of_nonneg_right hb (by norm_num)
    have e2 : b * ((1 - 1 / 10 ^ 9) * (1 + 1 / (4 * 10 ^ 9))) ≤ b * (1 - 1 / 2 ^ 53) := mul_le_mul_of_nonneg_left (by norm_num) b0
    linarith
  · have hb : b * (1 + 1 / 10 ^ 9) ≤ Dict.sum d x := hb
    show fl b ≤ r
    have e1 : b * (1 + 1 / 10 ^ 9) * (1 - 1 / (4 * 10 ^ 9)) ≤ Dict.sum d x * (1 - 1 / (4 * 10 ^ 9)) :=
      mul_le_mul_of_nonneg_right hb (by norm_num)
    have e2 : b * (1 + 1 / 2 ^ 53) ≤ b * ((1 + 1 / 10 ^ 9) * (1 - 1 / (4 * 10 ^ 9))) := mul_le_mul_of_nonneg_left (by norm_num) b0
    linarith

/-- `0.1 x + 0.2 y = 0.3` at `(1, 1)`, for any rounding, meets the conditions. -/
example : ∃ fl, IsRounding fl ∧ ∃ (d : Dict Nat) (x : Nat → ℚ) (r : ℚ), (∀ p ∈ d, 0 ≤ p.2) ∧ (∀ i, 0 ≤ x i) ∧ d.length = 2 ∧
    Sense.rel .eq (Dict.sum d x) (3 / 10) ∧
    (LinExpr.mk 2 (d.map fun p => (p.1, fl p.2))).FlVal fl (fun i => fl (x i)) r := by
  obtain ⟨fl, h⟩ := exists_rounding
  obtain ⟨r, hr⟩ := LinExpr.flVal_exists fl (LinExpr.mk 2 (([(0, 1 / 10), (1, 2 / 10)] : Dict Nat).map fun p => (p.1, fl p.2)))
    (fun _ => fl 1)
  exact ⟨fl, h, [(0, 1 / 10), (1, 2 / 10)], fun _ => 1, r, by decide +kernel, fun _ => by norm_num, rfl,
    by norm_num [Sense.rel, Dict.sum], hr⟩

/-- `0.1 x + 0.2 y <= 0.4` and `>= 0.2` at `(1, 1)` have slack. -/
example : Sense.rel .le (Dict.sum [(0, 1 / 10), (1, 2 / 10)] fun _ : Nat => 1) (4 / 10 * (1 - 1 / 10 ^ 9)) ∧
    Sense.rel .ge (Dict.sum [(0, 1 / 10), (1, 2 / 10)] fun _ : Nat => 1) (2 / 10 * (1 + 1 / 10 ^ 9)) := by
  norm_num [Sense.rel, Dict.sum]

end Verif

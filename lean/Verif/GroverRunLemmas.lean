import Verif.GroverRun

/-!
# Lemmas about whole runs of the Grover optimizer
-/

namespace Verif

open Finset

/-! ## The probabilities of the keys -/

theorem sin_mul_sq_le (n : Nat) (θ : ℝ) : Real.sin (n * θ) ^ 2 ≤ (n : ℝ) ^ 2 * Real.sin θ ^ 2 := by
  have h : |Real.sin (n * θ)| ≤ n * |Real.sin θ| := by
    induction n with
    | zero => simp
    | succ n ih =>
      rw [Nat.cast_succ, add_mul, one_mul, Real.sin_add, add_mul, one_mul]
      refine (abs_add_le _ _).trans (add_le_add ?_ ?_)
      · rw [abs_mul]
        exact (mul_le_of_le_one_right (abs_nonneg _) (Real.abs_cos_le_one _)).trans ih
      · rw [abs_mul]
        exact mul_le_of_le_one_left (abs_nonneg _) (Real.abs_cos_le_one _)
  rw [← mul_pow, ← sq_abs (Real.sin (n * θ)), ← sq_abs (n * Real.sin θ), abs_mul, Nat.abs_cast]
  exact pow_le_pow_left₀ (abs_nonneg _) h 2

theorem keyProb_nonneg {q : Nat} (state : Bits q → ℂ) (nKey k : Nat) : 0 ≤ keyProb state nKey k :=
  Finset.sum_nonneg fun _ _ => by split <;> positivity

theorem key_probs {nKey nValue : Nat} (hv : 0 < nValue) {o : Objective} {form : Unitary (nKey + nValue + 1)}
    (hF : FormSpec nKey nValue o form) (hr : Representable nKey nValue o) (r : Nat) :
    ∃ a b : ℝ, (∀ k < 2 ^ nKey, keyProb (groverCircuitState nKey nValue form r) nKey k =
        if o.val (pt (keyPt nKey k)) < 0 then a else b) ∧
      (below nKey o : ℝ) * a =
        Real.sin ((2 * r + 1) * Real.arcsin (Real.sqrt ((below nKey o : ℝ) / (2 ^ nKey : Nat)))) ^ 2 ∧
      ((2 ^ nKey : Nat) - (below nKey o : ℝ)) * b =
        Real.cos ((2 * r + 1) * Real.arcsin (Real.sqrt ((below nKey o : ℝ) / (2 ^ nKey : Nat)))) ^ 2 := by
  choose! z hz using hr
  have hneg : ∀ k < 2 ^ nKey, (bitString nKey k ++ twosComplement nValue (z k)).getD nKey '0' = '1' ↔
        o.val (pt (keyPt nKey k)) < 0 := by
    obtain ⟨_, _, -, -, h⟩ := groverState_eq hv hF (fun k hk => (hz k hk).1) (fun k hk => (hz k hk).2) r
    exact h
  have hU : aOperator nKey nValue form ∈ Matrix.unitaryGroup (Bits (nKey + nValue + 1)) ℂ :=
    Submonoid.mul_mem _ hF.unitary (hadamards_unitary _ _)
  obtain ⟨α, β, h1, h2, h3⟩ := rotation (N := 2 ^ nKey) (by positivity) hU (strings_inj z) ⟨nKey, by omega⟩
    (aOperator_state fun k hk => hF.basis k hk (z k) (hz k hk).1) r
  have hcard : ((range (2 ^ nKey)).filter fun k =>
      (bitString nKey k ++ twosComplement nValue (z k)).getD nKey '0' = '1').card = below nKey o :=
    congrArg Finset.card (Finset.filter_congr fun k hk => hneg k (Finset.mem_range.mp hk))
  have hcard' : (((range (2 ^ nKey)).filter fun k =>
      ¬ (bitString nKey k ++ twosComplement nValue (z k)).getD nKey '0' = '1').card : ℝ) =
        (2 ^ nKey : Nat) - (below nKey o : ℝ) := by
    rw [eq_sub_iff_add_eq, ← hcard, ← Nat.cast_add, add_comm, Finset.card_filter_add_card_filter_not, Finset.card_range]
  have hnn : (0 : ℝ) ≤ (2 ^ nKey : Nat) - (below nKey o : ℝ) := by rw [← hcard']; positivity
  simp only [hcard, hcard'] at h2 h3
  refine ⟨α ^ 2, β ^ 2, ?_, ?_, ?_⟩
  · intro k hk
    change keyProb ((groverOperator _ (groverOracle nKey nValue) ^ r * aOperator nKey nValue form).mulVec _) nKey k = _
    unfold groverOracle
    rw [h1, keyProb_superpose z _ hk]
    simp only [hneg k hk]
    split <;> rfl
  · rw [← h2, mul_pow, Real.sq_sqrt (Nat.cast_nonneg _)]
  · rw [← h3, mul_pow, Real.sq_sqrt hnn]

theorem below_le (nKey : Nat) (o : Objective) : below nKey o ≤ 2 ^ nKey :=
  (Finset.card_filter_le _ _).trans (by simp)

/-- The probabilities of all keys add up to one. -/
theorem keyProb_sum {nKey nValue : Nat} (hv : 0 < nValue) {o : Objective} {form : Unitary (nKey + nValue + 1)}
    (hF : FormSpec nKey nValue o form) (hr : Representable nKey nValue o) (r : Nat) :
    ∑ k ∈ range (2 ^ nKey), keyProb (groverCircuitState nKey nValue form r) nKey k = 1 := by
  obtain ⟨a, b, h1, h2, h3⟩ := key_probs hv hF hr r
  rw [Finset.sum_congr rfl fun k hk => h1 k (Finset.mem_range.mp hk), Finset.sum_ite, Finset.sum_const, Finset.sum_const,
    nsmul_eq_mul, nsmul_eq_mul]
  have hc : (((range (2 ^ nKey)).filter fun k => ¬ o.val (pt (keyPt nKey k)) < 0).card : ℝ) =
      (2 ^ nKey : Nat) - (below nKey o : ℝ) := by
    rw [eq_sub_iff_add_eq, below, ← Nat.cast_add, add_comm, Finset.card_filter_add_card_filter_not, Finset.card_range]
  rw [hc]
  change (below nKey o : ℝ) * a + _ = 1
  rw [h2, h3, Real.sin_sq_add_cos_sq]

/-- A key below the threshold is measured after `r` rotations with probability at most `(2r + 1)²/2^n`. -/
theorem keyProb_le {nKey nValue : Nat} (hv : 0 < nValue) {o : Objective} {form : Unitary (nKey + nValue + 1)}
    (hF : FormSpec nKey nValue o form) (hr : Representable nKey nValue o) (r : Nat) {k : Nat} (hk : k < 2 ^ nKey)
    (hlt : o.val (pt (keyPt nKey k)) < 0) :
    keyProb (groverCircuitState nKey nValue form r) nKey k ≤ (2 * (r : ℝ) + 1) ^ 2 / (2 ^ nKey : Nat) := by
  obtain ⟨a, b, h1, h2, -⟩ := key_probs hv hF hr r
  rw [h1 k hk, if_pos hlt]
  have hM : (1 : ℝ) ≤ below nKey o := by
    exact_mod_cast Finset.card_pos.mpr ⟨k, Finset.mem_filter.mpr ⟨Finset.mem_range.mpr hk, hlt⟩⟩
  have hN : (0 : ℝ) < (2 ^ nKey : Nat) := by positivity
  have hp1 : (below nKey o : ℝ) / (2 ^ nKey : Nat) ≤ 1 := by
    rw [div_le_one hN]
    exact_mod_cast below_le nKey o
  have h := sin_mul_sq_le (2 * r + 1) (Real.arcsin (Real.sqrt ((below nKey o : ℝ) / (2 ^ nKey : Nat))))
  rw [sin_arcsin_sqrt (by positivity) hp1, Real.sq_sqrt (by positivity)] at h
  push_cast at h h2
  rw [← h2] at h
  rw [le_div_iff₀ hN]
  have h4 : (below nKey o : ℝ) * (a * (2 ^ nKey : Nat)) ≤ below nKey o * (2 * (r : ℝ) + 1) ^ 2 := by
    push_cast
    calc (below nKey o : ℝ) * (a * 2 ^ nKey) = (below nKey o * a) * 2 ^ nKey := by ring
      _ ≤ ((2 * (r : ℝ) + 1) ^ 2 * (below nKey o / 2 ^ nKey)) * 2 ^ nKey := by gcongr
      _ = _ := by field_simp
  exact le_of_mul_le_mul_left h4 (by linarith)

/-- Without rotations all keys are equally likely. -/
theorem keyProb_zero {nKey nValue : Nat} (hv : 0 < nValue) {o : Objective} {form : Unitary (nKey + nValue + 1)}
    (hF : FormSpec nKey nValue o form) (hr : Representable nKey nValue o) {k : Nat} (hk : k < 2 ^ nKey) :
    keyProb (groverCircuitState nKey nValue form 0) nKey k = 1 / (2 ^ nKey : Nat) := by
  obtain ⟨a, b, h1, h2, h3⟩ := key_probs hv hF hr 0
  have hN : (0 : ℝ) < (2 ^ nKey : Nat) := by positivity
  have hp1 : (below nKey o : ℝ) / (2 ^ nKey : Nat) ≤ 1 := by
    rw [div_le_one hN]
    exact_mod_cast below_le nKey o
  rw [Nat.cast_zero, mul_zero, zero_add, one_mul] at h2 h3
  rw [Real.cos_sq', sin_arcsin_sqrt (by positivity) hp1, Real.sq_sqrt (by positivity)] at h3
  rw [sin_arcsin_sqrt (by positivity) hp1, Real.sq_sqrt (by positivity)] at h2
  rw [h1 k hk]
  split
  · rename_i hlt
    have hM : (0 : ℝ) < below nKey o := by
      exact_mod_cast Finset.card_pos.mpr ⟨k, Finset.mem_filter.mpr ⟨Finset.mem_range.mpr hk, hlt⟩⟩
    have : (below nKey o : ℝ) * a = below nKey o * (1 / (2 ^ nKey : Nat)) := by rw [h2]; ring
    exact mul_left_cancel₀ hM.ne' this
  · rename_i hlt
    have hM : (below nKey o : ℝ) < (2 ^ nKey : Nat) := by
      have : below nKey o < (range (2 ^ nKey)).card :=
        Finset.card_lt_card (Finset.filter_ssubset.mpr ⟨k, Finset.mem_range.mpr hk, hlt⟩)
      rw [Finset.card_range] at this
      exact_mod_cast this
    have : ((2 ^ nKey : Nat) - (below nKey o : ℝ)) * b =
        ((2 ^ nKey : Nat) - (below nKey o : ℝ)) * (1 / (2 ^ nKey : Nat)) := by rw [h3]; field_simp
    exact mul_left_cancel₀ (by linarith) this

/-! ## The sums of the squares -/

theorem sq_sum (K : Nat) : ∑ r ∈ range K, (2 * ((r + 1 : Nat) : ℝ) + 1) ^ 2 =
    (4 * (K : ℝ) ^ 3 + 12 * (K : ℝ) ^ 2 + 11 * K) / 3 := by
  induction K with
  | zero => simp
  | succ K ih => rw [Finset.sum_range_succ, ih]; push_cast; ring

theorem rest_sum (B : ℝ) (K : Nat) : ∑ r ∈ range K, 10 * (B - ((r + 1 : Nat) : ℝ)) ^ 2 =
    10 * (K * B ^ 2 - B * K * (K + 1) + K * (K + 1) * (2 * K + 1) / 6) := by
  induction K with
  | zero => simp
  | succ K ih => rw [Finset.sum_range_succ, ih]; push_cast; ring

/-- The potential of the search: the expected sum of the squares `(2r + 1)²` is at most `2m² + 10B²` for the range `m` and `B`
rotations left. -/
theorem potential {m B : Nat} (hm : 2 ≤ m) (hB : 1 ≤ B) :
    ∑ r ∈ range (m - 1), ((2 * ((r + 1 : Nat) : ℝ) + 1) ^ 2 +
      if r + 1 < B then 2 * ((8 * (m : ℝ) + 6) / 7) ^ 2 + 10 * ((B : ℝ) - ((r + 1 : Nat) : ℝ)) ^ 2 else 8) ≤
      ((m : ℝ) - 1) * (2 * (m : ℝ) ^ 2 + 10 * (B : ℝ) ^ 2) := by
  obtain ⟨K, rfl⟩ : ∃ K, m = K + 1 := ⟨m - 1, by omega⟩
  have hK : 1 ≤ K := by omega
  rw [Nat.add_sub_cancel, Finset.sum_add_distrib, sq_sum]
  have hK' : (1 : ℝ) ≤ K := by exact_mod_cast hK
  rcases Nat.lt_or_ge K B with h | h
  · have hall : ∀ r ∈ range K, (if r + 1 < B then 2 * ((8 * ((K + 1 : Nat) : ℝ) + 6) / 7) ^ 2 +
        10 * ((B : ℝ) - ((r + 1 : Nat) : ℝ)) ^ 2 else 8) =
          2 * ((8 * ((K + 1 : Nat) : ℝ) + 6) / 7) ^ 2 + 10 * ((B : ℝ) - ((r + 1 : Nat) : ℝ)) ^ 2 := by
      intro r hr
      rw [if_pos (by have := Finset.mem_range.mp hr; omega)]
    rw [Finset.sum_congr rfl hall, Finset.sum_add_distrib, rest_sum]
    have hB' : (K : ℝ) + 1 ≤ B := by exact_mod_cast h
    simp only [Finset.sum_const, Finset.card_range, nsmul_eq_mul]
    push_cast
    obtain ⟨d, hd⟩ : ∃ d : ℝ, (B : ℝ) = K + 1 + d := ⟨B - K - 1, by ring⟩
    obtain ⟨e, he⟩ : ∃ e : ℝ, (K : ℝ) = 1 + e := ⟨K - 1, by ring⟩
    have hd0 : 0 ≤ d := by linarith
    have he0 : 0 ≤ e := by linarith
    rw [hd, he, ← sub_nonneg]
    ring_nf
    positivity
  · obtain ⟨c, rfl⟩ : ∃ c, K = (B - 1) + c := ⟨K - (B - 1), by omega⟩
    obtain ⟨b, rfl⟩ : ∃ b, B = b + 1 := ⟨B - 1, by omega⟩
    rw [Nat.add_sub_cancel] at *
    rw [Finset.sum_range_add]
    have h1 : ∀ r ∈ range b, (if r + 1 < b + 1 then 2 * ((8 * ((b + c + 1 : Nat) : ℝ) + 6) / 7) ^ 2 +
        10 * (((b + 1 : Nat) : ℝ) - ((r + 1 : Nat) : ℝ)) ^ 2 else 8) =
          2 * ((8 * ((b + c + 1 : Nat) : ℝ) + 6) / 7) ^ 2 + 10 * (((b + 1 : Nat) : ℝ) - ((r + 1 : Nat) : ℝ)) ^ 2 := by
      intro r hr
      rw [if_pos (by have := Finset.mem_range.mp hr; omega)]
    have h2 : ∀ r ∈ range c, (if b + r + 1 < b + 1 then 2 * ((8 * ((b + c + 1 : Nat) : ℝ) + 6) / 7) ^ 2 +
        10 * (((b + 1 : Nat) : ℝ) - ((b + r + 1 : Nat) : ℝ)) ^ 2 else 8) = 8 := by
      intro r _
      rw [if_neg (by omega)]
    rw [Finset.sum_congr rfl h1, Finset.sum_congr rfl h2, Finset.sum_add_distrib, rest_sum]
    simp only [Finset.sum_const, Finset.card_range, nsmul_eq_mul]
    have hc : 1 ≤ c := by omega
    obtain ⟨e, rfl⟩ : ∃ e, c = 1 + e := ⟨c - 1, by omega⟩
    push_cast
    have he0 : (0 : ℝ) ≤ e := by positivity
    have hb0 : (0 : ℝ) ≤ b := by positivity
    generalize (e : ℝ) = e at *
    generalize (b : ℝ) = b at *
    rw [← sub_nonneg]
    ring_nf
    nlinarith [mul_nonneg he0 hb0, mul_nonneg hb0 hb0, mul_nonneg he0 he0, mul_nonneg (mul_nonneg he0 hb0) hb0,
      mul_nonneg (mul_nonneg he0 he0) hb0, mul_nonneg (mul_nonneg he0 he0) he0, mul_nonneg (mul_nonneg hb0 hb0) hb0]

/-! ## The probability of finding the optimum, from above -/

/-- The optimal keys. -/
def optimalKeys (nKey : Nat) (o : Objective) : Finset Nat :=
  (range (2 ^ nKey)).filter fun k => ∀ j < 2 ^ nKey, o.val (pt (keyPt nKey k)) ≤ o.val (pt (keyPt nKey j))

/-- The values of the objective. -/
def keyValues (nKey : Nat) (o : Objective) : Finset ℚ := (range (2 ^ nKey)).image fun k => o.val (pt (keyPt nKey k))

/-- The number of values below `t`. -/
def levels (nKey : Nat) (o : Objective) (t : ℚ) : Nat := ((keyValues nKey o).filter (· < t)).card

/-- A threshold that can occur. -/
def IsThreshold (nKey : Nat) (o : Objective) (t : ℚ) : Prop := t = 0 ∨ ∃ k < 2 ^ nKey, t = o.val (pt (keyPt nKey k))

theorem shift_val (o : Objective) (t : ℚ) (x : Nat → ℚ) : (shiftObjective o t).val x = o.val x - t := by
  simp only [shiftObjective, Objective.val]
  ring

theorem levels_lt {nKey : Nat} {o : Objective} {t : ℚ} {k : Nat} (hk : k < 2 ^ nKey) (h : o.val (pt (keyPt nKey k)) < t) :
    levels nKey o (o.val (pt (keyPt nKey k))) + 1 ≤ levels nKey o t := by
  unfold levels
  apply Finset.card_lt_card
  rw [Finset.ssubset_iff_of_subset]
  · exact ⟨o.val (pt (keyPt nKey k)), Finset.mem_filter.mpr ⟨Finset.mem_image.mpr ⟨k, Finset.mem_range.mpr hk, rfl⟩, h⟩, by simp⟩
  · intro v hv
    rw [Finset.mem_filter] at hv ⊢
    exact ⟨hv.1, hv.2.trans h⟩

theorem levels_le (nKey : Nat) (o : Objective) {k : Nat} (hk : k < 2 ^ nKey) :
    levels nKey o (o.val (pt (keyPt nKey k))) + 1 ≤ (keyValues nKey o).card := by
  unfold levels
  apply Finset.card_lt_card
  rw [Finset.ssubset_iff_of_subset (Finset.filter_subset _ _)]
  exact ⟨o.val (pt (keyPt nKey k)), Finset.mem_image.mpr ⟨k, Finset.mem_range.mpr hk, rfl⟩, by simp⟩

theorem hit_nonneg (nKey nValue nIt : Nat) (o : Objective) (form : ℚ → Unitary (nKey + nValue + 1)) (target : Finset Nat)
    (fuel : Nat) (best : Option ℚ) (loops m rotations : Nat) :
    0 ≤ hitProb nKey nValue nIt o form target fuel best loops m rotations := by
  induction fuel generalizing best loops m rotations with
  | zero => exact le_rfl
  | succ fuel ih =>
    rw [hitProb]
    refine intervalIntegral.integral_nonneg (by norm_num) fun u _ => Finset.sum_nonneg fun k _ => ?_
    refine mul_nonneg (keyProb_nonneg _ _ _) ?_
    split
    · exact zero_le_one
    split
    · exact ih _ _ _ _
    split
    · exact le_rfl
    · exact ih _ _ _ _

/-- One measurement: the targets are measured with probability at most `q` each, and what follows is at most `x`. -/
theorem step_le {nKey : Nat} {p g : Nat → ℝ} {target : Finset Nat} {q x : ℝ} (hsub : target ⊆ range (2 ^ nKey))
    (hp : ∀ k, 0 ≤ p k) (hsum : ∑ k ∈ range (2 ^ nKey), p k = 1) (hq : ∀ k ∈ target, p k ≤ q) (hx : 0 ≤ x)
    (hg : ∀ k < 2 ^ nKey, k ∉ target → g k ≤ x) :
    ∑ k ∈ range (2 ^ nKey), p k * (if k ∈ target then 1 else g k) ≤ target.card * q + x := by
  have h1 : ∀ k ∈ range (2 ^ nKey), p k * (if k ∈ target then 1 else g k) ≤ (if k ∈ target then p k else 0) + p k * x := by
    intro k hk
    by_cases h : k ∈ target
    · rw [if_pos h, if_pos h, mul_one]
      linarith [mul_nonneg (hp k) hx]
    · rw [if_neg h, if_neg h, zero_add]
      exact mul_le_mul_of_nonneg_left (hg k (Finset.mem_range.mp hk) h) (hp k)
  refine (Finset.sum_le_sum h1).trans ?_
  rw [Finset.sum_add_distrib, ← Finset.sum_mul, hsum, one_mul, ← Finset.sum_filter,
    Finset.filter_mem_eq_inter, Finset.inter_eq_right.mpr hsub]
  have := Finset.sum_le_card_nsmul target p q hq
  rw [nsmul_eq_mul] at this
  linarith

theorem nextRange_upper (n m : Nat) : (nextRange n m : ℝ) ≤ (8 * (m : ℝ) + 6) / 7 := by
  have h : nextRange n m ≤ (8 * m + 6) / 7 := by
    unfold nextRange
    rw [Nat.ceil_le]
    refine (min_le_left _ _).trans ?_
    have h2 : 8 * m ≤ 7 * ((8 * m + 6) / 7) := by omega
    have h3 : (8 : ℝ) * m ≤ 7 * ((8 * m + 6) / 7 : Nat) := by exact_mod_cast h2
    linarith
  have h2 : 7 * ((8 * m + 6) / 7) ≤ 8 * m + 6 := Nat.mul_div_le _ _
  have h3 : (7 : ℝ) * ((8 * m + 6) / 7 : Nat) ≤ 8 * m + 6 := by exact_mod_cast h2
  have h4 : (nextRange n m : ℝ) ≤ ((8 * m + 6) / 7 : Nat) := by exact_mod_cast h
  linarith

theorem nextRange_two {n m : Nat} (hn : 1 ≤ n) (hm : 1 ≤ m) : 2 ≤ nextRange n m := by
  unfold nextRange
  rw [show (2 : Nat) = 1 + 1 from rfl, Nat.add_one_le_iff, Nat.lt_ceil, Nat.cast_one]
  have hm' : (1 : ℝ) ≤ m := by exact_mod_cast hm
  refine lt_min (by linarith) (Real.one_lt_rpow (by norm_num) ?_)
  have : (1 : ℝ) ≤ n := by exact_mod_cast hn
  linarith

theorem nextRange_one {n : Nat} (hn : 1 ≤ n) : nextRange n 1 = 2 := by
  have h1 := nextRange_two hn le_rfl
  have h2 := nextRange_upper n 1
  norm_num at h2
  have : nextRange n 1 ≤ 2 := by exact_mod_cast h2
  omega

/-- The bound for what remains of the search. -/
noncomputable def remaining (m left : Nat) : ℝ :=
  if m = 1 then 9 + 10 * (left : ℝ) ^ 2 else 2 * (m : ℝ) ^ 2 + 10 * (left : ℝ) ^ 2

/-- One measurement after `r` rotations: an optimal key is measured with probability at most `(2r + 1)²/2^n`, and what follows
is at most `x`. -/
theorem measure_le {nKey nValue nIt : Nat} {o : Objective} {form : ℚ → Unitary (nKey + nValue + 1)} (hv : 0 < nValue)
    {t : ℚ} (hFt : FormSpec nKey nValue (shiftObjective o t) (form t))
    (hrt : Representable nKey nValue (shiftObjective o t)) (hj : ∃ j < 2 ^ nKey, o.val (pt (keyPt nKey j)) < t)
    {c : ℝ} (hc : ((optimalKeys nKey o).card : ℝ) / (2 ^ nKey : Nat) = c) {fuel loops m rotations : Nat} (r : Nat) (x : ℝ)
    (hx : 0 ≤ x)
    (h1 : ∀ k < 2 ^ nKey, k ∉ optimalKeys nKey o → o.val (pt (keyPt nKey k)) < t →
      hitProb nKey nValue nIt o form (optimalKeys nKey o) fuel (some (o.val (pt (keyPt nKey k)))) 0 1 (rotations + r) ≤ x)
    (h2 : loops + 1 < nIt → rotations + r < groverMaxRotations →
      hitProb nKey nValue nIt o form (optimalKeys nKey o) fuel (some t) (loops + 1) (nextRange nKey m) (rotations + r) ≤ x) :
    (∑ k ∈ range (2 ^ nKey), keyProb (groverCircuitState nKey nValue (form ((some t).getD 0)) r) nKey k *
      if k ∈ optimalKeys nKey o then 1
      else if improves (o.val (pt (keyPt nKey k))) (some t) then
        hitProb nKey nValue nIt o form (optimalKeys nKey o) fuel (some (o.val (pt (keyPt nKey k)))) 0 1 (rotations + r)
      else if loops + 1 ≥ nIt ∨ rotations + r ≥ groverMaxRotations then 0
      else hitProb nKey nValue nIt o form (optimalKeys nKey o) fuel (some t) (loops + 1) (nextRange nKey m)
        (rotations + r)) ≤ c * (2 * (r : ℝ) + 1) ^ 2 + x := by
  have hb : c * (2 * (r : ℝ) + 1) ^ 2 = (optimalKeys nKey o).card * ((2 * (r : ℝ) + 1) ^ 2 / (2 ^ nKey : Nat)) := by
    rw [← hc]; ring
  rw [hb]
  refine step_le (Finset.filter_subset _ _) (fun k => keyProb_nonneg _ _ _) (keyProb_sum hv hFt hrt r) ?_ hx ?_
  · intro k hko
    unfold optimalKeys at hko
    rw [Finset.mem_filter, Finset.mem_range] at hko
    obtain ⟨j, hj1, hj2⟩ := hj
    refine keyProb_le hv hFt hrt r hko.1 ?_
    rw [shift_val]
    linarith [hko.2 j hj1]
  · intro k hkl hkn
    by_cases hi : o.val (pt (keyPt nKey k)) < t
    · rw [if_pos (by simpa [improves] using hi)]
      exact h1 k hkl hkn hi
    · rw [if_neg (by simpa [improves] using hi)]
      split
      · exact hx
      · rename_i hs
        exact h2 (by omega) (by omega)

theorem not_optimal {nKey : Nat} {o : Objective} {k : Nat} (hkl : k < 2 ^ nKey) (hkn : k ∉ optimalKeys nKey o) :
    ∃ j < 2 ^ nKey, o.val (pt (keyPt nKey j)) < o.val (pt (keyPt nKey k)) := by
  unfold optimalKeys at hkn
  rw [Finset.mem_filter, Finset.mem_range] at hkn
  push Not at hkn
  exact hkn hkl

theorem hit_le {nKey nValue nIt : Nat} {o : Objective} {form : ℚ → Unitary (nKey + nValue + 1)} (hk : 1 ≤ nKey)
    (hv : 0 < nValue) (hF : ∀ t, IsThreshold nKey o t → FormSpec nKey nValue (shiftObjective o t) (form t))
    (hr : ∀ t, IsThreshold nKey o t → Representable nKey nValue (shiftObjective o t)) (fuel : Nat) (t : ℚ)
    (loops m rotations : Nat) (ht : ∃ k < 2 ^ nKey, t = o.val (pt (keyPt nKey k)))
    (hj : ∃ j < 2 ^ nKey, o.val (pt (keyPt nKey j)) < t) (hm : m = 1 ∨ 2 ≤ m ∧ rotations < groverMaxRotations) :
    hitProb nKey nValue nIt o form (optimalKeys nKey o) fuel (some t) loops m rotations ≤
      (optimalKeys nKey o).card / (2 ^ nKey : Nat) *
        (levels nKey o t + remaining m (groverMaxRotations - rotations)) := by
  have hN : (0 : ℝ) < (2 ^ nKey : Nat) := by positivity
  have hrem : ∀ m left, 0 ≤ remaining m left := by
    intro m left
    unfold remaining
    split <;> positivity
  generalize hc : ((optimalKeys nKey o).card : ℝ) / (2 ^ nKey : Nat) = c
  have hc0 : 0 ≤ c := by rw [← hc]; positivity
  induction fuel generalizing t loops m rotations with
  | zero =>
    rw [hitProb]
    have := hrem m (groverMaxRotations - rotations)
    positivity
  | succ fuel ih =>
    have hth : IsThreshold nKey o t := Or.inr ht
    have hFt := hF t hth
    have hrt := hr t hth
    have hone := fun r x hx h1 h2 => measure_le (nIt := nIt) (fuel := fuel) (loops := loops) (m := m)
      (rotations := rotations) hv hFt hrt hj hc r x hx h1 fun _ => h2
    have himp : ∀ (k : Nat), k < 2 ^ nKey → k ∉ optimalKeys nKey o → o.val (pt (keyPt nKey k)) < t → ∀ r,
        hitProb nKey nValue nIt o form (optimalKeys nKey o) fuel (some (o.val (pt (keyPt nKey k)))) 0 1 (rotations + r) ≤
          c * (levels nKey o t + (8 + 10 * ((groverMaxRotations - (rotations + r) : Nat) : ℝ) ^ 2)) := by
      intro k hkl hkn hi r
      refine (ih _ 0 1 (rotations + r) ⟨k, hkl, rfl⟩ (not_optimal hkl hkn) (Or.inl rfl)).trans ?_
      have hl : (levels nKey o (o.val (pt (keyPt nKey k))) : ℝ) + 1 ≤ levels nKey o t := by exact_mod_cast levels_lt hkl hi
      refine mul_le_mul_of_nonneg_left ?_ hc0
      rw [remaining, if_pos rfl]
      linarith
    rw [hitProb]
    rcases hm with rfl | ⟨hm, hR⟩
    · rw [integral_draw_one fun r => ∑ k ∈ range (2 ^ nKey),
        keyProb (groverCircuitState nKey nValue (form ((some t).getD 0)) r) nKey k *
          if k ∈ optimalKeys nKey o then 1
          else if improves (o.val (pt (keyPt nKey k))) (some t) then
            hitProb nKey nValue nIt o form (optimalKeys nKey o) fuel (some (o.val (pt (keyPt nKey k)))) 0 1 (rotations + r)
          else if loops + 1 ≥ nIt ∨ rotations + r ≥ groverMaxRotations then 0
          else hitProb nKey nValue nIt o form (optimalKeys nKey o) fuel (some t) (loops + 1) (nextRange nKey 1)
            (rotations + r)]
      refine (hone 0 (c * (levels nKey o t + (8 + 10 * ((groverMaxRotations - (rotations + 0) : Nat) : ℝ) ^ 2))) (by positivity)
        (fun k a b d => himp k a b d 0) ?_).trans ?_
      · intro hlt
        have h2 : nextRange nKey 1 = 2 := nextRange_one hk
        rw [h2]
        refine (ih t (loops + 1) 2 (rotations + 0) ht hj (Or.inr ⟨le_rfl, hlt⟩)).trans ?_
        refine mul_le_mul_of_nonneg_left ?_ hc0
        rw [remaining, if_neg (by norm_num)]
        norm_num
      · rw [remaining, if_pos rfl, Nat.add_zero, Nat.cast_zero]
        apply le_of_eq
        ring
    · rw [integral_draw (fun r => ∑ k ∈ range (2 ^ nKey),
        keyProb (groverCircuitState nKey nValue (form ((some t).getD 0)) r) nKey k *
          if k ∈ optimalKeys nKey o then 1
          else if improves (o.val (pt (keyPt nKey k))) (some t) then
            hitProb nKey nValue nIt o form (optimalKeys nKey o) fuel (some (o.val (pt (keyPt nKey k)))) 0 1 (rotations + r)
          else if loops + 1 ≥ nIt ∨ rotations + r ≥ groverMaxRotations then 0
          else hitProb nKey nValue nIt o form (optimalKeys nKey o) fuel (some t) (loops + 1) (nextRange nKey m)
            (rotations + r)) hm]
      have hm' : (0 : ℝ) < (m : ℝ) - 1 := by
        have : (2 : ℝ) ≤ m := by exact_mod_cast hm
        linarith
      rw [div_le_iff₀ hm']
      obtain ⟨B, hB⟩ : ∃ B, B = groverMaxRotations - rotations := ⟨_, rfl⟩
      have hB1 : 1 ≤ B := by omega
      rw [remaining, if_neg (by omega), ← hB]
      have hpt : ∀ r ∈ range (m - 1), (∑ k ∈ range (2 ^ nKey),
        keyProb (groverCircuitState nKey nValue (form ((some t).getD 0)) (r + 1)) nKey k *
          if k ∈ optimalKeys nKey o then 1
          else if improves (o.val (pt (keyPt nKey k))) (some t) then
            hitProb nKey nValue nIt o form (optimalKeys nKey o) fuel (some (o.val (pt (keyPt nKey k)))) 0 1 (rotations + (r + 1))
          else if loops + 1 ≥ nIt ∨ rotations + (r + 1) ≥ groverMaxRotations then 0
          else hitProb nKey nValue nIt o form (optimalKeys nKey o) fuel (some t) (loops + 1) (nextRange nKey m)
            (rotations + (r + 1))) ≤ c * levels nKey o t + c * ((2 * ((r + 1 : Nat) : ℝ) + 1) ^ 2 +
              if r + 1 < B then 2 * ((8 * (m : ℝ) + 6) / 7) ^ 2 + 10 * ((B : ℝ) - ((r + 1 : Nat) : ℝ)) ^ 2 else 8) := by
        intro r _
        have hm2 : (2 : ℝ) ≤ m := by exact_mod_cast hm
        have h87 : (2 : ℝ) ≤ (8 * (m : ℝ) + 6) / 7 := by linarith
        by_cases hlt : r + 1 < B
        · rw [if_pos hlt]
          have hleft : ((groverMaxRotations - (rotations + (r + 1)) : Nat) : ℝ) = (B : ℝ) - ((r + 1 : Nat) : ℝ) := by
            rw [← Nat.cast_sub hlt.le]
            congr 1
            omega
          refine (hone (r + 1) (c * (levels nKey o t + (2 * ((8 * (m : ℝ) + 6) / 7) ^ 2 +
            10 * ((B : ℝ) - ((r + 1 : Nat) : ℝ)) ^ 2))) (by positivity) (fun k a b d => (himp k a b d (r + 1)).trans ?_) ?_).trans ?_
          · rw [hleft]
            refine mul_le_mul_of_nonneg_left ?_ hc0
            nlinarith
          · intro h79
            refine (ih t (loops + 1) _ _ ht hj (Or.inr ⟨nextRange_two hk (by omega), h79⟩)).trans ?_
            refine mul_le_mul_of_nonneg_left ?_ hc0
            have h2 := nextRange_two hk (by omega : 1 ≤ m)
            rw [remaining, if_neg (by omega), hleft]
            have hu := nextRange_upper nKey m
            have : (nextRange nKey m : ℝ) ^ 2 ≤ ((8 * (m : ℝ) + 6) / 7) ^ 2 := pow_le_pow_left₀ (Nat.cast_nonneg _) hu 2
            linarith
          · apply le_of_eq
            ring
        · rw [if_neg hlt]
          have hleft : groverMaxRotations - (rotations + (r + 1)) = 0 := by omega
          refine (hone (r + 1) (c * (levels nKey o t + 8)) (by positivity) (fun k a b d => (himp k a b d (r + 1)).trans ?_) ?_).trans ?_
          · rw [hleft]
            norm_num
          · intro h79
            omega
          · apply le_of_eq
            ring
      refine (Finset.sum_le_sum hpt).trans ?_
      have hpot := mul_le_mul_of_nonneg_left (potential hm hB1) hc0
      rw [Finset.sum_add_distrib, Finset.sum_const, Finset.card_range, nsmul_eq_mul, Nat.cast_sub (by omega : 1 ≤ m),
        Nat.cast_one, ← Finset.mul_sum]
      calc _ ≤ ((m : ℝ) - 1) * (c * levels nKey o t) + c * (((m : ℝ) - 1) * (2 * (m : ℝ) ^ 2 + 10 * (B : ℝ) ^ 2)) := by
            linarith
        _ = _ := by ring

/-! ## The probability of finding the optimum, from below -/

/-- With three iterations without improvement a round makes at most three measurements, the last two of them after at most one
and two rotations. -/
theorem hit_three {nKey nValue : Nat} {o : Objective} {form : ℚ → Unitary (nKey + nValue + 1)} (hk : 1 ≤ nKey)
    (hv : 0 < nValue) (hF : ∀ t, IsThreshold nKey o t → FormSpec nKey nValue (shiftObjective o t) (form t))
    (hr : ∀ t, IsThreshold nKey o t → Representable nKey nValue (shiftObjective o t)) {c : ℝ}
    (hc : ((optimalKeys nKey o).card : ℝ) / (2 ^ nKey : Nat) = c) (fuel : Nat) (t : ℚ) (rotations : Nat)
    (ht : ∃ k < 2 ^ nKey, t = o.val (pt (keyPt nKey k))) (hj : ∃ j < 2 ^ nKey, o.val (pt (keyPt nKey j)) < t) :
    hitProb nKey nValue 3 o form (optimalKeys nKey o) fuel (some t) 0 1 rotations ≤ c * (27 * levels nKey o t) ∧
    hitProb nKey nValue 3 o form (optimalKeys nKey o) fuel (some t) 1 2 rotations ≤ c * (27 * levels nKey o t - 1) ∧
    ∀ m, m = 2 ∨ m = 3 →
      hitProb nKey nValue 3 o form (optimalKeys nKey o) fuel (some t) 2 m rotations ≤ c * (27 * levels nKey o t - 10) := by
  have hc0 : 0 ≤ c := by rw [← hc]; positivity
  induction fuel generalizing t rotations with
  | zero =>
    obtain ⟨j, hj1, hj2⟩ := hj
    have hl : (1 : ℝ) ≤ levels nKey o t := by
      have := levels_lt hj1 hj2
      exact_mod_cast (by omega : 1 ≤ levels nKey o t)
    simp only [hitProb]
    exact ⟨mul_nonneg hc0 (by linarith), mul_nonneg hc0 (by linarith), fun _ _ => mul_nonneg hc0 (by linarith)⟩
  | succ fuel ih =>
    have hth : IsThreshold nKey o t := Or.inr ht
    have hFt := hF t hth
    have hrt := hr t hth
    have hl : (1 : ℝ) ≤ levels nKey o t := by
      obtain ⟨j, hj1, hj2⟩ := hj
      have := levels_lt hj1 hj2
      exact_mod_cast (by omega : 1 ≤ levels nKey o t)
    have himp : ∀ y : ℝ, 27 * (levels nKey o t : ℝ) - 27 ≤ y → ∀ r, ∀ k < 2 ^ nKey, k ∉ optimalKeys nKey o →
        o.val (pt (keyPt nKey k)) < t →
        hitProb nKey nValue 3 o form (optimalKeys nKey o) fuel (some (o.val (pt (keyPt nKey k)))) 0 1 (rotations + r) ≤
          c * y := by
      intro y hy r k hkl hkn hi
      refine (ih _ (rotations + r) ⟨k, hkl, rfl⟩ (not_optimal hkl hkn)).1.trans ?_
      have hl : (levels nKey o (o.val (pt (keyPt nKey k))) : ℝ) + 1 ≤ levels nKey o t := by exact_mod_cast levels_lt hkl hi
      exact mul_le_mul_of_nonneg_left (by linarith) hc0
    refine ⟨?_, ?_, ?_⟩
    · rw [hitProb, integral_draw_one fun r => ∑ k ∈ range (2 ^ nKey),
        keyProb (groverCircuitState nKey nValue (form ((some t).getD 0)) r) nKey k *
          if k ∈ optimalKeys nKey o then 1
          else if improves (o.val (pt (keyPt nKey k))) (some t) then
            hitProb nKey nValue 3 o form (optimalKeys nKey o) fuel (some (o.val (pt (keyPt nKey k)))) 0 1 (rotations + r)
          else if 0 + 1 ≥ 3 ∨ rotations + r ≥ groverMaxRotations then 0
          else hitProb nKey nValue 3 o form (optimalKeys nKey o) fuel (some t) (0 + 1) (nextRange nKey 1)
            (rotations + r)]
      refine (measure_le hv hFt hrt hj hc 0 (c * (27 * levels nKey o t - 1)) (mul_nonneg hc0 (by linarith))
        (himp _ (by linarith) 0) ?_).trans (le_of_eq (by push_cast; ring))
      intro _ _
      rw [nextRange_one hk]
      exact (ih t (rotations + 0) ht hj).2.1
    · rw [hitProb, integral_draw (fun r => ∑ k ∈ range (2 ^ nKey),
        keyProb (groverCircuitState nKey nValue (form ((some t).getD 0)) r) nKey k *
          if k ∈ optimalKeys nKey o then 1
          else if improves (o.val (pt (keyPt nKey k))) (some t) then
            hitProb nKey nValue 3 o form (optimalKeys nKey o) fuel (some (o.val (pt (keyPt nKey k)))) 0 1 (rotations + r)
          else if 1 + 1 ≥ 3 ∨ rotations + r ≥ groverMaxRotations then 0
          else hitProb nKey nValue 3 o form (optimalKeys nKey o) fuel (some t) (1 + 1) (nextRange nKey 2)
            (rotations + r)) le_rfl]
      rw [show (2 : Nat) - 1 = 1 from rfl, Finset.sum_range_one, show ((2 : Nat) : ℝ) - 1 = 1 by norm_num, div_one]
      refine (measure_le hv hFt hrt hj hc 1 (c * (27 * levels nKey o t - 10)) (mul_nonneg hc0 (by linarith))
        (himp _ (by linarith) 1) ?_).trans (le_of_eq (by push_cast; ring))
      intro _ _
      refine (ih t (rotations + 1) ht hj).2.2 _ ?_
      have h1 := nextRange_two (n := nKey) (m := 2) hk (by norm_num)
      have h2 := nextRange_upper nKey 2
      have h3 : (nextRange nKey 2 : ℝ) < 4 := by norm_num at h2; linarith
      have h4 : nextRange nKey 2 < 4 := by exact_mod_cast h3
      omega
    · intro m hm
      have hone : ∀ r : Nat, _ := fun r => measure_le (nIt := 3) (fuel := fuel) (loops := 2) (m := m)
        (rotations := rotations) hv hFt hrt hj hc r
        (c * (27 * levels nKey o t - 27)) (mul_nonneg hc0 (by linarith)) (himp _ le_rfl r) (fun h => absurd h (by norm_num))
      rw [hitProb, integral_draw (fun r => ∑ k ∈ range (2 ^ nKey),
        keyProb (groverCircuitState nKey nValue (form ((some t).getD 0)) r) nKey k *
          if k ∈ optimalKeys nKey o then 1
          else if improves (o.val (pt (keyPt nKey k))) (some t) then
            hitProb nKey nValue 3 o form (optimalKeys nKey o) fuel (some (o.val (pt (keyPt nKey k)))) 0 1 (rotations + r)
          else if 2 + 1 ≥ 3 ∨ rotations + r ≥ groverMaxRotations then 0
          else hitProb nKey nValue 3 o form (optimalKeys nKey o) fuel (some t) (2 + 1) (nextRange nKey m)
            (rotations + r)) (by omega)]
      rcases hm with rfl | rfl
      · have h1 := hone 1
        rw [show (2 : Nat) - 1 = 1 from rfl, Finset.sum_range_one, show ((2 : Nat) : ℝ) - 1 = 1 by norm_num, div_one]
        refine h1.trans ?_
        push_cast
        nlinarith
      · have h1 := hone 1
        have h2 := hone 2
        rw [div_le_iff₀ (by norm_num), Finset.sum_range_succ, Finset.sum_range_one]
        refine (add_le_add h1 h2).trans (le_of_eq ?_)
        push_cast
        ring

/-- The probability that a measurement after `r` rotations shows an improvement. -/
noncomputable def betterProb (nKey nValue : Nat) (o : Objective) (form : Unitary (nKey + nValue + 1)) (r : Nat) : ℝ :=
  ∑ k ∈ range (2 ^ nKey) with o.val (pt (keyPt nKey k)) < 0, keyProb (groverCircuitState nKey nValue form r) nKey k

/-- One measurement: what follows an improvement is at least `a`, what follows the other keys at least `b`. -/
theorem step_ge {nKey : Nat} {p g : Nat → ℝ} {a b : ℝ} {good : Nat → Prop} [DecidablePred good]
    (hp : ∀ k, 0 ≤ p k) (hsum : ∑ k ∈ range (2 ^ nKey), p k = 1)
    (hg : ∀ k < 2 ^ nKey, good k → a ≤ g k) (hb : ∀ k < 2 ^ nKey, ¬ good k → b ≤ g k) :
    a * (∑ k ∈ range (2 ^ nKey) with good k, p k) + b * (1 - ∑ k ∈ range (2 ^ nKey) with good k, p k) ≤
      ∑ k ∈ range (2 ^ nKey), p k * g k := by
  have hs := Finset.sum_filter_add_sum_filter_not (range (2 ^ nKey)) good p
  rw [hsum] at hs
  rw [← hs, add_sub_cancel_left, Finset.mul_sum, Finset.mul_sum,
    ← Finset.sum_filter_add_sum_filter_not (range (2 ^ nKey)) good fun k => p k * g k]
  refine add_le_add (Finset.sum_le_sum fun k hk => ?_) (Finset.sum_le_sum fun k hk => ?_)
  · rw [Finset.mem_filter, Finset.mem_range] at hk
    rw [mul_comm]
    exact mul_le_mul_of_nonneg_left (hg k hk.1 hk.2) (hp k)
  · rw [Finset.mem_filter, Finset.mem_range] at hk
    rw [mul_comm]
    exact mul_le_mul_of_nonneg_left (hb k hk.1 hk.2) (hp k)

/-- Averages over the draws preserve bounds. -/
theorem draw_ge {f P : Nat → ℝ} {a μ : ℝ} {m : Nat} (hm : 1 ≤ m) (h : ∀ r ≤ m - 1, a * (1 - (1 - P r) * μ) ≤ f r) :
    a * (1 - (1 - ∫ u in (0 : ℝ)..1, P (rotationDraw m u)) * μ) ≤ ∫ u in (0 : ℝ)..1, f (rotationDraw m u) := by
  rcases eq_or_lt_of_le hm with rfl | hm
  · rw [integral_draw_one, integral_draw_one]
    exact h 0 le_rfl
  · have hm' : (0 : ℝ) < (m : ℝ) - 1 := by
      have : (2 : ℝ) ≤ m := by exact_mod_cast hm
      linarith
    rw [integral_draw P hm, integral_draw f hm, le_div_iff₀ hm']
    have h2 : ∑ r ∈ range (m - 1), a * (1 - (1 - P (r + 1)) * μ) ≤ ∑ r ∈ range (m - 1), f (r + 1) :=
      Finset.sum_le_sum fun r hr => h (r + 1) (by have := Finset.mem_range.mp hr; omega)
    refine le_trans (le_of_eq ?_) h2
    have h3 : ∀ r, a * (1 - (1 - P (r + 1)) * μ) = a * (1 - μ) + a * μ * P (r + 1) := fun r => by ring
    simp only [h3]
    rw [Finset.sum_add_distrib, Finset.sum_const, Finset.card_range, nsmul_eq_mul,
      Nat.cast_sub (by omega : 1 ≤ m), Nat.cast_one, ← Finset.mul_sum]
    field_simp
    ring

/-- One round: if what follows an improvement is at least `a`, the round ends with at least `a` times the probability that one
of the next `i` measurements improves. -/
theorem round_ge {nKey nValue nIt : Nat} {o : Objective} {form : ℚ → Unitary (nKey + nValue + 1)} {target : Finset Nat}
    (hv : 0 < nValue) {t : ℚ} (hFt : FormSpec nKey nValue (shiftObjective o t) (form t))
    (hrt : Representable nKey nValue (shiftObjective o t)) {a : ℝ} (ha : a ≤ 1) {top F : Nat}
    (htop : top < groverMaxRotations) (htar : ∀ k ∈ target, o.val (pt (keyPt nKey k)) < t)
    (hnext : ∀ k < 2 ^ nKey, k ∉ target → o.val (pt (keyPt nKey k)) < t → ∀ fuel ≥ F, ∀ R ≤ top,
      a ≤ hitProb nKey nValue nIt o form target fuel (some (o.val (pt (keyPt nKey k)))) 0 1 R)
    (i fuel loops m R : Nat) (hm : 1 ≤ m) (hmc : m ≤ ⌈(2 : ℝ) ^ ((nKey : ℝ) / 2)⌉₊) (hloops : loops + i ≤ nIt)
    (hR : R + i * (⌈(2 : ℝ) ^ ((nKey : ℝ) / 2)⌉₊ - 1) ≤ top) (hfuel : F + i ≤ fuel) :
    a * (1 - missProb nKey nValue (shiftObjective o t) (form t) i m) ≤
      hitProb nKey nValue nIt o form target fuel (some t) loops m R := by
  induction i generalizing fuel loops m R with
  | zero =>
    rw [missProb, sub_self, mul_zero]
    exact hit_nonneg _ _ _ _ _ _ _ _ _ _ _
  | succ i ih =>
    obtain ⟨fuel, rfl⟩ : ∃ f, fuel = f + 1 := ⟨fuel - 1, by omega⟩
    rw [missProb, hitProb]
    refine draw_ge (P := betterProb nKey nValue (shiftObjective o t) (form t)) (f := fun r => ∑ k ∈ range (2 ^ nKey),
        keyProb (groverCircuitState nKey nValue (form ((some t).getD 0)) r) nKey k *
          if k ∈ target then 1
          else if improves (o.val (pt (keyPt nKey k))) (some t) then
            hitProb nKey nValue nIt o form target fuel (some (o.val (pt (keyPt nKey k)))) 0 1 (R + r)
          else if loops + 1 ≥ nIt ∨ R + r ≥ groverMaxRotations then 0
          else hitProb nKey nValue nIt o form target fuel (some t) (loops + 1) (nextRange nKey m) (R + r)) hm fun r hr => ?_
    obtain ⟨c, hc⟩ : ∃ c, c = ⌈(2 : ℝ) ^ ((nKey : ℝ) / 2)⌉₊ := ⟨_, rfl⟩
    rw [← hc] at hmc hR ih
    have hRr : R + r + i * (c - 1) ≤ top := by
      rw [Nat.succ_mul] at hR
      omega
    have hRt : R + r ≤ top := (Nat.le_add_right _ _).trans hRr
    set μ := missProb nKey nValue (shiftObjective o t) (form t) i (nextRange nKey m) with hμ
    refine le_trans (le_of_eq ?_) (step_ge (a := a) (b := a * (1 - μ))
      (good := fun k => (shiftObjective o t).val (pt (keyPt nKey k)) < 0)
      (fun k => keyProb_nonneg _ _ _) (keyProb_sum hv hFt hrt r) ?_ ?_)
    · change _ = a * betterProb nKey nValue (shiftObjective o t) (form t) r +
        a * (1 - μ) * (1 - betterProb nKey nValue (shiftObjective o t) (form t) r)
      ring
    · intro k hk hg
      rw [shift_val, sub_neg] at hg
      split
      · exact ha
      · rename_i hkt
        rw [if_pos (by simpa [improves] using hg)]
        exact hnext k hk hkt hg fuel (by omega) _ hRt
    · intro k hk hg
      rw [shift_val, sub_neg] at hg
      have hm1 : 1 ≤ nextRange nKey m := by
        unfold nextRange
        rw [Nat.one_le_ceil_iff]
        have : (1 : ℝ) ≤ m := by exact_mod_cast hm
        exact lt_min (by linarith) (rpow_half_pos nKey)
      have hcont := ih fuel (loops + 1) (nextRange nKey m) (R + r) hm1 (hc ▸ nextRange_le nKey m) (by omega) hRr (by omega)
      split
      · rename_i hkt
        exact absurd (htar k hkt) hg
      · rw [if_neg (by simpa [improves] using hg)]
        split
        · rename_i hs
          have : i = 0 := by omega
          subst this
          rw [hμ, missProb, sub_self, mul_zero]
        · exact hcont

theorem miss_nonneg {nKey nValue : Nat} (hv : 0 < nValue) {o : Objective} {form : Unitary (nKey + nValue + 1)}
    (hF : FormSpec nKey nValue o form) (hr : Representable nKey nValue o) (l : Nat) {m : Nat} (hm : 1 ≤ m) :
    0 ≤ missProb nKey nValue o form l m := by
  have := (miss_iterate hv hF hr l 0 hm (by simp [missProb])).2
  rwa [Nat.add_zero] at this

/-- All rounds: with `d` values below the threshold the optimum is missed with probability at most `d (7/8)^l`, if the
rotations last. -/
theorem rounds_ge {nKey nValue nIt : Nat} {o : Objective} {form : ℚ → Unitary (nKey + nValue + 1)} (hk : 1 ≤ nKey)
    (hk2 : nKey ≠ 2) (hv : 0 < nValue)
    (hF : ∀ t, IsThreshold nKey o t → FormSpec nKey nValue (shiftObjective o t) (form t))
    (hr : ∀ t, IsThreshold nKey o t → Representable nKey nValue (shiftObjective o t)) (l d : Nat)
    (hIt : ⌈(2 : ℝ) ^ ((nKey : ℝ) / 2)⌉₊ - 1 + l ≤ nIt) (fuel k R : Nat) (hkl : k < 2 ^ nKey) (hkn : k ∉ optimalKeys nKey o)
    (hd : levels nKey o (o.val (pt (keyPt nKey k))) ≤ d)
    (hR : R + d * ((⌈(2 : ℝ) ^ ((nKey : ℝ) / 2)⌉₊ - 1 + l) * (⌈(2 : ℝ) ^ ((nKey : ℝ) / 2)⌉₊ - 1)) < groverMaxRotations)
    (hfuel : d * (⌈(2 : ℝ) ^ ((nKey : ℝ) / 2)⌉₊ - 1 + l) ≤ fuel) :
    1 - d * (7 / 8 : ℝ) ^ l ≤
      hitProb nKey nValue nIt o form (optimalKeys nKey o) fuel (some (o.val (pt (keyPt nKey k)))) 0 1 R := by
  obtain ⟨c, hc⟩ : ∃ c, c = ⌈(2 : ℝ) ^ ((nKey : ℝ) / 2)⌉₊ := ⟨_, rfl⟩
  induction d generalizing fuel k R with
  | zero =>
    obtain ⟨j, hj1, hj2⟩ := not_optimal hkl hkn
    have := levels_lt hj1 hj2
    omega
  | succ d ih =>
    obtain ⟨j, hj1, hj2⟩ := not_optimal hkl hkn
    set t := o.val (pt (keyPt nKey k)) with ht
    have hth : IsThreshold nKey o t := Or.inr ⟨k, hkl, ht⟩
    have hb1 : 1 ≤ below nKey (shiftObjective o t) := by
      refine Finset.card_pos.mpr ⟨j, Finset.mem_filter.mpr ⟨Finset.mem_range.mpr hj1, ?_⟩⟩
      rw [shift_val]
      linarith
    have hb2 : below nKey (shiftObjective o t) < 2 ^ nKey := by
      have : below nKey (shiftObjective o t) < (range (2 ^ nKey)).card := by
        refine Finset.card_lt_card (Finset.filter_ssubset.mpr ⟨k, Finset.mem_range.mpr hkl, ?_⟩)
        rw [shift_val, ← ht]
        simp
      rwa [Finset.card_range] at this
    have hmiss := (C81_search_partial hk hv (hF t hth) (hr t hth) hb1 hb2 (fun h => hk2 h.1) l).1
    have hpos : (0 : ℝ) ≤ (7 / 8 : ℝ) ^ l := by positivity
    rw [← hc] at hmiss hIt hR hfuel ih
    rw [Nat.succ_mul] at hR hfuel
    have h := round_ge (nIt := nIt) (target := optimalKeys nKey o) hv (hF t hth) (hr t hth)
      (a := 1 - d * (7 / 8 : ℝ) ^ l) (by have : (0 : ℝ) ≤ d * (7 / 8 : ℝ) ^ l := by positivity
                                         linarith)
      (top := R + (c - 1 + l) * (c - 1)) (F := d * (c - 1 + l)) (by omega) ?_ ?_ (c - 1 + l) fuel 0 1 R le_rfl
      (ceil_half nKey) (by omega) (by rw [← hc]) (by omega)
    · refine le_trans ?_ h
      set q := missProb nKey nValue (shiftObjective o t) (form t) (c - 1 + l) 1
      have hq : 0 ≤ q := miss_nonneg hv (hF t hth) (hr t hth) _ le_rfl
      have h1 : (0 : ℝ) ≤ d * (7 / 8 : ℝ) ^ l := by positivity
      push_cast
      nlinarith [mul_nonneg h1 hq]
    · intro k' hk'
      unfold optimalKeys at hk'
      rw [Finset.mem_filter, Finset.mem_range] at hk'
      exact lt_of_le_of_lt (hk'.2 j hj1) hj2
    · intro k' hk'l hk'n hlt fuel' hf' R' hR'
      have hl := levels_lt hk'l hlt
      exact ih fuel' k' R' hk'l hk'n (by omega) (by omega) (by omega)

end Verif

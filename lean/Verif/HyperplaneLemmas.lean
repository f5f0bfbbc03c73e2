import Mathlib.Probability.Distributions.Gaussian.Multivariate
import Mathlib.Analysis.SpecialFunctions.PolarCoord
import Mathlib.Analysis.Real.Pi.Bounds

/-!
# Random hyperplanes

The probability that a hyperplane with normally distributed coefficients separates two vectors, and the bound of that
probability by the product of the vectors.
-/

namespace Verif

open MeasureTheory ProbabilityTheory Real
open scoped ENNReal RealInnerProductSpace

/-! ## The plane -/

/-- The normal distribution on the plane. -/
noncomputable def plane : Measure (ℝ × ℝ) := (gaussianReal 0 1).prod (gaussianReal 0 1)

/-- The density of the radius. -/
noncomputable def radial (r : ℝ) : ℝ≥0∞ := ENNReal.ofReal r * (gaussianPDF 0 1 0 * gaussianPDF 0 1 r)

theorem pdf_polar (r φ : ℝ) :
    gaussianPDF 0 1 (r * cos φ) * gaussianPDF 0 1 (r * sin φ) = gaussianPDF 0 1 0 * gaussianPDF 0 1 r := by
  simp only [gaussianPDF_def, gaussianPDFReal]
  rw [← ENNReal.ofReal_mul (by positivity), ← ENNReal.ofReal_mul (by positivity)]
  congr 1
  have : rexp (-(r * cos φ - 0) ^ 2 / (2 * ((1 : NNReal) : ℝ))) * rexp (-(r * sin φ - 0) ^ 2 / (2 * ((1 : NNReal) : ℝ))) =
      rexp (-(0 - 0) ^ 2 / (2 * ((1 : NNReal) : ℝ))) * rexp (-(r - 0) ^ 2 / (2 * ((1 : NNReal) : ℝ))) := by
    rw [← Real.exp_add, ← Real.exp_add]
    congr 1
    have := sin_sq_add_cos_sq φ
    simp
    nlinarith [this]
  linear_combination (√(2 * π * ((1 : NNReal) : ℝ)))⁻¹ * (√(2 * π * ((1 : NNReal) : ℝ)))⁻¹ * this

theorem plane_polar {S : Set (ℝ × ℝ)} (hS : MeasurableSet S) {A : Set ℝ} (hA : MeasurableSet A)
    (h : ∀ r φ : ℝ, 0 < r → -π < φ → φ < π → ((r * cos φ, r * sin φ) ∈ S ↔ φ ∈ A)) :
    plane S = (∫⁻ r in Set.Ioi 0, radial r) * volume (A ∩ Set.Ioo (-π) π) := by
  unfold plane
  rw [gaussianReal_of_var_ne_zero 0 one_ne_zero, prod_withDensity (measurable_gaussianPDF 0 1) (measurable_gaussianPDF 0 1),
    withDensity_apply _ hS, ← lintegral_indicator hS, ← Measure.volume_eq_prod, ← lintegral_comp_polarCoord_symm]
  have hT : polarCoord.target = Set.Ioi (0 : ℝ) ×ˢ Set.Ioo (-π) π := rfl
  have e : ∫⁻ p in polarCoord.target, ENNReal.ofReal p.1 • S.indicator
      (fun z => gaussianPDF 0 1 z.1 * gaussianPDF 0 1 z.2) (polarCoord.symm p) =
      ∫⁻ p in polarCoord.target, radial p.1 * A.indicator (fun _ => 1) p.2 := by
    refine setLIntegral_congr_fun polarCoord.open_target.measurableSet ?_
    intro p hp
    rw [hT] at hp
    obtain ⟨h1, h2, h3⟩ := hp
    simp only [polarCoord_symm_apply, smul_eq_mul, radial]
    by_cases hm : p.2 ∈ A
    · rw [Set.indicator_of_mem hm, Set.indicator_of_mem ((h p.1 p.2 h1 h2 h3).mpr hm), pdf_polar, mul_one]
    · rw [Set.indicator_of_notMem hm, Set.indicator_of_notMem (fun hc => hm ((h p.1 p.2 h1 h2 h3).mp hc))]
      simp
  rw [e, hT, Measure.volume_eq_prod, ← Measure.prod_restrict, lintegral_prod_mul]
  · congr 1
    rw [lintegral_indicator hA]
    simp [Measure.restrict_apply, Measure.restrict_restrict hA]
  · unfold radial
    have := measurable_gaussianPDF 0 1
    fun_prop
  · exact (measurable_const.indicator hA).aemeasurable

theorem radial_total : (∫⁻ r in Set.Ioi 0, radial r) * ENNReal.ofReal (2 * π) = 1 := by
  have h := plane_polar MeasurableSet.univ MeasurableSet.univ (by simp)
  have h1 : plane Set.univ = 1 := by
    unfold plane
    exact measure_univ
  rw [h1, Set.univ_inter, Real.volume_Ioo] at h
  rw [h]
  congr 2
  ring

/-- In the plane, a random hyperplane with the vector `(1, 0)` on the positive side and a vector at angle `θ` on the
other side. -/
theorem plane_wedge {θ : ℝ} (h0 : 0 ≤ θ) (hπ : θ ≤ π) :
    plane {p | 0 < p.1 ∧ p.1 * cos θ + p.2 * sin θ ≤ 0} = ENNReal.ofReal (θ / (2 * π)) := by
  have hp := pi_pos
  have hS : MeasurableSet {p : ℝ × ℝ | 0 < p.1 ∧ p.1 * cos θ + p.2 * sin θ ≤ 0} :=
    (measurableSet_lt measurable_const measurable_fst).inter
      (measurableSet_le (f := fun p : ℝ × ℝ => p.1 * cos θ + p.2 * sin θ) (by fun_prop) measurable_const)
  have hA : MeasurableSet (Set.Ioo (-(π / 2)) (π / 2) ∩ Set.Iic (θ - π / 2)) :=
    measurableSet_Ioo.inter measurableSet_Iic
  rw [plane_polar hS hA]
  · have hv : volume ((Set.Ioo (-(π / 2)) (π / 2) ∩ Set.Iic (θ - π / 2)) ∩ Set.Ioo (-π) π) = ENNReal.ofReal θ := by
      apply le_antisymm
      · refine (measure_mono (t := Set.Ioc (-(π / 2)) (θ - π / 2)) ?_).trans ?_
        · rintro x ⟨⟨⟨h1, _⟩, h2⟩, _⟩
          exact ⟨h1, h2⟩
        · rw [Real.volume_Ioc]
          apply ENNReal.ofReal_le_ofReal
          linarith
      · refine le_trans ?_ (measure_mono (s := Set.Ioo (-(π / 2)) (θ - π / 2)) ?_)
        · rw [Real.volume_Ioo]
          apply ENNReal.ofReal_le_ofReal
          linarith
        · rintro x ⟨h1, h2⟩
          exact ⟨⟨⟨h1, by linarith⟩, h2.le⟩, by linarith, by linarith⟩
    rw [hv]
    have e : ENNReal.ofReal θ = ENNReal.ofReal (2 * π) * ENNReal.ofReal (θ / (2 * π)) := by
      rw [← ENNReal.ofReal_mul (by positivity)]
      congr 1
      field_simp
    rw [e, ← mul_assoc, radial_total, one_mul]
  · intro r φ hr h1 h2
    have e : r * cos φ * cos θ + r * sin φ * sin θ = r * cos (φ - θ) := by rw [cos_sub]; ring
    simp only [Set.mem_setOf_eq, e, Set.mem_inter_iff, Set.mem_Ioo, Set.mem_Iic]
    have hcos : 0 < r * cos φ ↔ -(π / 2) < φ ∧ φ < π / 2 := by
      rw [mul_pos_iff_of_pos_left hr]
      constructor
      · intro hc
        by_contra hn
        rcases not_and_or.mp hn with hn | hn
        · have : cos φ ≤ 0 := by
            rw [← cos_neg]
            exact cos_nonpos_of_pi_div_two_le_of_le (by linarith) (by linarith)
          linarith
        · have : cos φ ≤ 0 := cos_nonpos_of_pi_div_two_le_of_le (by linarith) (by linarith)
          linarith
      · rintro ⟨a, b⟩
        exact cos_pos_of_mem_Ioo ⟨a, b⟩
    rw [hcos]
    refine and_congr_right ?_
    rintro ⟨a, b⟩
    constructor
    · intro hc
      by_contra hn
      have : 0 < cos (φ - θ) := cos_pos_of_mem_Ioo ⟨by linarith, by linarith⟩
      nlinarith [mul_pos hr this]
    · intro hc
      have : cos (φ - θ) ≤ 0 := by
        rw [← cos_neg]
        exact cos_nonpos_of_pi_div_two_le_of_le (by linarith) (by linarith)
      nlinarith

/-! ## Vectors of any dimension -/

/-- The two coordinates of a random vector along `u` and `v`. -/
noncomputable def shadow {n : Nat} (u v : EuclideanSpace ℝ (Fin n)) : Measure (EuclideanSpace ℝ (Fin 2)) :=
  (stdGaussian (EuclideanSpace ℝ (Fin n))).map fun r => !₂[⟪r, u⟫, ⟪r, v⟫]

theorem shadow_measurable {n : Nat} (u v : EuclideanSpace ℝ (Fin n)) :
    Measurable fun r : EuclideanSpace ℝ (Fin n) => !₂[⟪r, u⟫, ⟪r, v⟫] := by
  have : Continuous fun r : EuclideanSpace ℝ (Fin n) => !₂[⟪r, u⟫, ⟪r, v⟫] := by
    refine (PiLp.continuous_toLp 2 _).comp ?_
    refine continuous_pi ?_
    intro i
    fin_cases i
    · exact Continuous.inner continuous_id continuous_const
    · exact Continuous.inner continuous_id continuous_const
  exact this.measurable

theorem shadow_charFun {n : Nat} (u v : EuclideanSpace ℝ (Fin n)) (t : EuclideanSpace ℝ (Fin 2)) :
    charFun (shadow u v) t =
      Complex.exp (-(((t 0) ^ 2 * ⟪u, u⟫ + 2 * (t 0 * t 1) * ⟪u, v⟫ + (t 1) ^ 2 * ⟪v, v⟫ : ℝ) : ℂ) / 2) := by
  have e : charFun (shadow u v) t = charFun (stdGaussian (EuclideanSpace ℝ (Fin n))) (t 0 • u + t 1 • v) := by
    rw [charFun_apply, charFun_apply, shadow, integral_map (shadow_measurable u v).aemeasurable]
    · refine integral_congr_ae (Filter.Eventually.of_forall fun r => ?_)
      simp only
      congr 3
      rw [PiLp.inner_apply, inner_add_right, inner_smul_right, inner_smul_right]
      simp [Fin.sum_univ_two]
    · fun_prop
  rw [e, charFun_stdGaussian]
  congr 2
  rw [← Complex.ofReal_pow, ← real_inner_self_eq_norm_sq, ← Complex.ofReal_neg, ← Complex.ofReal_neg]
  congr 2
  rw [inner_add_left, inner_add_right, inner_add_right]
  simp only [inner_smul_left, inner_smul_right, conj_trivial]
  rw [real_inner_comm u v]
  ring

theorem shadow_congr {n m : Nat} {u v : EuclideanSpace ℝ (Fin n)} {u' v' : EuclideanSpace ℝ (Fin m)}
    (h1 : ⟪u, u⟫ = ⟪u', u'⟫) (h2 : ⟪u, v⟫ = ⟪u', v'⟫) (h3 : ⟪v, v⟫ = ⟪v', v'⟫) : shadow u v = shadow u' v' := by
  have : IsFiniteMeasure (shadow u v) := by unfold shadow; infer_instance
  have : IsFiniteMeasure (shadow u' v') := by unfold shadow; infer_instance
  apply Measure.ext_of_charFun
  ext t
  rw [shadow_charFun, shadow_charFun, h1, h2, h3]

theorem inner_toLp {n : Nat} (u v : Fin n → ℝ) :
    ⟪WithLp.toLp 2 u, WithLp.toLp 2 v⟫ = ∑ k, u k * v k := by
  simp [PiLp.inner_apply, mul_comm]

/-- The distribution of `n` independent normal coefficients. -/
noncomputable def normals (n : Nat) : Measure (Fin n → ℝ) := Measure.pi fun _ => gaussianReal 0 1

instance (n : Nat) : IsProbabilityMeasure (normals n) := by unfold normals; infer_instance

theorem halfspaces_measurable {n : Nat} (u v : Fin n → ℝ) :
    MeasurableSet {r : Fin n → ℝ | 0 < ∑ k, r k * u k ∧ ∑ k, r k * v k ≤ 0} :=
  (measurableSet_lt measurable_const (g := fun r : Fin n → ℝ => ∑ k, r k * u k) (by fun_prop)).inter
    (measurableSet_le (f := fun r : Fin n → ℝ => ∑ k, r k * v k) (by fun_prop) measurable_const)

theorem normals_shadow {n : Nat} (u v : Fin n → ℝ) :
    normals n {r | 0 < ∑ k, r k * u k ∧ ∑ k, r k * v k ≤ 0} =
      shadow (WithLp.toLp 2 u) (WithLp.toLp 2 v) {t | 0 < t 0 ∧ t 1 ≤ 0} := by
  have hq : MeasurableSet {t : EuclideanSpace ℝ (Fin 2) | 0 < t 0 ∧ t 1 ≤ 0} :=
    (measurableSet_lt measurable_const (g := fun t : EuclideanSpace ℝ (Fin 2) => t 0) (by fun_prop)).inter
      (measurableSet_le (f := fun t : EuclideanSpace ℝ (Fin 2) => t 1) (by fun_prop) measurable_const)
  rw [shadow, Measure.map_apply (shadow_measurable _ _) hq, ← map_pi_eq_stdGaussian,
    Measure.map_apply (by fun_prop) ((shadow_measurable _ _) hq)]
  unfold normals
  congr 1
  ext r
  simp [PiLp.inner_apply, mul_comm]

/-- The probability that a random hyperplane has `u` on the positive side and `v` on the other side is proportional to
the angle between them. -/
theorem normals_wedge {n : Nat} {u v : Fin n → ℝ} {a : ℝ} (ha : 0 < a) (hu : ∑ k, u k * u k = a)
    (hv : ∑ k, v k * v k = a) :
    normals n {r | 0 < ∑ k, r k * u k ∧ ∑ k, r k * v k ≤ 0} =
      ENNReal.ofReal (arccos ((∑ k, u k * v k) / a) / (2 * π)) := by
  have hcs : (∑ k, u k * v k) ^ 2 ≤ a ^ 2 := by
    have := Finset.sum_mul_sq_le_sq_mul_sq Finset.univ u v
    simp only [pow_two (u _), pow_two (v _), hu, hv] at this
    nlinarith
  have habs := abs_le_of_sq_le_sq' hcs ha.le
  have hc1 : -1 ≤ (∑ k, u k * v k) / a := by rw [le_div_iff₀ ha]; linarith [habs.1]
  have hc2 : (∑ k, u k * v k) / a ≤ 1 := by rw [div_le_iff₀ ha]; linarith [habs.2]
  set θ := arccos ((∑ k, u k * v k) / a) with hθ
  have hcos : cos θ = (∑ k, u k * v k) / a := cos_arccos hc1 hc2
  have hs := Real.mul_self_sqrt ha.le
  have hsp : 0 < √a := Real.sqrt_pos.mpr ha
  rw [← plane_wedge (arccos_nonneg _) (arccos_le_pi _), normals_shadow,
    shadow_congr (u' := WithLp.toLp 2 ![√a, 0]) (v' := WithLp.toLp 2 ![√a * cos θ, √a * sin θ]), ← normals_shadow]
  · have hm := (measurePreserving_finTwoArrow (gaussianReal 0 1)).measure_preimage
      (s := {p : ℝ × ℝ | 0 < p.1 ∧ p.1 * cos θ + p.2 * sin θ ≤ 0}) (by
        apply MeasurableSet.nullMeasurableSet
        exact (measurableSet_lt measurable_const measurable_fst).inter
          (measurableSet_le (f := fun p : ℝ × ℝ => p.1 * cos θ + p.2 * sin θ) (by fun_prop) measurable_const))
    unfold plane
    rw [← hm]
    unfold normals
    congr 1
    ext r
    simp only [Fin.sum_univ_two, Matrix.cons_val_zero, Matrix.cons_val_one, mul_zero, add_zero, Set.mem_setOf_eq,
      Set.mem_preimage, MeasurableEquiv.finTwoArrow_apply]
    rw [mul_pos_iff_of_pos_right hsp]
    refine and_congr_right fun _ => ?_
    have : r 0 * (√a * cos θ) + r 1 * (√a * sin θ) = √a * (r 0 * cos θ + r 1 * sin θ) := by ring
    rw [this, mul_nonpos_iff_pos_imp_nonpos]
    constructor
    · intro h
      exact h.1 hsp
    · intro h
      exact ⟨fun _ => h, fun _ => hsp.le⟩
  · rw [inner_toLp, inner_toLp, hu]
    simp [Fin.sum_univ_two, hs]
  · rw [inner_toLp, inner_toLp]
    simp only [Fin.sum_univ_two, Matrix.cons_val_zero, Matrix.cons_val_one, zero_mul, add_zero]
    rw [← mul_assoc, hs, hcos]
    field_simp
  · rw [inner_toLp, inner_toLp, hv]
    simp only [Fin.sum_univ_two, Matrix.cons_val_zero, Matrix.cons_val_one]
    linear_combination -a * sin_sq_add_cos_sq θ - (cos θ ^ 2 + sin θ ^ 2) * hs

/-! ## The bound of the angle -/

/-- The ratio of Goemans and Williamson: an angle is at least `0.8784 · (π / 2)` times one minus its cosine. -/
theorem angle_ratio {θ : ℝ} (h0 : 0 ≤ θ) (hπ : θ ≤ π) : 0.8784 * (π / 2) * (1 - cos θ) ≤ θ := by
  have hp1 := pi_gt_d4
  have hp2 := pi_lt_d4
  have h2 : √2 < 1.41422 := by
    rw [Real.sqrt_lt' (by norm_num)]
    norm_num
  have h2' : 1.41421 < √2 := by
    rw [Real.lt_sqrt (by norm_num)]
    norm_num
  rcases le_total θ (π / 2) with h | h
  · have := Real.one_sub_mul_le_cos h0 h
    have e : 0.8784 * (π / 2) * (2 / π * θ) = 0.8784 * θ := by field_simp
    have hm : 0.8784 * (π / 2) * (1 - cos θ) ≤ 0.8784 * (π / 2) * (2 / π * θ) :=
      mul_le_mul_of_nonneg_left (by linarith) (by positivity)
    linarith
  · obtain ⟨s, hs⟩ : ∃ s, s = 3 * π / 4 - θ := ⟨_, rfl⟩
    have hc : cos θ = -(√2 / 2 * (cos s - sin s)) := by
      have : θ = π - (π / 4 + s) := by rw [hs]; ring
      rw [this, cos_pi_sub, cos_add, cos_pi_div_four, sin_pi_div_four]
      ring
    have hθ : θ = 3 * π / 4 - s := by rw [hs]; ring
    rw [hc, hθ]
    have hs1 : -(π / 4) ≤ s := by linarith
    have hs2 : s ≤ π / 4 := by linarith
    -- the quadratic bound
    have hq : cos s - sin s ≤ 1 - s ∧ (0 ≤ s → cos s - sin s ≤ 1 - s - 33 / 100 * s ^ 2) := by
      have hb : 0 ≤ s → cos s - sin s ≤ 1 - s - 33 / 100 * s ^ 2 := by
        intro hpos
        have h3 : s ≤ 0.7854 := by linarith
        have hcb := (abs_le.mp (Real.cos_bound (x := s) (by rw [abs_of_nonneg hpos]; linarith))).2
        rw [abs_of_nonneg hpos] at hcb
        have hsb : s - s ^ 3 / 6 ≤ sin s := by
          rcases hpos.eq_or_lt with e | e
          · rw [← e]; simp
          · exact (Real.sin_gt_sub_cube e).le
        have h4 : s ^ 3 ≤ 0.7854 * s ^ 2 := by nlinarith [sq_nonneg s]
        have h5 : s ^ 4 ≤ 0.617 * s ^ 2 := by nlinarith [sq_nonneg s, mul_nonneg hpos (sq_nonneg s)]
        nlinarith [sq_nonneg s]
      refine ⟨?_, hb⟩
      rcases le_total 0 s with hpos | hneg
      · linarith [hb hpos, sq_nonneg s]
      · have h1 := cos_le_one s
        have h3 : sin (-s) ≤ -s := Real.sin_le (by linarith)
        rw [Real.sin_neg] at h3
        linarith
    obtain ⟨c, hcdef⟩ : ∃ c, c = 0.8784 * (π / 2) * (√2 / 2) := ⟨_, rfl⟩
    have hc1 : c < 0.9758 := by rw [hcdef]; nlinarith
    have hc2 : 0.9755 < c := by rw [hcdef]; nlinarith
    have hcon : 0.8784 * (π / 2) + c + 0.0007 ≤ 3 * π / 4 := by rw [hcdef]; nlinarith
    have hm : 0.8784 * (π / 2) * (1 - -(√2 / 2 * (cos s - sin s))) = 0.8784 * (π / 2) + c * (cos s - sin s) := by
      rw [hcdef]; ring
    rw [hm]
    rcases le_total 0 s with hpos | hneg
    · have := mul_le_mul_of_nonneg_left (hq.2 hpos) (by linarith : 0 ≤ c)
      nlinarith [sq_nonneg (s - 0.038), mul_nonneg hpos hpos]
    · have := mul_le_mul_of_nonneg_left hq.1 (by linarith : 0 ≤ c)
      nlinarith

end Verif

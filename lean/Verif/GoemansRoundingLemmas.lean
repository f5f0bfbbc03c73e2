import Verif.GoemansRounding
import Verif.HyperplaneLemmas
import Verif.PropsGoemans
import Mathlib.Analysis.Matrix.PosDef

/-!
# Lemmas on the random hyperplanes of the Goemans-Williamson optimizer
-/

namespace Verif

open Matrix MeasureTheory Real

/-- `lam` is the smallest eigenvalue of the matrix. -/
def LeastEigenvalue {n : Nat} (a : RMat n) (lam : ℝ) : Prop :=
  (∃ v ≠ 0, a *ᵥ v = lam • v) ∧ ∀ (mu : ℝ) v, v ≠ 0 → a *ᵥ v = mu • v → lam ≤ mu

theorem posDef_of_eigen {n : Nat} {a : RMat n} (ha : a.IsHermitian)
    (h : ∀ (mu : ℝ) v, v ≠ 0 → a *ᵥ v = mu • v → 0 < mu) : a.PosDef := by
  rw [ha.posDef_iff_eigenvalues_pos]
  intro i
  refine h _ _ ?_ (ha.mulVec_eigenvectorBasis i)
  intro e
  have := ha.eigenvectorBasis.orthonormal.ne_zero i
  apply this
  ext k
  exact congrFun e k

/-- How much is added to the diagonal. -/
noncomputable def shift (lam : ℝ) : ℝ := if lam < 0 then 1.001 * |lam| else if lam = 0 then 0.00001 else 0

theorem shiftChi_eq {n : Nat} (lam : ℝ) (chi : RMat n) : shiftChi lam chi = chi + shift lam • (1 : RMat n) := by
  unfold shiftChi shift
  split_ifs <;> simp

theorem shift_pos (lam : ℝ) : 0 ≤ shift lam ∧ 0 < lam + shift lam := by
  unfold shift
  split_ifs with h1 h2
  · rw [abs_of_neg h1]
    constructor <;> linarith
  · rw [h2]; norm_num
  · constructor
    · exact le_refl _
    · rw [add_zero]
      exact lt_of_le_of_ne (not_lt.mp h1) (Ne.symm h2)

theorem shift_posDef {n : Nat} {chi : RMat n} {lam : ℝ} (hs : chi.IsHermitian) (hl : LeastEigenvalue chi lam) :
    (shiftChi lam chi).PosDef := by
  rw [shiftChi_eq]
  apply posDef_of_eigen
  · apply hs.add
    simp [Matrix.IsHermitian, conjTranspose_smul]
  · intro mu v hv e
    have := hl.2 (mu - shift lam) v hv (by
      rw [Matrix.add_mulVec, Matrix.smul_mulVec, Matrix.one_mulVec] at e
      rw [sub_smul, ← e]; simp)
    linarith [(shift_pos lam).2]

/-! ## The expected weight of a cut -/

open Classical in
theorem expected_cut {n : Nat} {l : RMat n} {a : ℝ} (ha : 0 < a) (hd : ∀ i, (l * lᵀ) i i = a) (adj : RMat n) :
    ∫ r, ∑ i, ∑ j, adj i j * (if hyperplaneSide l r i = true ∧ hyperplaneSide l r j = false then 1 else 0) ∂normals n =
      ∑ i, ∑ j, adj i j * (arccos ((l * lᵀ) i j / a) / (2 * π)) := by
  have key : ∀ i j, ∀ r : Fin n → ℝ, (if hyperplaneSide l r i = true ∧ hyperplaneSide l r j = false then (1 : ℝ) else 0) =
      Set.indicator {r : Fin n → ℝ | 0 < ∑ k, r k * l i k ∧ ∑ k, r k * l j k ≤ 0} 1 r := by
    intro i j r
    have h : (hyperplaneSide l r i = true ∧ hyperplaneSide l r j = false) ↔
        0 < ∑ k, r k * l i k ∧ ∑ k, r k * l j k ≤ 0 := by
      unfold hyperplaneSide
      rw [decide_eq_true_eq, decide_eq_false_iff_not, not_lt]
      rfl
    by_cases hc : r ∈ {r : Fin n → ℝ | 0 < ∑ k, r k * l i k ∧ ∑ k, r k * l j k ≤ 0}
    · rw [if_pos (h.mpr hc), Set.indicator_of_mem hc, Pi.one_apply]
    · rw [if_neg fun e => hc (h.mp e), Set.indicator_of_notMem hc]
  simp only [key]
  have hint : ∀ i j, Integrable (fun r => adj i j *
      Set.indicator {r : Fin n → ℝ | 0 < ∑ k, r k * l i k ∧ ∑ k, r k * l j k ≤ 0} 1 r) (normals n) := fun i j =>
    ((integrable_const (1 : ℝ)).indicator (halfspaces_measurable _ _)).const_mul _
  rw [integral_finsetSum _ fun i _ => integrable_finsetSum _ fun j _ => hint i j]
  refine Finset.sum_congr rfl fun i _ => ?_
  rw [integral_finsetSum _ fun j _ => hint i j]
  refine Finset.sum_congr rfl fun j _ => ?_
  rw [integral_const_mul, integral_indicator_one (halfspaces_measurable _ _)]
  congr 1
  rw [Measure.real, normals_wedge ha]
  · rw [ENNReal.toReal_ofReal]
    · simp [Matrix.mul_apply]
    · have := arccos_nonneg ((∑ k, l i k * l j k) / a)
      positivity
  · rw [← hd i]; simp [Matrix.mul_apply]
  · rw [← hd j]; simp [Matrix.mul_apply]

/-- A term of the expected weight in terms of the semidefinite program. -/
theorem term_bound {c s : ℝ} (hs : 0 ≤ s) (hs' : 0.878 * (1 + s) ≤ 0.8784) (hc : c ≤ 1 + s) (hc' : -(1 + s) ≤ c) :
    0.878 / 4 * (1 - c) ≤ arccos (c / (1 + s)) / (2 * π) := by
  have hp := pi_pos
  have hpos : 0 < 1 + s := by linarith
  rcases le_total 1 c with h1 | h1
  · have := arccos_nonneg (c / (1 + s))
    have h2 : 0 ≤ arccos (c / (1 + s)) / (2 * π) := by positivity
    nlinarith
  have h := angle_ratio (arccos_nonneg (c / (1 + s))) (arccos_le_pi _)
  rw [cos_arccos (by rw [le_div_iff₀ hpos]; linarith) (by rw [div_le_iff₀ hpos]; linarith)] at h
  rw [le_div_iff₀ (by positivity)]
  refine le_trans ?_ h
  have e : 1 - c / (1 + s) = (1 - c + s) / (1 + s) := by field_simp; ring
  rw [e]
  have h2 : 0.878 * (1 - c) ≤ 0.8784 * ((1 - c + s) / (1 + s)) := by
    rw [← mul_div_assoc, le_div_iff₀ hpos]
    nlinarith
  nlinarith

/-- The entries of a product of a matrix and its transpose are bounded by the diagonal. -/
theorem gram_le {n : Nat} {l : RMat n} {a : ℝ} (ha : 0 < a) (hd : ∀ i, (l * lᵀ) i i = a) (i j : Fin n) :
    -a ≤ (l * lᵀ) i j ∧ (l * lᵀ) i j ≤ a := by
  have h := Finset.sum_mul_sq_le_sq_mul_sq Finset.univ (fun k => l i k) (fun k => l j k)
  have hi := hd i
  have hj := hd j
  simp only [Matrix.mul_apply, Matrix.transpose_apply] at hi hj ⊢
  simp only [pow_two (l _ _), hi, hj] at h
  exact abs_le_of_sq_le_sq' (by nlinarith) ha.le

/-! ## The returned value and the first cut -/

theorem gw_first {numCuts : Nat} {sort unique : Bool} {side : Nat → Nat → Bool} {p : QP} {r : Result}
    (h : goemansWilliamson numCuts sort unique (some side) p = .ok r) :
    ∃ f, r.fval = some f ∧
      cutWeight p.objective.quadratic.n (adjacency p) (fun i => if side 0 i then 1 else 0) ≤ f := by
  obtain ⟨sols, hf⟩ := gw_facts h
  obtain ⟨c, l, e1, _, e3, e4, e5⟩ := hf.first
  refine ⟨c.2, e3, ?_⟩
  set n := p.objective.quadratic.n with hn
  have hnum : 0 < numCuts := by
    have := hf.few
    rw [e1] at this
    simp at this
    omega
  have hg : (randomCuts numCuts n side)[0]? = some ((List.range n).map fun i => if side 0 i then 1 else 0) := by
    unfold randomCuts
    rw [List.getElem?_map, List.getElem?_range hnum]
    rfl
  set g := (List.range n).map fun i => if side 0 i then 1 else 0 with hgdef
  have hgm : g ∈ randomCuts numCuts n side := List.mem_of_getElem? hg
  have hgc : IsCut n g := randomCuts_cut g hgm
  have hw : cutWeight n (adjacency p) (fun i => if side 0 i then 1 else 0) =
      cutWeight n (adjacency p) (pt (cutPoint g)) := by
    have hv : ∀ i < n, pt (cutPoint g) i = if side 0 i then 1 else 0 := by
      intro i hi
      rw [pt_cut, hgdef, List.getD_eq_getElem?_getD, List.getElem?_map, List.getElem?_range hi]
      cases h0 : side 0 i <;> simp [h0]
    unfold cutWeight
    refine Finset.sum_congr rfl fun i hi => Finset.sum_congr rfl fun j hj => ?_
    have hi' := Finset.mem_range.mp hi
    have hj' := Finset.mem_range.mp hj
    rw [hv i hi', hv j (by omega)]
  rw [hw]
  have hcs : c ∈ sols := by rw [e1]; simp
  cases sort with
  | true =>
    obtain ⟨d, hd, h1⟩ := hf.cover g hgm
    have h2 := e4 rfl d hd
    rw [(hf.cut d hd).2] at h2
    rcases h1 with h1 | ⟨_, h1⟩
    · rw [h1] at h2; exact h2
    · rw [h1, cutWeight_flip hgc] at h2; exact h2
  | false =>
    obtain ⟨g', hg', h1⟩ := e5 rfl
    rw [hg] at hg'
    cases hg'
    rw [(hf.cut c hcs).2]
    rcases h1 with h1 | h1
    · rw [h1]
    · rw [h1, cutWeight_flip hgc]

/-- The weight of the cut of the vertices on the positive side, as a sum over all pairs. -/
theorem cutWeight_real (n : Nat) (a : Nat → Nat → ℚ) (hs : ∀ i j, a i j = a j i) (b : Nat → Bool) :
    ((cutWeight n a (fun i => if b i then 1 else 0) : ℚ) : ℝ) =
      ∑ i : Fin n, ∑ j : Fin n, (a i j : ℝ) * (if b i = true ∧ b j = false then 1 else 0) := by
  rw [← cut_sum n a hs _ (fun i _ => by cases b i <;> simp), Rat.cast_sum, Finset.sum_range]
  refine Finset.sum_congr rfl fun i _ => ?_
  rw [Rat.cast_sum, Finset.sum_range]
  refine Finset.sum_congr rfl fun j _ => ?_
  cases b i <;> cases b j <;> simp

/-- The matrix of a cut. -/
noncomputable def cutMat (n : Nat) (b : Nat → Bool) : RMat n :=
  Matrix.of fun i j => (if b i then 1 else -1) * (if b j then 1 else -1)

theorem cutMat_feasible (n : Nat) (b : Nat → Bool) : SdpFeasible (cutMat n b) := by
  constructor
  · have : cutMat n b = Matrix.vecMulVec (fun i : Fin n => if b i then (1 : ℝ) else -1)
        (star fun i : Fin n => if b i then (1 : ℝ) else -1) := by
      ext i j
      simp [cutMat, Matrix.vecMulVec_apply]
    rw [this]
    exact Matrix.posSemidef_vecMulVec_self_star _
  · intro i
    cases h : b i <;> simp [cutMat, h]

theorem cutMat_objective (n : Nat) (a : Nat → Nat → ℚ) (hs : ∀ i j, a i j = a j i) (b : Nat → Bool) :
    sdpObjective (Matrix.of fun i j : Fin n => (a i j : ℝ)) (cutMat n b) =
      4 * ((cutWeight n a (fun i => if b i then 1 else 0) : ℚ) : ℝ) := by
  have h1 := cutWeight_real n a hs b
  have h2 : ((cutWeight n a (fun i => if b i then 1 else 0) : ℚ) : ℝ) =
      ∑ i : Fin n, ∑ j : Fin n, (a i j : ℝ) * (if b j = true ∧ b i = false then 1 else 0) := by
    rw [h1, Finset.sum_comm]
    refine Finset.sum_congr rfl fun i _ => Finset.sum_congr rfl fun j _ => ?_
    rw [hs]
  have h3 : sdpObjective (Matrix.of fun i j : Fin n => (a i j : ℝ)) (cutMat n b) =
      ∑ i : Fin n, ∑ j : Fin n, (2 * ((a i j : ℝ) * (if b i = true ∧ b j = false then 1 else 0)) +
        2 * ((a i j : ℝ) * (if b j = true ∧ b i = false then 1 else 0))) := by
    unfold sdpObjective
    refine Finset.sum_congr rfl fun i _ => Finset.sum_congr rfl fun j _ => ?_
    cases hi : b i <;> cases hj : b j <;> simp [cutMat, hi, hj] <;> ring
  rw [h3]
  simp only [Finset.sum_add_distrib, ← Finset.mul_sum]
  rw [← h1, ← h2]
  ring

end Verif

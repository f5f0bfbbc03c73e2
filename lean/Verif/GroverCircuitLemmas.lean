import Verif.GroverCircuit
import Verif.GroverLemmas

/-!
# Lemmas about the circuits of the Grover optimizer
-/

namespace Verif

open Matrix Finset

/-- The basis state of an outcome string (missing qubits are zero). -/
def stringBits (q : Nat) (s : List Char) : Bits q := fun i => s.getD i '0' == '1'

/-- The state that is a basis state. -/
def ket (q : Nat) (s : List Char) : Bits q → ℂ := Pi.single (stringBits q s) 1

theorem onQubit_single {q : Nat} (u : Bool → Bool → ℂ) (j : Fin q) (b : Bits q) :
    (onQubit u j).mulVec (Pi.single b 1) = u false (b j) • Pi.single (Function.update b j false) 1 +
      u true (b j) • Pi.single (Function.update b j true) 1 := by
  rw [Matrix.mulVec_single_one]
  funext a
  simp only [Matrix.col_apply, onQubit, Pi.add_apply, Pi.smul_apply, Pi.single_apply, smul_eq_mul]
  cases h : a j
  · have : a ≠ Function.update b j true := fun hh => by rw [hh] at h; simp at h
    simp [this]
  · have : a ≠ Function.update b j false := fun hh => by rw [hh] at h; simp at h
    simp [this]

theorem update_stringBits {q : Nat} {s : List Char} (hs : s.length < q) (c : Bool) :
    Function.update (stringBits q s) ⟨s.length, hs⟩ c = stringBits q (s ++ [if c then '1' else '0']) := by
  funext i
  rcases lt_trichotomy i.val s.length with h | h | h
  · rw [Function.update_of_ne (by intro hh; rw [hh] at h; simp at h)]
    simp [stringBits, List.getD_eq_getElem?_getD, List.getElem?_append_left h]
  · have : i = ⟨s.length, hs⟩ := Fin.ext h
    subst this
    cases c <;> simp [stringBits, List.getD_eq_getElem?_getD]
  · rw [Function.update_of_ne (by intro hh; rw [hh] at h; simp at h)]
    have h1 : s[i.val]? = none := List.getElem?_eq_none (by omega)
    have h2 : (s ++ [if c then '1' else '0'])[i.val]? = none := List.getElem?_eq_none (by simp; omega)
    simp [stringBits, List.getD_eq_getElem?_getD, h1, h2]

theorem hGate_ket {q : Nat} {s : List Char} (hs : s.length < q) :
    (onQubit hGate ⟨s.length, hs⟩).mulVec (ket q s) =
      (((Real.sqrt 2)⁻¹ : ℝ) : ℂ) • (ket q (s ++ ['0']) + ket q (s ++ ['1'])) := by
  have h : stringBits q s ⟨s.length, hs⟩ = false := by simp [stringBits, List.getD_eq_getElem?_getD]
  unfold ket
  rw [onQubit_single, h, update_stringBits hs false, update_stringBits hs true]
  simp [hGate]

theorem sum_range_double {M : Type} [AddCommMonoid M] (f : Nat → M) (n : Nat) :
    ∑ k ∈ range (2 * n), f k = ∑ k ∈ range n, (f (2 * k) + f (2 * k + 1)) := by
  induction n with
  | zero => simp
  | succ n ih => rw [show 2 * (n + 1) = 2 * n + 1 + 1 by ring, sum_range_succ, sum_range_succ, ih, sum_range_succ, add_assoc]

theorem hadamards_ket {q : Nat} : ∀ (k : Nat) (h : k ≤ q), (hadamards k h).mulVec (ket q []) =
    ((((Real.sqrt 2)⁻¹ : ℝ) : ℂ) ^ k) • ∑ x ∈ range (2 ^ k), ket q (bitString k x)
  | 0, _ => by simp [hadamards, bitString]
  | k + 1, h => by
    rw [hadamards, ← Matrix.mulVec_mulVec, hadamards_ket k (by omega), Matrix.mulVec_smul, Matrix.mulVec_sum]
    rw [pow_succ (2 : Nat), mul_comm, sum_range_double, pow_succ, mul_smul]
    congr 1
    rw [Finset.smul_sum]
    refine Finset.sum_congr rfl fun x _ => ?_
    have hl := bitString_length k x
    have := hGate_ket (q := q) (s := bitString k x) (by omega)
    simp only [hl] at this
    rw [this]
    congr 2
    · simp [bitString, show 2 * x / 2 = x by omega]
    · simp [bitString, show (2 * x + 1) / 2 = x by omega, show (2 * x + 1) % 2 = 1 by omega]

theorem sqrt_two_sq : (((Real.sqrt 2)⁻¹ : ℝ) : ℂ) * (((Real.sqrt 2)⁻¹ : ℝ) : ℂ) = 1 / 2 := by
  rw [← Complex.ofReal_mul, ← mul_inv, Real.mul_self_sqrt (by norm_num)]
  norm_num

theorem hGate_mul {q : Nat} (j : Fin q) : onQubit hGate j * onQubit hGate j = 1 := by
  refine Matrix.ext_of_mulVec_single fun b => ?_
  rw [← Matrix.mulVec_mulVec, onQubit_single, Matrix.mulVec_add, Matrix.mulVec_smul, Matrix.mulVec_smul, onQubit_single,
    onQubit_single, Matrix.one_mulVec]
  simp only [Function.update_self, Function.update_idem, smul_add, smul_smul]
  have hb : b = Function.update b j (b j) := by simp
  cases h : b j
  · rw [h] at hb
    rw [← hb]
    simp only [hGate, Bool.and_false, Bool.false_and, Bool.and_true, Bool.true_and, if_true, Bool.false_eq_true, if_false, one_mul,
      sqrt_two_sq, neg_mul, mul_neg]
    module
  · rw [h] at hb
    rw [← hb]
    simp only [hGate, Bool.and_false, Bool.false_and, Bool.and_true, Bool.true_and, if_true, Bool.false_eq_true, if_false, one_mul,
      sqrt_two_sq, neg_mul, mul_neg, neg_neg]
    module

theorem hGate_star {q : Nat} (j : Fin q) : (onQubit hGate j).conjTranspose = onQubit hGate j := by
  ext a b
  have hiff : (b = Function.update a j (b j)) ↔ (a = Function.update b j (a j)) := by
    constructor
    · intro h; rw [h]; simp
    · intro h; rw [h]; simp
  simp only [Matrix.conjTranspose_apply, onQubit, hiff]
  by_cases h : a = Function.update b j (a j)
  · rw [if_pos h, if_pos h]
    simp only [hGate]
    cases a j <;> cases b j <;> simp
  · rw [if_neg h, if_neg h]; simp

theorem hadamards_unitary {q : Nat} : ∀ (k : Nat) (h : k ≤ q), hadamards k h ∈ Matrix.unitaryGroup (Bits q) ℂ
  | 0, _ => by rw [hadamards]; exact Submonoid.one_mem _
  | k + 1, h => by
    rw [hadamards]
    refine Submonoid.mul_mem _ ?_ (hadamards_unitary k _)
    rw [Matrix.mem_unitaryGroup_iff, Matrix.star_eq_conjTranspose, hGate_star, hGate_mul]

theorem zeroReflection_mulVec {q : Nat} (v : Bits q → ℂ) :
    (zeroReflection q).mulVec v = (2 * v (fun _ => false)) • Pi.single (fun _ => false) 1 - v := by
  funext a
  simp only [Matrix.mulVec, dotProduct, zeroReflection, Pi.sub_apply, Pi.smul_apply, smul_eq_mul, Pi.single_apply, ite_mul,
    zero_mul, Finset.sum_ite_eq, Finset.mem_univ, if_true]
  by_cases h : a = fun _ => false
  · subst h; simp; ring
  · simp [h]

theorem reflection_mulVec {q : Nat} {a : Unitary q} (ha : a ∈ Matrix.unitaryGroup (Bits q) ℂ) (v : Bits q → ℂ) :
    (a * zeroReflection q * a.conjTranspose).mulVec v =
      (2 * (star (a.mulVec (Pi.single (fun _ => false) 1)) ⬝ᵥ v)) • a.mulVec (Pi.single (fun _ => false) 1) - v := by
  rw [← Matrix.mulVec_mulVec, ← Matrix.mulVec_mulVec, zeroReflection_mulVec, Matrix.mulVec_sub, Matrix.mulVec_smul,
    Matrix.mulVec_mulVec v, ← Matrix.star_eq_conjTranspose, Matrix.mem_unitaryGroup_iff.mp ha, Matrix.one_mulVec]
  congr 3
  rw [Matrix.mulVec_single_one]
  rfl

/-! ## Superpositions of the states that show a key -/

theorem outcomeOf_stringBits {q : Nat} {s : List Char} (hb : ∀ c ∈ s, c = '0' ∨ c = '1') (hl : s.length ≤ q) :
    outcomeOf (stringBits q s) = s ++ List.replicate (q - s.length) '0' := by
  refine List.ext_getElem (by simp [outcomeOf]; omega) fun i h1 h2 => ?_
  simp only [outcomeOf, List.getElem_ofFn, stringBits, List.getD_eq_getElem?_getD]
  by_cases hi : i < s.length
  · rw [List.getElem_append_left hi, List.getElem?_eq_getElem hi]
    rcases hb _ (List.getElem_mem hi) with h | h <;> simp [h]
  · rw [List.getElem_append_right (by omega), List.getElem?_eq_none (by omega)]
    simp

theorem bitString_inj {n k l : Nat} (hk : k < 2 ^ n) (hl : l < 2 ^ n) (h : bitString n k = bitString n l) : k = l := by
  rw [← bitString_fold n k hk, ← bitString_fold n l hl, h]

/-- The state with amplitude `a k` at the basis state of the string `s k`, for `k < N`. -/
noncomputable def superpose (q N : Nat) (s : Nat → List Char) (a : Nat → ℝ) : Bits q → ℂ :=
  ∑ k ∈ range N, (a k : ℂ) • ket q (s k)

theorem superpose_apply {q N : Nat} (s : Nat → List Char) (a : Nat → ℝ) (b : Bits q) :
    superpose q N s a b = ∑ k ∈ range N, if b = stringBits q (s k) then (a k : ℂ) else 0 := by
  simp [superpose, ket, Pi.single_apply, Finset.sum_apply]

theorem superpose_at {q N : Nat} {s : Nat → List Char} (hs : ∀ k < N, ∀ l < N, stringBits q (s k) = stringBits q (s l) → k = l)
    (a : Nat → ℝ) {k : Nat} (hk : k < N) : superpose q N s a (stringBits q (s k)) = a k := by
  rw [superpose_apply, Finset.sum_eq_single k]
  · simp
  · intro l hl hne
    rw [if_neg fun h => hne (hs k hk l (Finset.mem_range.mp hl) h).symm]
  · intro h; exact absurd (Finset.mem_range.mpr hk) h

theorem superpose_off {q N : Nat} {s : Nat → List Char} {a : Nat → ℝ} {b : Bits q} (h : superpose q N s a b ≠ 0) :
    ∃ k < N, b = stringBits q (s k) := by
  by_contra hc
  push Not at hc
  refine h ?_
  rw [superpose_apply]
  exact Finset.sum_eq_zero fun k hk => if_neg (hc k (Finset.mem_range.mp hk))

theorem star_superpose {q N : Nat} (s : Nat → List Char) (a : Nat → ℝ) : star (superpose q N s a) = superpose q N s a := by
  funext b
  rw [Pi.star_apply, superpose_apply, star_sum]
  refine Finset.sum_congr rfl fun k _ => ?_
  by_cases h : b = stringBits q (s k) <;> simp [h]

theorem dot_superpose {q N : Nat} {s : Nat → List Char}
    (hs : ∀ k < N, ∀ l < N, stringBits q (s k) = stringBits q (s l) → k = l) (a b : Nat → ℝ) :
    star (superpose q N s a) ⬝ᵥ superpose q N s b = ((∑ k ∈ range N, a k * b k : ℝ) : ℂ) := by
  rw [star_superpose]
  conv_lhs => rw [superpose]
  rw [sum_dotProduct, Complex.ofReal_sum]
  refine Finset.sum_congr rfl fun k hk => ?_
  rw [smul_dotProduct, ket, single_dotProduct, superpose_at hs b (Finset.mem_range.mp hk)]
  simp

theorem superpose_smul {q N : Nat} (s : Nat → List Char) (a : Nat → ℝ) (c : ℝ) :
    (c : ℂ) • superpose q N s a = superpose q N s fun k => c * a k := by
  simp only [superpose, Finset.smul_sum, smul_smul, Complex.ofReal_mul]

theorem superpose_sub {q N : Nat} (s : Nat → List Char) (a b : Nat → ℝ) :
    superpose q N s a - superpose q N s b = superpose q N s fun k => a k - b k := by
  simp [superpose, sub_smul]

theorem zGate_ket {q : Nat} (j : Fin q) (s : List Char) :
    (onQubit zGate j).mulVec (ket q s) = ((if s.getD j '0' = '1' then -1 else 1 : ℝ) : ℂ) • ket q s := by
  unfold ket
  rw [onQubit_single]
  have hu : Function.update (stringBits q s) j (stringBits q s j) = stringBits q s := by simp
  have hj : stringBits q s j = (s.getD j '0' == '1') := rfl
  cases h : stringBits q s j
  · rw [h] at hu hj
    rw [hu]
    have : ¬ s.getD j '0' = '1' := by simpa using hj.symm
    simp only [this, if_false]
    simp [zGate]
  · rw [h] at hu hj
    rw [hu]
    have : s.getD j '0' = '1' := by simpa using hj.symm
    simp only [this, if_true]
    simp [zGate]

theorem zGate_superpose {q N : Nat} (j : Fin q) (s : Nat → List Char) (a : Nat → ℝ) :
    (onQubit zGate j).mulVec (superpose q N s a) =
      superpose q N s fun k => (if (s k).getD j '0' = '1' then -1 else 1) * a k := by
  simp only [superpose, Matrix.mulVec_sum, Matrix.mulVec_smul, zGate_ket, smul_smul]
  refine Finset.sum_congr rfl fun k _ => ?_
  rw [mul_comm]; push_cast; rfl

/-! ## The rotations -/

/-- Amplitudes that depend on a property of the key only. -/
theorem rotation {q N : Nat} (hN : 0 < N) {s : Nat → List Char} {a : Unitary q} (ha : a ∈ Matrix.unitaryGroup (Bits q) ℂ)
    (hs : ∀ k < N, ∀ l < N, stringBits q (s k) = stringBits q (s l) → k = l) (j : Fin q)
    (h0 : a.mulVec (Pi.single (fun _ => false) 1) = superpose q N s fun _ => (Real.sqrt N)⁻¹) (r : Nat) :
    ∃ α β : ℝ, (groverOperator a (onQubit zGate j) ^ r * a).mulVec (Pi.single (fun _ => false) 1) =
        superpose q N s (fun k => if (s k).getD j '0' = '1' then α else β) ∧
      Real.sqrt ((range N).filter fun k => (s k).getD j '0' = '1').card * α =
        Real.sin ((2 * r + 1) * Real.arcsin (Real.sqrt (((range N).filter fun k => (s k).getD j '0' = '1').card / N))) ∧
      Real.sqrt ((range N).filter fun k => ¬ (s k).getD j '0' = '1').card * β =
        Real.cos ((2 * r + 1) * Real.arcsin (Real.sqrt (((range N).filter fun k => (s k).getD j '0' = '1').card / N))) := by
  set M : ℝ := (((range N).filter fun k => (s k).getD j '0' = '1').card : ℝ) with hM
  set L : ℝ := (((range N).filter fun k => ¬ (s k).getD j '0' = '1').card : ℝ) with hL
  have hML : M + L = N := by
    rw [hM, hL, ← Nat.cast_add, Finset.card_filter_add_card_filter_not, Finset.card_range]
  have hM0 : 0 ≤ M := Nat.cast_nonneg _
  have hL0 : 0 ≤ L := Nat.cast_nonneg _
  have hNr : (0 : ℝ) < N := by exact_mod_cast hN
  set θ := Real.arcsin (Real.sqrt (M / N)) with hθ
  have hsin : Real.sin θ = Real.sqrt (M / N) := by
    rw [hθ, Real.sin_arcsin (by linarith [Real.sqrt_nonneg (M / N)])]
    rw [Real.sqrt_le_one, div_le_one hNr]
    linarith
  have hcos : Real.cos θ = Real.sqrt (L / N) := by
    rw [hθ, Real.cos_arcsin, Real.sq_sqrt (by positivity)]
    congr 1
    field_simp
    linarith
  have hsM : Real.sin θ = Real.sqrt M * (Real.sqrt N)⁻¹ := by rw [hsin, Real.sqrt_div hM0, div_eq_mul_inv]
  have hcL : Real.cos θ = Real.sqrt L * (Real.sqrt N)⁻¹ := by rw [hcos, Real.sqrt_div hL0, div_eq_mul_inv]
  have hM2 : Real.sqrt M * Real.sqrt M = M := Real.mul_self_sqrt hM0
  have hL2 : Real.sqrt L * Real.sqrt L = L := Real.mul_self_sqrt hL0
  have hN2 : (Real.sqrt N)⁻¹ * (Real.sqrt N)⁻¹ = (N : ℝ)⁻¹ := by rw [← mul_inv, Real.mul_self_sqrt hNr.le]
  induction r with
  | zero =>
    refine ⟨(Real.sqrt N)⁻¹, (Real.sqrt N)⁻¹, ?_, ?_, ?_⟩
    · simpa using h0
    · rw [← hsM]; simp
    · rw [← hcL]; simp
  | succ r ih =>
    obtain ⟨α, β, h1, h2, h3⟩ := ih
    rw [pow_succ', Matrix.mul_assoc, ← Matrix.mulVec_mulVec, h1, groverOperator, ← Matrix.mulVec_mulVec, zGate_superpose,
      reflection_mulVec ha, h0, dot_superpose hs]
    have hsum : (∑ k ∈ range N, (Real.sqrt N)⁻¹ * ((if (s k).getD j '0' = '1' then -1 else 1) *
        if (s k).getD j '0' = '1' then α else β)) = (Real.sqrt N)⁻¹ * (L * β - M * α) := by
      rw [← Finset.mul_sum]
      congr 1
      have : ∀ k ∈ range N, ((if (s k).getD j '0' = '1' then -1 else 1) * if (s k).getD j '0' = '1' then α else β) =
          if (s k).getD j '0' = '1' then -α else β := fun k _ => by split <;> simp
      rw [Finset.sum_congr rfl this, Finset.sum_ite, Finset.sum_const, Finset.sum_const, nsmul_eq_mul, nsmul_eq_mul]
      ring
    rw [hsum]
    refine ⟨2 * (N : ℝ)⁻¹ * (L * β - M * α) + α, 2 * (N : ℝ)⁻¹ * (L * β - M * α) - β, ?_, ?_, ?_⟩
    · rw [show (2 * ((((Real.sqrt N)⁻¹ * (L * β - M * α) : ℝ)) : ℂ)) =
        ((2 * ((Real.sqrt N)⁻¹ * (L * β - M * α)) : ℝ) : ℂ) by push_cast; ring, superpose_smul, superpose_sub]
      congr 1
      funext k
      split <;> rw [← hN2] <;> ring
    · have : Real.sin ((2 * ((r + 1 : ℕ) : ℝ) + 1) * θ) = Real.sin ((2 * r + 1) * θ) * Real.cos (2 * θ) +
          Real.cos ((2 * r + 1) * θ) * Real.sin (2 * θ) := by
        rw [← Real.sin_add]; congr 1; push_cast; ring
      rw [this, ← h2, ← h3, Real.sin_two_mul, Real.cos_two_mul', hsM, hcL]
      have e1 : (N : ℝ)⁻¹ * (M + L) = 1 := by rw [hML]; field_simp
      rw [← hN2] at e1 ⊢
      generalize (Real.sqrt N)⁻¹ = t at *
      generalize Real.sqrt M = u at *
      generalize Real.sqrt L = w at *
      rw [← hM2, ← hL2] at e1 ⊢
      linear_combination (-u * α) * e1
    · have : Real.cos ((2 * ((r + 1 : ℕ) : ℝ) + 1) * θ) = Real.cos ((2 * r + 1) * θ) * Real.cos (2 * θ) -
          Real.sin ((2 * r + 1) * θ) * Real.sin (2 * θ) := by
        rw [← Real.cos_add]; congr 1; push_cast; ring
      rw [this, ← h2, ← h3, Real.sin_two_mul, Real.cos_two_mul', hsM, hcL]
      have e1 : (N : ℝ)⁻¹ * (M + L) = 1 := by rw [hML]; field_simp
      rw [← hN2] at e1 ⊢
      generalize (Real.sqrt N)⁻¹ = t at *
      generalize Real.sqrt M = u at *
      generalize Real.sqrt L = w at *
      rw [← hM2, ← hL2] at e1 ⊢
      linear_combination (w * β) * e1

end Verif

import Verif.GroverCircuitLemmas
import Verif.PropsGrover

/-!
# C75: the circuits of the Grover optimizer
-/

namespace Verif

open Matrix Finset

/-- What `QuadraticForm` of the circuit library does, for objectives with integral values: it is unitary, and with an
empty value register it writes the value of the objective at the key into the register, in two's complement, first value
qubit most significant (`little_endian=False`). -/
structure FormSpec (nKey nValue : Nat) (o : Objective) (form : Unitary (nKey + nValue + 1)) : Prop where
  unitary : form ∈ Matrix.unitaryGroup (Bits (nKey + nValue + 1)) ℂ
  basis : ∀ k < 2 ^ nKey, ∀ z : Int, o.val (pt (keyPt nKey k)) = z →
    form.mulVec (ket _ (bitString nKey k)) = ket _ (bitString nKey k ++ twosComplement nValue z)

/-- The objective has integral values that fit into the value register. -/
def Representable (nKey nValue : Nat) (o : Objective) : Prop :=
  ∀ k < 2 ^ nKey, ∃ z : Int, o.val (pt (keyPt nKey k)) = z ∧ -2 ^ (nValue - 1) ≤ z ∧ z < 2 ^ (nValue - 1)

/-- A string that can be measured in a state: qubits with non-zero amplitude, with or without the last qubit. -/
def Observable {q : Nat} (state : Bits (q + 1) → ℂ) (s : List Char) : Prop :=
  ∃ b, state b ≠ 0 ∧ (s = outcomeOf b ∨ s = (outcomeOf b).take q)

/-- The probability of measuring a key. -/
noncomputable def keyProb {q : Nat} (state : Bits q → ℂ) (nKey k : Nat) : ℝ :=
  ∑ b : Bits q, if (outcomeOf b).take nKey = bitString nKey k then ‖state b‖ ^ 2 else 0

theorem twosComplement_length (n : Nat) (z : Int) : (twosComplement n z).length = n := bitString_length _ _

theorem twosComplement_head {n : Nat} (hn : 0 < n) {z : Int} (h1 : -2 ^ (n - 1) ≤ z) (h2 : z < 2 ^ (n - 1)) :
    (twosComplement n z).getD 0 '0' = '1' ↔ z < 0 := by
  have h := binToInt_twos hn h1 h2
  have hlt : (z % 2 ^ n).toNat < 2 ^ n := by
    have h3 : z % 2 ^ n < 2 ^ n := Int.emod_lt_of_pos _ (by positivity)
    have h4 : ((2 ^ n : Nat) : Int) = 2 ^ n := by push_cast; rfl
    omega
  have hb : intBase2 (twosComplement n z) = .ok (z % 2 ^ n).toNat := intBase2_bitString hn hlt
  simp only [binToInt, hb] at h
  rw [List.getD_eq_getElem?_getD, ← List.head?_eq_getElem?]
  cases hh : (twosComplement n z).head? with
  | none =>
    rw [List.head?_eq_none_iff] at hh
    have := twosComplement_length n z
    rw [hh] at this; simp at this; omega
  | some c =>
    have h4 : ((2 ^ n : Nat) : Int) = 2 ^ n := by push_cast; rfl
    by_cases hc : c = '1'
    · subst hc
      rw [if_pos hh] at h
      simp only [Except.ok.injEq] at h
      simp only [Option.getD_some, true_iff]
      omega
    · rw [if_neg (by rw [hh]; simpa using hc)] at h
      simp only [Except.ok.injEq] at h
      simp only [Option.getD_some, hc, false_iff]
      omega

/-- The strings that show a key and its value. -/
theorem strings_inj {nKey nValue : Nat} (z : Nat → Int) : ∀ k < 2 ^ nKey, ∀ l < 2 ^ nKey,
    stringBits (nKey + nValue + 1) (bitString nKey k ++ twosComplement nValue (z k)) =
      stringBits (nKey + nValue + 1) (bitString nKey l ++ twosComplement nValue (z l)) → k = l := by
  intro k hk l hl h
  have h := congrArg (fun b => (outcomeOf b).take nKey) h
  have hb : ∀ k, ∀ c ∈ bitString nKey k ++ twosComplement nValue (z k), c = '0' ∨ c = '1' := by
    intro k c hc
    rcases List.mem_append.mp hc with hc | hc
    · exact bitString_bits _ _ c hc
    · exact bitString_bits _ _ c hc
  have hlen : ∀ k, (bitString nKey k ++ twosComplement nValue (z k)).length ≤ nKey + nValue + 1 := by
    intro k; simp [bitString_length, twosComplement_length]
  simp only [outcomeOf_stringBits (hb _) (hlen _), List.append_assoc] at h
  rw [List.take_left' (bitString_length _ _), List.take_left' (bitString_length _ _)] at h
  exact bitString_inj hk hl h

theorem outcome_string {nKey nValue k : Nat} (z : Int) :
    outcomeOf (stringBits (nKey + nValue + 1) (bitString nKey k ++ twosComplement nValue z)) =
      bitString nKey k ++ twosComplement nValue z ++ ['0'] := by
  rw [outcomeOf_stringBits]
  · simp [bitString_length, twosComplement_length]
  · intro c hc
    rcases List.mem_append.mp hc with hc | hc
    · exact bitString_bits _ _ c hc
    · exact bitString_bits _ _ c hc
  · simp [bitString_length, twosComplement_length]

theorem inv_sqrt_pow (n : Nat) : (((Real.sqrt 2)⁻¹ : ℝ) : ℂ) ^ n = (((Real.sqrt ((2 ^ n : Nat) : ℝ))⁻¹ : ℝ) : ℂ) := by
  rw [← Complex.ofReal_pow]
  congr 1
  rw [inv_pow]
  congr 1
  rw [Nat.cast_pow]
  push_cast
  rw [eq_comm, Real.sqrt_eq_iff_eq_sq (by positivity) (by positivity), ← pow_mul, mul_comm, pow_mul,
    Real.sq_sqrt (by norm_num)]

theorem aOperator_state {nKey nValue : Nat} {form : Unitary (nKey + nValue + 1)} {z : Nat → Int}
    (hF : ∀ k < 2 ^ nKey, form.mulVec (ket _ (bitString nKey k)) = ket _ (bitString nKey k ++ twosComplement nValue (z k))) :
    (aOperator nKey nValue form).mulVec (Pi.single (fun _ => false) 1) =
      superpose (nKey + nValue + 1) (2 ^ nKey) (fun k => bitString nKey k ++ twosComplement nValue (z k))
        fun _ => (Real.sqrt ((2 ^ nKey : Nat) : ℝ))⁻¹ := by
  have h0 : (Pi.single (fun _ => false) 1 : Bits (nKey + nValue + 1) → ℂ) = ket _ [] := by
    unfold ket
    congr 1
  rw [h0, aOperator, ← Matrix.mulVec_mulVec, hadamards_ket, Matrix.mulVec_smul, Matrix.mulVec_sum, inv_sqrt_pow, superpose,
    Finset.smul_sum]
  refine Finset.sum_congr rfl fun k hk => ?_
  rw [hF k (Finset.mem_range.mp hk)]

theorem groverState_eq {nKey nValue : Nat} (hv : 0 < nValue) {o : Objective} {form : Unitary (nKey + nValue + 1)}
    (hF : FormSpec nKey nValue o form) {z : Nat → Int} (hz : ∀ k < 2 ^ nKey, o.val (pt (keyPt nKey k)) = z k)
    (hfit : ∀ k < 2 ^ nKey, -2 ^ (nValue - 1) ≤ z k ∧ z k < 2 ^ (nValue - 1)) (r : Nat) :
    ∃ α β : ℝ, groverCircuitState nKey nValue form r =
        superpose (nKey + nValue + 1) (2 ^ nKey) (fun k => bitString nKey k ++ twosComplement nValue (z k))
          (fun k => if (bitString nKey k ++ twosComplement nValue (z k)).getD nKey '0' = '1' then α else β) ∧
      Real.sqrt ((range (2 ^ nKey)).filter fun k => o.val (pt (keyPt nKey k)) < 0).card * α =
        Real.sin ((2 * r + 1) * Real.arcsin (Real.sqrt
          (((range (2 ^ nKey)).filter fun k => o.val (pt (keyPt nKey k)) < 0).card / (2 ^ nKey : Nat)))) ∧
      ∀ k < 2 ^ nKey, (bitString nKey k ++ twosComplement nValue (z k)).getD nKey '0' = '1' ↔
        o.val (pt (keyPt nKey k)) < 0 := by
  have hneg : ∀ k < 2 ^ nKey, (bitString nKey k ++ twosComplement nValue (z k)).getD nKey '0' = '1' ↔
        o.val (pt (keyPt nKey k)) < 0 := by
    intro k hk
    have h1 : (bitString nKey k ++ twosComplement nValue (z k)).getD nKey '0' = (twosComplement nValue (z k)).getD 0 '0' := by
      rw [List.getD_eq_getElem?_getD, List.getElem?_append_right (by rw [bitString_length]), bitString_length, Nat.sub_self,
        ← List.getD_eq_getElem?_getD]
    rw [h1, twosComplement_head hv (hfit k hk).1 (hfit k hk).2, hz k hk]
    exact_mod_cast Iff.rfl
  have hU : aOperator nKey nValue form ∈ Matrix.unitaryGroup (Bits (nKey + nValue + 1)) ℂ :=
    Submonoid.mul_mem _ hF.unitary (hadamards_unitary _ _)
  obtain ⟨α, β, h1, h2, -⟩ := rotation (N := 2 ^ nKey) (by positivity) hU (strings_inj z) ⟨nKey, by omega⟩
    (aOperator_state fun k hk => hF.basis k hk (z k) (hz k hk)) r
  have hcard : ((range (2 ^ nKey)).filter fun k =>
      (bitString nKey k ++ twosComplement nValue (z k)).getD nKey '0' = '1') =
      (range (2 ^ nKey)).filter fun k => o.val (pt (keyPt nKey k)) < 0 :=
    Finset.filter_congr fun k hk => hneg k (Finset.mem_range.mp hk)
  simp only [hcard] at h2
  exact ⟨α, β, h1, h2, hneg⟩

theorem keyProb_superpose {nKey nValue : Nat} (z : Nat → Int) (a : Nat → ℝ) {k : Nat} (hk : k < 2 ^ nKey) :
    keyProb (superpose (nKey + nValue + 1) (2 ^ nKey) (fun k => bitString nKey k ++ twosComplement nValue (z k)) a) nKey k =
      a k ^ 2 := by
  unfold keyProb
  rw [Finset.sum_eq_single (stringBits (nKey + nValue + 1) (bitString nKey k ++ twosComplement nValue (z k)))]
  · rw [if_pos, superpose_at (s := fun k => bitString nKey k ++ twosComplement nValue (z k)) (strings_inj z) a hk]
    · simp
    · rw [outcome_string, List.append_assoc, List.take_left' (bitString_length _ _)]
  · intro b _ hne
    split
    · next h =>
      rw [sq_eq_zero_iff, norm_eq_zero]
      by_contra hc
      obtain ⟨l, hl, rfl⟩ := superpose_off hc
      rw [outcome_string, List.append_assoc, List.take_left' (bitString_length _ _)] at h
      exact hne (by rw [bitString_inj hl hk h])
    · rfl
  · intro h; exact absurd (Finset.mem_univ _) h

/-- **C75** (outcomes): after any number of rotations every string that can be measured begins with a key and the value of
the objective at this key.  In this the values need not fit into the register. -/
theorem C75_support {nKey nValue : Nat} {o : Objective} {form : Unitary (nKey + nValue + 1)}
    (hF : FormSpec nKey nValue o form) (hi : ∀ k < 2 ^ nKey, ∃ z : Int, o.val (pt (keyPt nKey k)) = z) (r : Nat)
    {s : List Char} (hs : Observable (groverCircuitState nKey nValue form r) s) :
    ∃ k < 2 ^ nKey, ∃ z : Int, o.val (pt (keyPt nKey k)) = z ∧
      s.take (nKey + nValue) = bitString nKey k ++ twosComplement nValue z := by
  choose! z hz using hi
  have hU : aOperator nKey nValue form ∈ Matrix.unitaryGroup (Bits (nKey + nValue + 1)) ℂ :=
    Submonoid.mul_mem _ hF.unitary (hadamards_unitary _ _)
  obtain ⟨α, β, h1, -, -⟩ := rotation (N := 2 ^ nKey) (by positivity) hU (strings_inj z) ⟨nKey, by omega⟩
    (aOperator_state fun k hk => hF.basis k hk (z k) (hz k hk)) r
  obtain ⟨b, hb, hs⟩ := hs
  unfold groverCircuitState groverOracle at hb
  rw [h1] at hb
  obtain ⟨k, hk, rfl⟩ := superpose_off hb
  have hlen : (bitString nKey k ++ twosComplement nValue (z k)).length = nKey + nValue := by
    simp [bitString_length, twosComplement_length]
  refine ⟨k, hk, z k, hz k hk, ?_⟩
  rw [outcome_string] at hs
  rcases hs with rfl | rfl
  · rw [List.take_left' hlen]
  · rw [List.take_take, Nat.min_self, List.take_left' hlen]

/-- **C75** (amplification): if `M` of the `N` keys have negative values, a key with a negative value is measured with
probability `sin² ((2 r + 1) θ)` after `r` rotations, where `θ = arcsin √(M / N)`. -/
theorem C75_probability {nKey nValue : Nat} (hv : 0 < nValue) {o : Objective} {form : Unitary (nKey + nValue + 1)}
    (hF : FormSpec nKey nValue o form) (hr : Representable nKey nValue o) (r : Nat) :
    (∑ k ∈ range (2 ^ nKey) with o.val (pt (keyPt nKey k)) < 0, keyProb (groverCircuitState nKey nValue form r) nKey k) =
      Real.sin ((2 * r + 1) * Real.arcsin (Real.sqrt
        (((range (2 ^ nKey)).filter fun k => o.val (pt (keyPt nKey k)) < 0).card / (2 ^ nKey : Nat)))) ^ 2 := by
  choose! z hz using hr
  obtain ⟨α, β, h1, h2, h3⟩ := groverState_eq hv hF (fun k hk => (hz k hk).1) (fun k hk => (hz k hk).2) r
  rw [← h2, mul_pow, Real.sq_sqrt (Nat.cast_nonneg _), h1]
  rw [Finset.sum_congr rfl fun k hk => ?_, Finset.sum_const, nsmul_eq_mul]
  rw [Finset.mem_filter, Finset.mem_range] at hk
  rw [keyProb_superpose z _ hk.1, if_pos ((h3 k hk.1).mpr hk.2)]

/-- **C75** (no bias): keys on the same side of the threshold are measured with the same probability. -/
theorem C75_uniform {nKey nValue : Nat} (hv : 0 < nValue) {o : Objective} {form : Unitary (nKey + nValue + 1)}
    (hF : FormSpec nKey nValue o form) (hr : Representable nKey nValue o) (r : Nat) {k l : Nat} (hk : k < 2 ^ nKey)
    (hl : l < 2 ^ nKey) (h : o.val (pt (keyPt nKey k)) < 0 ↔ o.val (pt (keyPt nKey l)) < 0) :
    keyProb (groverCircuitState nKey nValue form r) nKey k = keyProb (groverCircuitState nKey nValue form r) nKey l := by
  choose! z hz using hr
  obtain ⟨α, β, h1, -, h3⟩ := groverState_eq hv hF (fun k hk => (hz k hk).1) (fun k hk => (hz k hk).2) r
  rw [h1, keyProb_superpose z _ hk, keyProb_superpose z _ hl]
  simp only [h3 k hk, h3 l hl, h]

/-! ## The search with measurements of the circuits -/

theorem groverLoop_congr {measure measure' : Nat → Objective → Outcome} {rot : Nat → Nat} {sqrt : ℚ → ℚ} {o : Objective}
    {p : ℚ → QP} {q : QP} {convs : List Interp} {nKey nValue nIt maxRot : Nat} {fuel : Nat} {s : GroverState}
    (h : ∀ i, s.iteration ≤ i → ∀ o, measure i o = measure' i o) :
    groverLoop measure rot sqrt o p q convs nKey nValue nIt maxRot fuel s =
      groverLoop measure' rot sqrt o p q convs nKey nValue nIt maxRot fuel s := by
  induction fuel generalizing s with
  | zero => rfl
  | succ fuel ih =>
    have hn : ∀ s1 : GroverState, s1.iteration = s.iteration + 1 →
        groverLoop measure rot sqrt o p q convs nKey nValue nIt maxRot fuel s1 =
          groverLoop measure' rot sqrt o p q convs nKey nValue nIt maxRot fuel s1 := fun s1 hs =>
      ih fun i hi => h i (by omega)
    simp only [groverLoop, h s.iteration (le_refl _)]
    cases h1 : intBase2 ((measure' s.iteration { o with constant := o.constant - s.threshold }).bits.take nKey) with
    | error e => rfl
    | ok k =>
      dsimp only
      cases h2 : binToInt (((measure' s.iteration { o with constant := o.constant - s.threshold }).bits.drop nKey).take
          nValue) nValue with
      | error e => rfl
      | ok z =>
        dsimp only
        split
        · cases h3 : groverRaw sqrt q nKey (measure' s.iteration { o with constant := o.constant - s.threshold }).circuit with
          | error e => rfl
          | ok raw =>
            dsimp only
            cases h4 : interpretSamples (p s.threshold)
                (sortedBy (fun a b => decide (o.sense.value * a.fval ≤ o.sense.value * b.fval)) raw) convs with
            | error e => rfl
            | ok samples => exact hn _ rfl
        · by_cases hc : s.loops + 1 ≥ nIt ∨ (if k ∈ s.keysMeasured then s.keysMeasured else s.keysMeasured ++ [k]).length =
              2 ^ nKey ∨ s.rotations + rot s.iteration ≥ maxRot
          · rw [if_pos hc, if_pos hc]
          · rw [if_neg hc, if_neg hc]
            exact hn _ rfl

open Classical in
/-- The measurements with one iteration replaced: the outcome `out` for the objective `o0`. -/
noncomputable def overrideMeasure (nKey nValue i0 k0 : Nat) (o0 : Objective) (out : Outcome)
    (measure : Nat → Objective → Outcome) : Nat → Objective → Outcome := fun i o =>
  if i = i0 then
    if o = o0 then out else simMeasure nKey nValue (fun _ => k0) out.circuit i o
  else measure i o

theorem overrideMeasure_faithful {nKey nValue i0 k0 : Nat} {o0 : Objective} {out : Outcome}
    {measure : Nat → Objective → Outcome} {key : Nat → Nat} (hm : Faithful nKey nValue key measure) (hk : k0 < 2 ^ nKey)
    {z0 : Int} (hz : o0.val (pt (keyPt nKey k0)) = z0)
    (hout : out.bits.take (nKey + nValue) = bitString nKey k0 ++ twosComplement nValue z0) :
    Faithful nKey nValue (Function.update key i0 k0) (overrideMeasure nKey nValue i0 k0 o0 out measure) := by
  constructor
  · intro i
    by_cases h : i = i0
    · subst h; simpa using hk
    · rw [Function.update_of_ne h]; exact hm.key_lt i
  · intro i o z hv h1 h2
    by_cases h : i = i0
    · subst h
      rw [Function.update_self] at hv ⊢
      unfold overrideMeasure
      rw [if_pos rfl]
      by_cases ho : o = o0
      · subst ho
        rw [if_pos rfl, hout]
        have : z = z0 := by rw [hv] at hz; exact_mod_cast hz
        rw [this]
      · rw [if_neg ho]
        exact (simMeasure_faithful (nValue := nValue) (c := out.circuit) (fun _ => hk)).bits i o z hv h1 h2
    · rw [Function.update_of_ne h] at hv ⊢
      unfold overrideMeasure
      rw [if_neg h]
      exact hm.bits i o z hv h1 h2

/-- A run with outcomes that show some key with its value is a run with faithful measurements. -/
theorem groverLoop_faithful {measure : Nat → Objective → Outcome} {rot : Nat → Nat} {sqrt : ℚ → ℚ} {o : Objective}
    {p : ℚ → QP} {q : QP} {convs : List Interp} {nKey nValue nIt maxRot : Nat}
    (hm : ∀ i t, Representable nKey nValue { o with constant := o.constant - t } → ∃ k < 2 ^ nKey, ∃ z : Int,
      ({ o with constant := o.constant - t } : Objective).val (pt (keyPt nKey k)) = z ∧
      (measure i { o with constant := o.constant - t }).bits.take (nKey + nValue) =
        bitString nKey k ++ twosComplement nValue z)
    (hk : 0 < nKey) (hv : 0 < nValue) (h0 : Representable nKey nValue o)
    (hd : ∀ l < 2 ^ nKey, Representable nKey nValue { o with constant := o.constant - o.val (pt (keyPt nKey l)) })
    {fuel : Nat} {s r : GroverState}
    (hs : s.threshold = 0 ∨ ∃ l < 2 ^ nKey, s.threshold = o.val (pt (keyPt nKey l)))
    (h : groverLoop measure rot sqrt o p q convs nKey nValue nIt maxRot fuel s = some (.ok r)) :
    ∃ (key : Nat → Nat) (measure' : Nat → Objective → Outcome), Faithful nKey nValue key measure' ∧
      groverLoop measure' rot sqrt o p q convs nKey nValue nIt maxRot fuel s = some (.ok r) ∧
      ∀ i, s.iteration ≤ i → i < r.iteration → ∃ t,
        (measure i { o with constant := o.constant - t }).bits.take nKey = bitString nKey (key i) := by
  induction fuel generalizing s with
  | zero => simp [groverLoop] at h
  | succ fuel ih =>
    have hrep : Representable nKey nValue { o with constant := o.constant - s.threshold } := by
      rcases hs with hs | ⟨l, hl, hs⟩
      · rw [hs, sub_zero]; exact h0
      · rw [hs]; exact hd l hl
    obtain ⟨k0, hk0, z0, hz0, hb⟩ := hm s.iteration s.threshold hrep
    obtain ⟨z, hz, hz1, hz2⟩ := hrep k0 hk0
    obtain rfl : z = z0 := by rw [hz0] at hz; exact_mod_cast hz.symm
    set o0 : Objective := { o with constant := o.constant - s.threshold } with ho0
    set out := measure s.iteration o0 with hout
    have hread1 : out.bits.take nKey = bitString nKey k0 := by
      have h := List.take_take (i := nKey) (j := nKey + nValue) (l := out.bits)
      rw [Nat.min_eq_left (Nat.le_add_right nKey nValue)] at h
      rw [← h, hb, List.take_left' (bitString_length _ _)]
    have e1 : intBase2 (out.bits.take nKey) = .ok k0 := by rw [hread1]; exact intBase2_bitString hk hk0
    have e2 : binToInt ((out.bits.drop nKey).take nValue) nValue = .ok z := by
      have h := List.drop_take (i := nKey) (j := nKey + nValue) (l := out.bits)
      rw [Nat.add_sub_cancel_left] at h
      rw [← h, hb, List.drop_left' (bitString_length _ _)]
      exact binToInt_twos hv hz1 hz2
    have e3 : (z : ℚ) + s.threshold = o.val (pt (keyPt nKey k0)) := by
      rw [← hz0, ho0]; simp only [Objective.val]; ring
    have hnext : ∀ s1 : GroverState, s1.iteration = s.iteration + 1 →
        (s1.threshold = 0 ∨ ∃ l < 2 ^ nKey, s1.threshold = o.val (pt (keyPt nKey l))) →
        groverLoop measure rot sqrt o p q convs nKey nValue nIt maxRot fuel s1 = some (.ok r) →
        ∃ (key : Nat → Nat) (measure' : Nat → Objective → Outcome), Faithful nKey nValue key measure' ∧
          measure' s.iteration o0 = out ∧
          groverLoop measure' rot sqrt o p q convs nKey nValue nIt maxRot fuel s1 = some (.ok r) ∧
          ∀ i, s.iteration ≤ i → i < r.iteration → ∃ t,
            (measure i { o with constant := o.constant - t }).bits.take nKey = bitString nKey (key i) := by
      intro s1 hi1 hs1 h1
      obtain ⟨key, measure', hf, hl, ht⟩ := ih hs1 h1
      refine ⟨_, overrideMeasure nKey nValue s.iteration k0 o0 out measure', overrideMeasure_faithful hf hk0 hz0 hb, ?_, ?_, ?_⟩
      · simp [overrideMeasure]
      · rw [← hl]
        refine groverLoop_congr fun i hi o => ?_
        rw [hi1] at hi
        simp only [overrideMeasure]
        rw [if_neg (by omega)]
      · intro i hi hir
        rcases Nat.eq_or_lt_of_le hi with rfl | hlt
        · exact ⟨s.threshold, by rw [Function.update_self]; exact hread1⟩
        · obtain ⟨t, ht⟩ := ht i (by omega) hir
          exact ⟨t, by rw [Function.update_of_ne (by omega)]; exact ht⟩
    simp only [groverLoop, ← ho0, ← hout, e1, e2, e3] at h
    by_cases himp : improves (o.val (pt (keyPt nKey k0))) s.optValue = true
    · rw [if_pos himp] at h
      cases h3 : groverRaw sqrt q nKey out.circuit with
      | error e => simp [h3] at h
      | ok raw =>
        simp only [h3] at h
        cases h4 : interpretSamples (p s.threshold)
            (sortedBy (fun a b => decide (o.sense.value * a.fval ≤ o.sense.value * b.fval)) raw) convs with
        | error e => simp [h4] at h
        | ok samples =>
          simp only [h4] at h
          obtain ⟨key, measure', hf, hmo, hl, ht⟩ := hnext _ rfl (Or.inr ⟨k0, hk0, rfl⟩) h
          refine ⟨key, measure', hf, ?_, ht⟩
          simp only [groverLoop, ← ho0, hmo, e1, e2, e3, if_pos himp, h3, h4]
          exact hl
    · rw [if_neg himp] at h
      by_cases hc : s.loops + 1 ≥ nIt ∨ (if k0 ∈ s.keysMeasured then s.keysMeasured else s.keysMeasured ++ [k0]).length =
          2 ^ nKey ∨ s.rotations + rot s.iteration ≥ maxRot
      · rw [if_pos hc] at h
        refine ⟨_, overrideMeasure nKey nValue s.iteration k0 o0 out (simMeasure nKey nValue (fun _ => k0) out.circuit),
          overrideMeasure_faithful (simMeasure_faithful (fun _ => hk0)) hk0 hz0 hb, ?_, ?_⟩
        · have hmo : overrideMeasure nKey nValue s.iteration k0 o0 out (simMeasure nKey nValue (fun _ => k0) out.circuit)
            s.iteration o0 = out := by simp [overrideMeasure]
          simp only [groverLoop, ← ho0, hmo, e1, e2, e3, if_neg himp, if_pos hc]
          exact h
        · intro i hi hir
          simp only [Option.some.injEq, Except.ok.injEq] at h
          rw [← h] at hir
          simp only at hir
          obtain rfl : i = s.iteration := by omega
          exact ⟨s.threshold, by rw [Function.update_self]; exact hread1⟩
      · rw [if_neg hc] at h
        obtain ⟨key, measure', hf, hmo, hl, ht⟩ := hnext { s with
          keysMeasured := if k0 ∈ s.keysMeasured then s.keysMeasured else s.keysMeasured ++ [k0]
          rotations := s.rotations + rot s.iteration, iteration := s.iteration + 1, loops := s.loops + 1 } rfl hs h
        refine ⟨key, measure', hf, ?_, ht⟩
        simp only [groverLoop, ← ho0, hmo, e1, e2, e3, if_neg himp, if_neg hc]
        exact hl

theorem groverFinish_iterations {obj : Objective} {problem : ℚ → QP} {qubo : QP} {convs : List Interp} {nKey : Nat}
    {s : GroverState} {r : GroverResult} (h : groverFinish obj problem qubo convs nKey s = .ok r) :
    r.iterations = s.iteration := by
  unfold groverFinish at h
  dsimp only at h
  generalize keyToPoint nKey _ = x at h
  cases h1 : qubo.objective.evaluate x with
  | error e => simp [h1] at h
  | ok fv =>
    cases h2 : interpretResult (problem s.threshold) convs s.samples s.raw x with
    | error e => simp [h1, h2] at h
    | ok res =>
      simp only [h1, h2, Except.ok.injEq] at h
      rw [← h]

/-- **C75** (search): if every measurement is an outcome of the circuit for the current threshold and the rotations drawn,
and the values and their differences fit into the register, then the point found is at least as good as every point whose
key was measured, the threshold is the best value measured, and the reported value is the objective at the point. -/
theorem C75_best (form : (nKey nValue : Nat) → Objective → Unitary (nKey + nValue + 1))
    (measure : Nat → Objective → Outcome) (rot : Nat → Nat) (sqrt : ℚ → ℚ) (converters : List Converter) (nValue nIt : Nat)
    (p qubo : QP) (convs : List Interp) (fuel : Nat) (r : GroverResult)
    (hc : convertAll converters p = .ok (qubo, convs)) (h1 : qubo.objective.linear.WF)
    (h2 : qubo.objective.quadratic.WF) (hn : 0 < qubo.objective.linear.n) (hv : 0 < nValue)
    (hF : ∀ o, FormSpec qubo.objective.linear.n nValue o (form qubo.objective.linear.n nValue o))
    (hm : ∀ i o, Observable (groverCircuitState qubo.objective.linear.n nValue (form qubo.objective.linear.n nValue o)
      (rot i)) (measure i o).bits)
    (h0 : Representable qubo.objective.linear.n nValue (groverObjective qubo.objective))
    (hd : ∀ l < 2 ^ qubo.objective.linear.n, Representable qubo.objective.linear.n nValue
      { groverObjective qubo.objective with constant := (groverObjective qubo.objective).constant -
        (groverObjective qubo.objective).val (pt (keyPt qubo.objective.linear.n l)) })
    (h : groverSolve measure rot sqrt converters nValue nIt p fuel = some (.ok r)) :
    ∃ key : Nat → Nat, 0 < r.iterations ∧
      (∀ i < r.iterations, ∃ o, (measure i o).bits.take qubo.objective.linear.n =
        bitString qubo.objective.linear.n (key i)) ∧
      r.fval = qubo.objective.val (pt r.optX) ∧
      (∀ i < r.iterations, qubo.objective.sense.value * r.fval ≤
        qubo.objective.sense.value * qubo.objective.val (pt (keyPt qubo.objective.linear.n (key i)))) ∧
      (∃ i < r.iterations, r.threshold =
        qubo.objective.sense.value * qubo.objective.val (pt (keyPt qubo.objective.linear.n (key i)))) := by
  have hsup : ∀ i t, Representable qubo.objective.linear.n nValue
      { groverObjective qubo.objective with constant := (groverObjective qubo.objective).constant - t } →
      ∃ k < 2 ^ qubo.objective.linear.n, ∃ z : Int,
      ({ groverObjective qubo.objective with constant := (groverObjective qubo.objective).constant - t } : Objective).val
        (pt (keyPt qubo.objective.linear.n k)) = z ∧
      (measure i { groverObjective qubo.objective with constant := (groverObjective qubo.objective).constant - t }).bits.take
        (qubo.objective.linear.n + nValue) = bitString qubo.objective.linear.n k ++ twosComplement nValue z := fun i t ht =>
    C75_support (hF _) (fun k hk => (ht k hk).imp fun _ h => h.1) (rot i) (hm i _)
  have hsolve : ∃ (key : Nat → Nat) (measure' : Nat → Objective → Outcome),
      Faithful qubo.objective.linear.n nValue key measure' ∧
      groverSolve measure' rot sqrt converters nValue nIt p fuel = some (.ok r) ∧
      ∀ i < r.iterations, ∃ o, (measure i o).bits.take qubo.objective.linear.n =
        bitString qubo.objective.linear.n (key i) := by
    unfold groverSolve at h ⊢
    by_cases hmsg : (quboMsg p).length > 0
    · rw [if_pos hmsg] at h; simp at h
    · rw [if_neg hmsg] at h
      simp only [hc, groverObjective_n, if_neg hmsg] at h ⊢
      cases hl : groverLoop measure rot sqrt (groverObjective qubo.objective)
          (callersGrover converters (groverObjective qubo.objective) p) qubo convs qubo.objective.linear.n nValue
          nIt groverMaxRotations fuel groverInit with
      | none => simp [hl] at h
      | some e =>
        cases e with
        | error e => simp [hl] at h
        | ok s =>
          obtain ⟨key, measure', hf, hl', ht⟩ := groverLoop_faithful hsup hn hv h0 hd (Or.inl rfl) hl
          refine ⟨key, measure', hf, ?_, ?_⟩
          · simp only [hl'] ; simpa only [hl] using h
          · simp only [hl, Option.some.injEq] at h
            intro i hi
            obtain ⟨t, ht⟩ := ht i (Nat.zero_le _) (groverFinish_iterations h ▸ hi)
            exact ⟨_, ht⟩
  obtain ⟨key, measure', hf, hs', ht⟩ := hsolve
  have hfit : FitsRegister qubo.objective.linear.n nValue key (groverObjective qubo.objective) := by
    constructor
    · intro i; exact h0 _ (hf.key_lt i)
    · intro i j
      obtain ⟨z, hz, hz'⟩ := hd _ (hf.key_lt j) _ (hf.key_lt i)
      refine ⟨z, ?_, hz'⟩
      rw [← hz]; simp only [Objective.val]; ring
  obtain ⟨a1, a2, -, -, a3, -, a4, -⟩ := C33_best measure' rot sqrt converters nValue nIt p qubo convs fuel key r hc h1 h2 hn hv
    hf hfit hs'
  exact ⟨key, a1, ht, a2, a3, a4⟩

/-! ## An instance -/

/-- The point shown by the key qubits of a basis state. -/
def basisPoint {q : Nat} (nKey : Nat) (b : Bits q) : List ℚ :=
  ((outcomeOf b).take nKey).map fun c => if c = '1' then 1 else 0

/-- Exclusive or of the value register with the two's complement of the value at the key. -/
def writeValue (nKey nValue : Nat) (o : Objective) (b : Bits (nKey + nValue + 1)) : Bits (nKey + nValue + 1) := fun i =>
  if nKey ≤ i.val ∧ i.val < nKey + nValue then
    xor (b i) ((twosComplement nValue (o.val (pt (basisPoint nKey b))).num).getD (i.val - nKey) '0' == '1')
  else b i

/-- The circuit that does this. -/
def writeForm (nKey nValue : Nat) (o : Objective) : Unitary (nKey + nValue + 1) := fun a b =>
  if a = writeValue nKey nValue o b then 1 else 0

theorem basisPoint_writeValue (nKey nValue : Nat) (o : Objective) (b : Bits (nKey + nValue + 1)) :
    basisPoint nKey (writeValue nKey nValue o b) = basisPoint nKey b := by
  unfold basisPoint
  congr 1
  refine List.ext_getElem (by simp [outcomeOf]) fun i h1 h2 => ?_
  have hi : i < nKey := by simp [outcomeOf] at h1; omega
  have hw : ∀ h, writeValue nKey nValue o b ⟨i, h⟩ = b ⟨i, h⟩ := fun h => if_neg (by simp only; omega)
  simp only [outcomeOf, List.getElem_take, List.getElem_ofFn, hw]

theorem writeValue_invol (nKey nValue : Nat) (o : Objective) (b : Bits (nKey + nValue + 1)) :
    writeValue nKey nValue o (writeValue nKey nValue o b) = b := by
  funext i
  rw [writeValue, basisPoint_writeValue]
  by_cases h : nKey ≤ i.val ∧ i.val < nKey + nValue
  · rw [if_pos h, writeValue, if_pos h, Bool.xor_assoc, Bool.xor_self, Bool.xor_false]
  · rw [if_neg h, writeValue, if_neg h]

theorem writeForm_single (nKey nValue : Nat) (o : Objective) (b : Bits (nKey + nValue + 1)) :
    (writeForm nKey nValue o).mulVec (Pi.single b 1) = Pi.single (writeValue nKey nValue o b) 1 := by
  rw [Matrix.mulVec_single_one]
  funext a
  simp [writeForm, Matrix.col_apply, Pi.single_apply]

theorem writeForm_unitary (nKey nValue : Nat) (o : Objective) :
    writeForm nKey nValue o ∈ Matrix.unitaryGroup (Bits (nKey + nValue + 1)) ℂ := by
  have hstar : (writeForm nKey nValue o).conjTranspose = writeForm nKey nValue o := by
    ext a b
    have : (b = writeValue nKey nValue o a) ↔ (a = writeValue nKey nValue o b) := by
      constructor <;> (intro h; rw [h, writeValue_invol])
    simp only [Matrix.conjTranspose_apply, writeForm, this]
    split <;> simp
  rw [Matrix.mem_unitaryGroup_iff, Matrix.star_eq_conjTranspose, hstar]
  refine Matrix.ext_of_mulVec_single fun b => ?_
  rw [← Matrix.mulVec_mulVec, writeForm_single, writeForm_single, writeValue_invol, Matrix.one_mulVec]

theorem writeForm_basis (nKey nValue : Nat) (o : Objective) (k : Nat) :
    (writeForm nKey nValue o).mulVec (ket _ (bitString nKey k)) =
      ket _ (bitString nKey k ++ twosComplement nValue (o.val (pt (keyPt nKey k))).num) := by
  unfold ket
  rw [writeForm_single]
  congr 1
  have hp : basisPoint nKey (stringBits (nKey + nValue + 1) (bitString nKey k)) = keyPt nKey k := by
    unfold basisPoint keyPt
    rw [outcomeOf_stringBits (bitString_bits _ _) (by rw [bitString_length]; omega), List.take_left' (bitString_length _ _)]
  funext i
  unfold writeValue
  rw [hp]
  have hl := bitString_length nKey k
  have hl2 := twosComplement_length nValue (o.val (pt (keyPt nKey k))).num
  by_cases h1 : i.val < nKey
  · rw [if_neg (by omega)]
    simp [stringBits, List.getD_eq_getElem?_getD, List.getElem?_append_left (show i.val < (bitString nKey k).length by omega)]
  · have h0 : (bitString nKey k)[i.val]? = none := List.getElem?_eq_none (by omega)
    by_cases h2 : i.val < nKey + nValue
    · rw [if_pos ⟨by omega, h2⟩]
      simp [stringBits, List.getD_eq_getElem?_getD, List.getElem?_append_right (show (bitString nKey k).length ≤ i.val by omega),
        h0, hl]
    · rw [if_neg (by omega)]
      have h3 : (bitString nKey k ++ twosComplement nValue (o.val (pt (keyPt nKey k))).num)[i.val]? = none :=
        List.getElem?_eq_none (by rw [List.length_append]; omega)
      simp [stringBits, List.getD_eq_getElem?_getD, h0, h3]

/-- The contract is met. -/
theorem writeForm_spec (nKey nValue : Nat) (o : Objective) : FormSpec nKey nValue o (writeForm nKey nValue o) :=
  ⟨writeForm_unitary _ _ _, fun k _ z hz => by rw [writeForm_basis, hz, Rat.num_intCast]⟩

/-- Without rotations every key is a possible outcome. -/
theorem sim_observable (nKey nValue : Nat) (o : Objective) (c : Circuit) (key : Nat → Nat) (hk : ∀ i, key i < 2 ^ nKey)
    (i : Nat) : Observable (groverCircuitState nKey nValue (writeForm nKey nValue o) 0)
      (simMeasure nKey nValue key c i o).bits := by
  refine ⟨stringBits _ (bitString nKey (key i) ++ twosComplement nValue (o.val (pt (keyPt nKey (key i)))).num), ?_,
    Or.inr ?_⟩
  · unfold groverCircuitState
    rw [pow_zero, Matrix.one_mul, aOperator_state (z := fun k => (o.val (pt (keyPt nKey k))).num)
      fun k _ => writeForm_basis nKey nValue o k]
    have := superpose_at (strings_inj (nKey := nKey) (nValue := nValue) fun k => (o.val (pt (keyPt nKey k))).num)
      (fun _ => (Real.sqrt ((2 ^ nKey : Nat) : ℝ))⁻¹) (hk i)
    rw [this]
    rw [Complex.ofReal_ne_zero]
    have : (0 : ℝ) < ((2 ^ nKey : Nat) : ℝ) := by positivity
    positivity
  · rw [outcome_string, List.take_left' (by simp [bitString_length, twosComplement_length])]
    rfl

/-- The values of a program and their differences, tested for all keys. -/
theorem representable_of {nKey nValue : Nat} {o : Objective} (h : ∀ k < 2 ^ nKey, (o.val (pt (keyPt nKey k))).den = 1 ∧
    -2 ^ (nValue - 1) ≤ (o.val (pt (keyPt nKey k))).num ∧ (o.val (pt (keyPt nKey k))).num < 2 ^ (nValue - 1)) :
    Representable nKey nValue o := fun k hk =>
  ⟨_, ((Rat.den_eq_one_iff _).mp (h k hk).1).symm, (h k hk).2⟩

/-- All hypotheses of `C75_best` are met by the sample program with four value qubits. -/
example : (∀ o, FormSpec groverQP.objective.linear.n 4 o (writeForm groverQP.objective.linear.n 4 o)) ∧
    (∀ i o, Observable (groverCircuitState groverQP.objective.linear.n 4 (writeForm groverQP.objective.linear.n 4 o) 0)
      (simMeasure 2 4 groverKeys groverCircuit i o).bits) ∧
    Representable groverQP.objective.linear.n 4 (groverObjective groverQP.objective) ∧
    ∀ l < 2 ^ groverQP.objective.linear.n, Representable groverQP.objective.linear.n 4
      { groverObjective groverQP.objective with constant := (groverObjective groverQP.objective).constant -
        (groverObjective groverQP.objective).val (pt (keyPt groverQP.objective.linear.n l)) } := by
  have hn : groverQP.objective.linear.n = 2 := by decide +kernel
  have hk : ∀ i, groverKeys i < 2 ^ 2 := by
    intro i
    have : i % 4 < 4 := Nat.mod_lt _ (by norm_num)
    unfold groverKeys
    generalize i % 4 = k at this
    interval_cases k <;> simp
  rw [hn]
  refine ⟨fun o => writeForm_spec _ _ o, fun i o => sim_observable 2 4 o groverCircuit groverKeys hk i,
    representable_of (by decide +kernel), ?_⟩
  have h : ∀ l < 2 ^ 2, ∀ k < 2 ^ 2,
      (Objective.val ⟨(groverObjective groverQP.objective).constant - (groverObjective groverQP.objective).val (pt (keyPt 2 l)),
        (groverObjective groverQP.objective).linear, (groverObjective groverQP.objective).quadratic, .minimize⟩
        (pt (keyPt 2 k))).den = 1 ∧
      -2 ^ (4 - 1) ≤ (Objective.val ⟨(groverObjective groverQP.objective).constant -
        (groverObjective groverQP.objective).val (pt (keyPt 2 l)),
        (groverObjective groverQP.objective).linear, (groverObjective groverQP.objective).quadratic, .minimize⟩
        (pt (keyPt 2 k))).num ∧
      (Objective.val ⟨(groverObjective groverQP.objective).constant -
        (groverObjective groverQP.objective).val (pt (keyPt 2 l)),
        (groverObjective groverQP.objective).linear, (groverObjective groverQP.objective).quadratic, .minimize⟩
        (pt (keyPt 2 k))).num < 2 ^ (4 - 1) := by
    decide +kernel
  exact fun l hl => representable_of (h l hl)

/-- Two of the four keys of the sample have negative values (in the minimization the four values are 0, -2, -1 and 1). -/
example : ((range (2 ^ 2)).filter fun k => (groverObjective groverQP.objective).val (pt (keyPt 2 k)) < 0).card = 2 := by
  decide +kernel

end Verif

import Verif.GroverRunLemmas

/-!
# C105: how likely the Grover optimizer finds the optimum
-/

namespace Verif

open Finset

/-- **C105** (from above): whatever the number of iterations without improvement is, a search with at least one variable
measures an optimal key with probability at most `s * (v + 62419) / 2^n`, where `s` is the number of optimal keys and `v`
the number of values of the objective: the limit of 79 rotations does not depend on the number of variables. -/
theorem C105_bound {nKey nValue : Nat} (nIt : Nat) {o : Objective} {form : ℚ → Unitary (nKey + nValue + 1)} (hk : 1 ≤ nKey)
    (hv : 0 < nValue) (hF : ∀ t, IsThreshold nKey o t → FormSpec nKey nValue (shiftObjective o t) (form t))
    (hr : ∀ t, IsThreshold nKey o t → Representable nKey nValue (shiftObjective o t)) (fuel : Nat) :
    hitProb nKey nValue nIt o form (optimalKeys nKey o) fuel none 0 1 0 ≤
      (optimalKeys nKey o).card * ((keyValues nKey o).card + 62419) / (2 ^ nKey : Nat) := by
  have hN : (0 : ℝ) < (2 ^ nKey : Nat) := by positivity
  cases fuel with
  | zero => rw [hitProb]; positivity
  | succ fuel =>
    rw [hitProb]
    rw [integral_draw_one fun r => ∑ k ∈ range (2 ^ nKey),
        keyProb (groverCircuitState nKey nValue (form ((none : Option ℚ).getD 0)) r) nKey k *
          if k ∈ optimalKeys nKey o then 1
          else if improves (o.val (pt (keyPt nKey k))) none then
            hitProb nKey nValue nIt o form (optimalKeys nKey o) fuel (some (o.val (pt (keyPt nKey k)))) 0 1 (0 + r)
          else if 0 + 1 ≥ nIt ∨ 0 + r ≥ groverMaxRotations then 0
          else hitProb nKey nValue nIt o form (optimalKeys nKey o) fuel none (0 + 1) (nextRange nKey 1) (0 + r)]
    have h0 : IsThreshold nKey o 0 := Or.inl rfl
    have hsub : optimalKeys nKey o ⊆ range (2 ^ nKey) := Finset.filter_subset _ _
    refine (step_le (q := 1 / (2 ^ nKey : Nat)) (x := (optimalKeys nKey o).card / (2 ^ nKey : Nat) *
      ((keyValues nKey o).card - 1 + 62419)) hsub (fun k => keyProb_nonneg _ _ _) (keyProb_sum hv (hF 0 h0) (hr 0 h0) 0)
      (fun k hko => le_of_eq (keyProb_zero hv (hF 0 h0) (hr 0 h0) (Finset.mem_range.mp (hsub hko)))) ?_ ?_).trans
      (le_of_eq (by ring))
    · have h1 : (0 : ℝ) ≤ (keyValues nKey o).card := by positivity
      exact mul_nonneg (by positivity) (by linarith)
    · intro k hkl hkn
      rw [if_pos (show improves _ none = true from rfl)]
      refine (hit_le hk hv hF hr fuel _ 0 1 (0 + 0) ⟨k, hkl, rfl⟩ ?_ (Or.inl rfl)).trans ?_
      · exact not_optimal hkl hkn
      · refine mul_le_mul_of_nonneg_left ?_ (by positivity)
        have hl : (levels nKey o (o.val (pt (keyPt nKey k))) : ℝ) + 1 ≤ (keyValues nKey o).card := by
          exact_mod_cast levels_le nKey o hkl
        rw [remaining, if_pos rfl]
        norm_num [groverMaxRotations]
        linarith

/-- **C105** (the default): with `num_iterations = 3`, the default of the constructor (`grover_optimizer.py:51`), an optimal key
is measured with probability at most `27 s v / 2^n`. -/
theorem C105_default {nKey nValue : Nat} {o : Objective} {form : ℚ → Unitary (nKey + nValue + 1)} (hk : 1 ≤ nKey)
    (hv : 0 < nValue) (hF : ∀ t, IsThreshold nKey o t → FormSpec nKey nValue (shiftObjective o t) (form t))
    (hr : ∀ t, IsThreshold nKey o t → Representable nKey nValue (shiftObjective o t)) (fuel : Nat) :
    hitProb nKey nValue 3 o form (optimalKeys nKey o) fuel none 0 1 0 ≤
      27 * (optimalKeys nKey o).card * (keyValues nKey o).card / (2 ^ nKey : Nat) := by
  have hN : (0 : ℝ) < (2 ^ nKey : Nat) := by positivity
  cases fuel with
  | zero => rw [hitProb]; positivity
  | succ fuel =>
    rw [hitProb]
    rw [integral_draw_one fun r => ∑ k ∈ range (2 ^ nKey),
        keyProb (groverCircuitState nKey nValue (form ((none : Option ℚ).getD 0)) r) nKey k *
          if k ∈ optimalKeys nKey o then 1
          else if improves (o.val (pt (keyPt nKey k))) none then
            hitProb nKey nValue 3 o form (optimalKeys nKey o) fuel (some (o.val (pt (keyPt nKey k)))) 0 1 (0 + r)
          else if 0 + 1 ≥ 3 ∨ 0 + r ≥ groverMaxRotations then 0
          else hitProb nKey nValue 3 o form (optimalKeys nKey o) fuel none (0 + 1) (nextRange nKey 1) (0 + r)]
    have h0 : IsThreshold nKey o 0 := Or.inl rfl
    have hsub : optimalKeys nKey o ⊆ range (2 ^ nKey) := Finset.filter_subset _ _
    have hone : 1 ≤ (keyValues nKey o).card := (Nat.le_add_left 1 _).trans (levels_le nKey o (Nat.two_pow_pos nKey))
    have hone' : (1 : ℝ) ≤ (keyValues nKey o).card := by exact_mod_cast hone
    refine (step_le (q := 1 / (2 ^ nKey : Nat)) (x := (optimalKeys nKey o).card / (2 ^ nKey : Nat) *
      (27 * ((keyValues nKey o).card - 1))) hsub (fun k => keyProb_nonneg _ _ _) (keyProb_sum hv (hF 0 h0) (hr 0 h0) 0)
      (fun k hko => le_of_eq (keyProb_zero hv (hF 0 h0) (hr 0 h0) (Finset.mem_range.mp (hsub hko)))) ?_ ?_).trans ?_
    · exact mul_nonneg (by positivity) (by linarith)
    · intro k hkl hkn
      rw [if_pos (show improves _ none = true from rfl)]
      refine (hit_three hk hv hF hr rfl fuel _ (0 + 0) ⟨k, hkl, rfl⟩ (not_optimal hkl hkn)).1.trans ?_
      refine mul_le_mul_of_nonneg_left ?_ (by positivity)
      have hl : (levels nKey o (o.val (pt (keyPt nKey k))) : ℝ) + 1 ≤ (keyValues nKey o).card := by
        exact_mod_cast levels_le nKey o hkl
      linarith
    · have h2 : (0 : ℝ) ≤ (optimalKeys nKey o).card / (2 ^ nKey : Nat) := by positivity
      calc _ = (optimalKeys nKey o).card / (2 ^ nKey : Nat) * (27 * ((keyValues nKey o).card : ℝ) - 26) := by ring
        _ ≤ (optimalKeys nKey o).card / (2 ^ nKey : Nat) * (27 * ((keyValues nKey o).card : ℝ)) :=
          mul_le_mul_of_nonneg_left (by linarith) h2
        _ = _ := by ring

/-- `-x_0 - … - x_{n-1}`. -/
def onesObj (n : Nat) : Objective := ⟨0, ⟨n, (List.range n).map fun i => (i, -1)⟩, ⟨n, []⟩, .minimize⟩

theorem onesObj_val (n k : Nat) : (onesObj n).val (pt (keyPt n k)) = -((bitString n k).count '1' : ℚ) := by
  have h : ∀ s : List Char, ((List.range s.length).map fun i => (-1 : ℚ) * pt (s.map fun c => if c = '1' then (1 : ℚ) else 0) i).sum
      = -(s.count '1' : ℚ) := by
    intro s
    induction s with
    | nil => simp
    | cons c s ih =>
      rw [List.length_cons, List.range_succ_eq_map, List.map_cons, List.sum_cons, List.map_map]
      have e : ((fun i => (-1 : ℚ) * pt ((c :: s).map fun c => if c = '1' then (1 : ℚ) else 0) i) ∘ Nat.succ) =
          fun i => (-1 : ℚ) * pt (s.map fun c => if c = '1' then (1 : ℚ) else 0) i := by
        funext i
        simp [pt]
      rw [e, ih, List.count_cons]
      by_cases hc : c = '1'
      · subst hc
        simp [pt]
      · simp [hc, pt]
  have := h (bitString n k)
  rw [bitString_length] at this
  simp only [onesObj, Objective.val, LinExpr.val, QuadExpr.val, Dict.sum, List.map_map]
  simpa [keyPt, Function.comp_def] using this

/-- Binary digits of `2^n - 1`. -/
theorem bitString_ones (n : Nat) : bitString n (2 ^ n - 1) = List.replicate n '1' := by
  induction n with
  | zero => rfl
  | succ n ih =>
    have h1 : (2 ^ (n + 1) - 1) / 2 = 2 ^ n - 1 := by rw [pow_succ]; omega
    have h2 : (2 ^ (n + 1) - 1) % 2 = 1 := by have := Nat.one_le_two_pow (n := n); rw [pow_succ]; omega
    rw [bitString, h1, ih, h2, if_pos rfl, List.replicate_succ']

theorem onesObj_optimal (n : Nat) : optimalKeys n (onesObj n) = {2 ^ n - 1} := by
  ext k
  unfold optimalKeys
  have hone : (onesObj n).val (pt (keyPt n (2 ^ n - 1))) = -(n : ℚ) := by rw [onesObj_val, bitString_ones]; simp
  have hlt : 2 ^ n - 1 < 2 ^ n := by have := Nat.one_le_two_pow (n := n); omega
  have hle : ∀ j, -(n : ℚ) ≤ (onesObj n).val (pt (keyPt n j)) := by
    intro j
    rw [onesObj_val, neg_le_neg_iff]
    have : (bitString n j).count '1' ≤ (bitString n j).length := List.count_le_length
    rw [bitString_length] at this
    exact_mod_cast this
  rw [Finset.mem_filter, Finset.mem_range, Finset.mem_singleton]
  constructor
  · rintro ⟨hk, h⟩
    have h1 := h _ hlt
    rw [hone, onesObj_val, neg_le_neg_iff] at h1
    have h2 : n ≤ (bitString n k).count '1' := by exact_mod_cast h1
    have h3 : (bitString n k).count '1' ≤ (bitString n k).length := List.count_le_length
    have h4 : (bitString n k).count '1' = (bitString n k).length := by rw [bitString_length] at *; omega
    have h5 : bitString n k = List.replicate n '1' := by
      rw [List.eq_replicate_iff]
      exact ⟨bitString_length _ _, fun b hb => (List.count_eq_length.mp h4 b hb).symm⟩
    exact bitString_inj hk hlt (h5.trans (bitString_ones n).symm)
  · rintro rfl
    exact ⟨hlt, fun j _ => by rw [hone]; exact hle j⟩

theorem onesObj_values (n : Nat) : (keyValues n (onesObj n)).card ≤ n + 1 := by
  have hsub : keyValues n (onesObj n) ⊆ (range (n + 1)).image fun i : Nat => -(i : ℚ) := by
    intro v hv
    obtain ⟨k, -, rfl⟩ := Finset.mem_image.mp hv
    refine Finset.mem_image.mpr ⟨(bitString n k).count '1', ?_, (onesObj_val n k).symm⟩
    have : (bitString n k).count '1' ≤ (bitString n k).length := List.count_le_length
    rw [bitString_length] at this
    exact Finset.mem_range.mpr (by omega)
  refine (Finset.card_le_card hsub).trans (Finset.card_image_le.trans ?_)
  simp

theorem onesObj_representable {n nValue : Nat} (h : n < 2 ^ (nValue - 1)) (t : ℚ) (ht : IsThreshold n (onesObj n) t) :
    Representable n nValue (shiftObjective (onesObj n) t) := by
  have hle : ∀ j, (bitString n j).count '1' ≤ n := fun j => by
    have : (bitString n j).count '1' ≤ (bitString n j).length := List.count_le_length
    rwa [bitString_length] at this
  obtain ⟨z, hz0, hz1, rfl⟩ : ∃ z : Int, -(n : Int) ≤ z ∧ z ≤ 0 ∧ t = z := by
    rcases ht with rfl | ⟨k, -, rfl⟩
    · exact ⟨0, by omega, le_rfl, by simp⟩
    · exact ⟨-((bitString n k).count '1' : Int), by have := hle k; omega, by omega, by rw [onesObj_val]; push_cast; rfl⟩
  intro k _
  have h' : (n : Int) < 2 ^ (nValue - 1) := by exact_mod_cast h
  refine ⟨-((bitString n k).count '1' : Int) - z, by rw [shift_val, onesObj_val]; push_cast; rfl, ?_, ?_⟩
  · have := hle k; omega
  · omega

/-- By default the optimizer finds the maximum of a sum of 20 binary variables in less than one of 1000 runs. -/
example (form : ℚ → Unitary (20 + 6 + 1)) (hF : ∀ t, IsThreshold 20 (onesObj 20) t →
    FormSpec 20 6 (shiftObjective (onesObj 20) t) (form t)) (fuel : Nat) :
    hitProb 20 6 3 (onesObj 20) form (optimalKeys 20 (onesObj 20)) fuel none 0 1 0 < 1 / 1000 := by
  refine lt_of_le_of_lt (C105_default (by norm_num) (by norm_num) hF
    (fun t ht => onesObj_representable (n := 20) (nValue := 6) (by norm_num) t ht) fuel) ?_
  rw [onesObj_optimal, Finset.card_singleton]
  have hv : ((keyValues 20 (onesObj 20)).card : ℝ) ≤ 21 := by exact_mod_cast onesObj_values 20
  generalize ((keyValues 20 (onesObj 20)).card : ℝ) = v at hv ⊢
  rw [div_lt_iff₀ (by positivity)]
  norm_num
  linarith

/-- Maximize the sum of 40 binary variables. -/
def onesQP : QP := (runCalls (QP.empty "") [.addVars (.count 40) 0 1 .binary (some "x") (.hole "" ""),
  .objective .maximize 0 (.list (List.replicate 40 1)) (.dict [])]).2

/-- **C105 fails** for large programs: the sum of 40 binary variables is maximized by setting all of them, and all its values
fit into seven value qubits, but however many iterations without improvement are allowed, the Grover optimizer measures this
key with a probability below one in ten million.  (The answer of the optimizer is a measured key or the zero point, see
`C33_best`.)  The limit of 79 rotations is the same for all numbers of variables. -/
theorem C105_violated : onesQP.WF ∧ onesQP.numVars = 40 ∧ onesQP.allCsts = [] ∧
    (∀ x, onesQP.Feas x → onesQP.objective.val x ≤ onesQP.objective.val fun _ => 1) ∧
    (∀ t, IsThreshold 40 (groverObjective onesQP.objective) t →
      Representable 40 7 (shiftObjective (groverObjective onesQP.objective) t)) ∧
    ∀ form : ℚ → Unitary (40 + 7 + 1), (∀ t, IsThreshold 40 (groverObjective onesQP.objective) t →
        FormSpec 40 7 (shiftObjective (groverObjective onesQP.objective) t) (form t)) →
      ∀ nIt fuel, hitProb 40 7 nIt (groverObjective onesQP.objective) form
        (optimalKeys 40 (groverObjective onesQP.objective)) fuel none 0 1 0 < 1 / 10 ^ 7 := by
  have ho : groverObjective onesQP.objective = onesObj 40 := by decide +kernel
  have ho' : onesQP.objective = ⟨0, ⟨40, (List.range 40).map fun i => (i, 1)⟩, ⟨40, []⟩, .maximize⟩ := by decide +kernel
  have hrep := fun t ht => onesObj_representable (n := 40) (nValue := 7) (by norm_num) t ht
  rw [ho]
  refine ⟨by decide +kernel, by decide +kernel, by decide +kernel, ?_, hrep, ?_⟩
  · rintro x ⟨hb, -, -⟩
    have hub : ∀ i < 40, (onesQP.vars[i]?).map Variable.ub = some 1 := by decide +kernel
    rw [ho']
    simp only [Objective.val, LinExpr.val, QuadExpr.val, Dict.sum, List.map_map, List.map_nil, List.sum_nil, add_zero,
      zero_add]
    refine List.sum_le_sum fun i hi => ?_
    have h1 := hub i (List.mem_range.mp hi)
    cases hv : onesQP.vars[i]? with
    | none => rw [hv] at h1; simp at h1
    | some v =>
      rw [hv, Option.map_some, Option.some.injEq] at h1
      have := (hb i v hv).2
      rw [h1] at this
      simpa using this
  · intro form hF nIt fuel
    have h := C105_bound nIt (by norm_num) (by norm_num) hF hrep fuel
    refine lt_of_le_of_lt h ?_
    rw [onesObj_optimal, Finset.card_singleton]
    have hv : ((keyValues 40 (onesObj 40)).card : ℝ) ≤ 41 := by exact_mod_cast onesObj_values 40
    generalize ((keyValues 40 (onesObj 40)).card : ℝ) = v at hv ⊢
    rw [div_lt_iff₀ (by positivity)]
    norm_num
    linarith

/-- **C105** (from below), partial: if the rotations last for all rounds, an optimal key is measured with probability at least
`1 - (v - 1) (7/8)^l`, where `v` is the number of values of the objective and `⌈2^(n/2)⌉ - 1 + l` the number of iterations
without improvement that are allowed.  Full statement: for all programs, with no limit for the rotations.  Missing: programs
for which 79 rotations are not enough, where it is false (`C105_violated`), and two variables, where one round may fail with
probability 1/4 (`C81_violated`). -/
theorem C105_found_partial {nKey nValue nIt : Nat} {o : Objective} {form : ℚ → Unitary (nKey + nValue + 1)} (hk : 1 ≤ nKey)
    (hk2 : nKey ≠ 2) (hv : 0 < nValue)
    (hF : ∀ t, IsThreshold nKey o t → FormSpec nKey nValue (shiftObjective o t) (form t))
    (hr : ∀ t, IsThreshold nKey o t → Representable nKey nValue (shiftObjective o t)) (l : Nat)
    (hIt : ⌈(2 : ℝ) ^ ((nKey : ℝ) / 2)⌉₊ - 1 + l ≤ nIt)
    (hR : ((keyValues nKey o).card - 1) * ((⌈(2 : ℝ) ^ ((nKey : ℝ) / 2)⌉₊ - 1 + l) * (⌈(2 : ℝ) ^ ((nKey : ℝ) / 2)⌉₊ - 1)) <
      79) (fuel : Nat) (hfuel : ((keyValues nKey o).card - 1) * (⌈(2 : ℝ) ^ ((nKey : ℝ) / 2)⌉₊ - 1 + l) ≤ fuel) :
    1 - ((keyValues nKey o).card - 1 : Nat) * (7 / 8 : ℝ) ^ l ≤
      hitProb nKey nValue nIt o form (optimalKeys nKey o) (fuel + 1) none 0 1 0 := by
  rw [hitProb]
  rw [integral_draw_one fun r => ∑ k ∈ range (2 ^ nKey),
      keyProb (groverCircuitState nKey nValue (form ((none : Option ℚ).getD 0)) r) nKey k *
        if k ∈ optimalKeys nKey o then 1
        else if improves (o.val (pt (keyPt nKey k))) none then
          hitProb nKey nValue nIt o form (optimalKeys nKey o) fuel (some (o.val (pt (keyPt nKey k)))) 0 1 (0 + r)
        else if 0 + 1 ≥ nIt ∨ 0 + r ≥ groverMaxRotations then 0
        else hitProb nKey nValue nIt o form (optimalKeys nKey o) fuel none (0 + 1) (nextRange nKey 1) (0 + r)]
  have h0 : IsThreshold nKey o 0 := Or.inl rfl
  have hsum := keyProb_sum hv (hF 0 h0) (hr 0 h0) 0
  have h := step_ge (a := 1 - ((keyValues nKey o).card - 1 : Nat) * (7 / 8 : ℝ) ^ l) (b := 0) (good := fun _ => True)
    (p := fun k => keyProb (groverCircuitState nKey nValue (form 0) 0) nKey k) (g := fun k =>
        if k ∈ optimalKeys nKey o then 1
        else if improves (o.val (pt (keyPt nKey k))) none then
          hitProb nKey nValue nIt o form (optimalKeys nKey o) fuel (some (o.val (pt (keyPt nKey k)))) 0 1 (0 + 0)
        else if 0 + 1 ≥ nIt ∨ 0 + 0 ≥ groverMaxRotations then 0
        else hitProb nKey nValue nIt o form (optimalKeys nKey o) fuel none (0 + 1) (nextRange nKey 1) (0 + 0))
    (fun k => keyProb_nonneg _ _ _) hsum ?_ (fun _ _ h => absurd trivial h)
  · rw [Finset.filter_true, hsum, mul_one, zero_mul, add_zero] at h
    exact h
  · intro k hkl _
    split
    · have : (0 : ℝ) ≤ ((keyValues nKey o).card - 1 : Nat) * (7 / 8 : ℝ) ^ l := by positivity
      linarith
    · rename_i hkn
      rw [if_pos (show improves _ none = true from rfl)]
      refine rounds_ge hk hk2 hv hF hr l _ hIt fuel k (0 + 0) hkl hkn ?_ (by simpa [groverMaxRotations] using hR) hfuel
      have := levels_le nKey o hkl
      omega

/-- A quadratic objective of three variables with two values, `-1` at two of the eight keys. -/
def twoValueObj : Objective := ⟨0, ⟨3, []⟩, ⟨3, [((0, 1), -1)]⟩, .minimize⟩

/-- With 30 iterations without improvement its optimum is found with probability at least 97 percent. -/
example : (optimalKeys 3 twoValueObj).card = 2 ∧
    97 / 100 ≤ hitProb 3 2 30 twoValueObj (fun t => writeForm 3 2 (shiftObjective twoValueObj t)) (optimalKeys 3 twoValueObj)
      31 none 0 1 0 := by
  have h2 : (keyValues 3 twoValueObj).card = 2 := by decide +kernel
  have hrep : ∀ t ∈ [0, -1], ∀ k < 2 ^ 3, ((shiftObjective twoValueObj t).val (pt (keyPt 3 k))).den = 1 ∧
      -2 ^ (2 - 1) ≤ ((shiftObjective twoValueObj t).val (pt (keyPt 3 k))).num ∧
      ((shiftObjective twoValueObj t).val (pt (keyPt 3 k))).num < 2 ^ (2 - 1) := by decide +kernel
  have hth : ∀ t, IsThreshold 3 twoValueObj t → t ∈ [0, -1] := by
    have : ∀ k < 2 ^ 3, twoValueObj.val (pt (keyPt 3 k)) ∈ [0, -1] := by decide +kernel
    rintro t (rfl | ⟨k, hk, rfl⟩)
    · simp
    · exact this k hk
  refine ⟨by decide +kernel, ?_⟩
  have hc : ⌈(2 : ℝ) ^ (((3 : Nat) : ℝ) / 2)⌉₊ = 3 := ceil_root (c := 2) (by norm_num) (by norm_num)
  have h := C105_found_partial (nKey := 3) (nValue := 2) (nIt := 30) (o := twoValueObj)
    (form := fun t => writeForm 3 2 (shiftObjective twoValueObj t)) (by norm_num) (by norm_num) (by norm_num)
    (fun t _ => writeForm_spec _ _ _) (fun t ht => representable_of (hrep t (hth t ht))) 28 (by rw [hc])
    (by rw [hc, h2]; norm_num) 30 (by rw [hc, h2])
  rw [h2] at h
  refine le_trans ?_ h
  norm_num

end Verif

import Verif.IsingMatrix
import Mathlib.Analysis.Complex.Norm

/-!
# Operators as matrices: ground states, expectation values, means of samples (C82)
-/

namespace Verif

open Finset

theorem toIsing_diag {p : QP} {op : QubitOp} {offset : ℚ} (h : p.toIsing = .ok (op, offset)) :
    op.numQubits = p.numVars ∧ op.Diagonal := by
  by_cases hne : p.objective.linear.coeffs ≠ [] ∨ p.objective.quadratic.coeffs ≠ []
  · obtain ⟨a, b, _⟩ := C09_energy_partial p op offset h hne
    exact ⟨a, b⟩
  · push Not at hne
    obtain ⟨_, _, _, st, terms, h1, h2, h3⟩ := toIsing_ok h
    simp only [hne.1, hne.2, isingLinear, Except.ok.injEq, mergeCoeffs, List.foldl_nil] at h1 h2
    subst h1
    simp only [isingQuadratic, Except.ok.injEq, Prod.mk.injEq] at h2
    rw [← h2.1, if_pos rfl] at h3
    subst h3
    refine ⟨rfl, ?_⟩
    intro t ht i
    simp only [List.mem_singleton] at ht
    subst ht
    simp only [noMask, List.getElem?_replicate]
    split <;> simp

theorem digitPt_isBits (n i : Nat) : IsBits n (digitPt i) := fun j _ => by
  rw [digitPt_bit]
  split <;> simp

/-- Values at points that agree on the variables. -/
theorem exists_digits (n : Nat) {b : Nat → ℚ} (hb : IsBits n b) : ∃ i < 2 ^ n, ∀ j < n, digitPt i j = b j := by
  induction n with
  | zero => exact ⟨0, by norm_num, by simp⟩
  | succ n ih =>
    obtain ⟨i, hi, h⟩ := ih fun j hj => hb j (by omega)
    rcases hb n (by omega) with h0 | h1
    · refine ⟨i, hi.trans (Nat.pow_lt_pow_right (by norm_num) (by omega)), fun j hj => ?_⟩
      rcases Nat.lt_or_ge j n with hj' | hj'
      · exact h j hj'
      · have : j = n := by omega
        rw [this, h0, digitPt_zero hi le_rfl]
    · refine ⟨2 ^ n + i, by rw [pow_succ]; omega, fun j hj => ?_⟩
      rcases Nat.lt_or_ge j n with hj' | hj'
      · rw [← h j hj', digitPt_bit, digitPt_bit, Nat.testBit_two_pow_add_gt hj']
      · have : j = n := by omega
        rw [this, h1, digitPt_bit, Nat.testBit_two_pow_add_eq, Nat.testBit_lt_two_pow hi]
        simp

/-- **C82** (matrix), partial: the matrix of the operator is diagonal, and its entries are the signed objective values of the
basis states minus the offset.  Full statement: for all programs that `to_ising` accepts.  Missing: constant objectives,
where the entries are larger by one (`C09_violated`). -/
theorem C82_matrix_partial {p : QP} {op : QubitOp} {offset : ℚ} (h : p.toIsing = .ok (op, offset))
    (hne : p.objective.linear.coeffs ≠ [] ∨ p.objective.quadratic.coeffs ≠ []) :
    op.matrix = Matrix.diagonal fun i : Fin (2 ^ op.numQubits) =>
      ((p.objective.sense.value * p.objective.val (digitPt i) - offset : ℚ) : ℂ) := by
  rw [QubitOp.matrix_diagonal (toIsing_diag h).2]
  congr 1
  funext i
  have := (C09_energy_partial p op offset h hne).2.2 _ (digitPt_isBits _ i)
  rw [show op.energy (digitPt i) = p.objective.sense.value * p.objective.val (digitPt i) - offset by linarith]

/-- **C82** (ground states): the eigenvectors to the smallest eigenvalue of the matrix are the superpositions of optimal
points.  This holds for all (well-formed) programs that `to_ising` accepts, also with constant objectives. -/
theorem C82_ground {p : QP} (hw : p.WF) {op : QubitOp} {offset : ℚ} (h : p.toIsing = .ok (op, offset))
    (psi : Fin (2 ^ op.numQubits) → ℂ) :
    (∃ lam, LeastEigen op.matrix lam psi) ↔ psi ≠ 0 ∧ ∀ i, psi i ≠ 0 → ∀ b, IsBits p.numVars b →
      p.objective.sense.value * p.objective.val (digitPt i) ≤ p.objective.sense.value * p.objective.val b := by
  obtain ⟨hn, hd⟩ := toIsing_diag h
  obtain ⟨_, c, hen⟩ := toIsing_shift h
  have hmat : op.matrix = Matrix.diagonal fun i : Fin (2 ^ op.numQubits) =>
      (((p.objective.sense.value * p.objective.val (digitPt i) + c : ℚ) : ℝ) : ℂ) := by
    rw [QubitOp.matrix_diagonal hd]
    congr 1
    funext i
    rw [hen _ (digitPt_isBits _ i)]
    push_cast
    rfl
  rw [hmat]
  simp only [least_diagonal]
  constructor
  · rintro ⟨lam, h0, h1⟩
    refine ⟨h0, fun i hi b hb => ?_⟩
    obtain ⟨k, hk, hkb⟩ := exists_digits p.numVars hb
    have h2 := (h1 i hi).2 ⟨k, by rw [hn]; exact hk⟩
    have h3 : p.objective.sense.value * p.objective.val (digitPt i) + c ≤
        p.objective.sense.value * p.objective.val (digitPt k) + c := by exact_mod_cast h2
    rw [← Objective.val_congr hw hkb]
    linarith
  · rintro ⟨h0, h1⟩
    obtain ⟨i, hi⟩ := Function.ne_iff.mp h0
    refine ⟨((p.objective.sense.value * p.objective.val (digitPt i) + c : ℚ) : ℝ), h0, fun j hj => ⟨?_, fun k => ?_⟩⟩
    · have a := h1 i hi _ (digitPt_isBits _ j)
      have b := h1 j hj _ (digitPt_isBits _ i)
      rw [le_antisymm a b]
    · have a := h1 j hj _ (digitPt_isBits _ k)
      exact_mod_cast add_le_add_left a c

/-- **C82** (energy), partial: the smallest eigenvalue plus the offset is the optimal signed objective value.  Full
statement and what is missing: see `C82_matrix_partial`. -/
theorem C82_energy_partial {p : QP} (hw : p.WF) {op : QubitOp} {offset : ℚ} (h : p.toIsing = .ok (op, offset))
    (hne : p.objective.linear.coeffs ≠ [] ∨ p.objective.quadratic.coeffs ≠ []) {lam : ℝ}
    {psi : Fin (2 ^ op.numQubits) → ℂ} (hl : LeastEigen op.matrix lam psi) :
    (∃ b, IsBits p.numVars b ∧ lam + offset = ((p.objective.sense.value * p.objective.val b : ℚ) : ℝ)) ∧
      ∀ b, IsBits p.numVars b → lam + offset ≤ ((p.objective.sense.value * p.objective.val b : ℚ) : ℝ) := by
  have hopt := ((C82_ground hw h psi).mp ⟨lam, hl⟩).2
  rw [C82_matrix_partial h hne] at hl
  have hl' : LeastEigen (Matrix.diagonal fun i : Fin (2 ^ op.numQubits) =>
      (((p.objective.sense.value * p.objective.val (digitPt i) - offset : ℚ) : ℝ) : ℂ)) lam psi := by
    convert hl using 3
    push_cast
    rfl
  rw [least_diagonal] at hl'
  obtain ⟨i, hi⟩ := Function.ne_iff.mp hl'.1
  have hlam : lam + offset = ((p.objective.sense.value * p.objective.val (digitPt i) : ℚ) : ℝ) := by
    rw [(hl'.2 i hi).1]
    push_cast
    ring
  refine ⟨⟨_, digitPt_isBits _ i, hlam⟩, fun b hb => ?_⟩
  rw [hlam]
  exact_mod_cast hopt i hi b hb

/-- **C82** (expectation values), partial: in every state the expectation value of the operator plus the offset is the mean
of the signed objective values of the basis states, weighted with their probabilities.  Full statement and what is missing:
see `C82_matrix_partial`. -/
theorem C82_expectation_partial {p : QP} {op : QubitOp} {offset : ℚ} (h : p.toIsing = .ok (op, offset))
    (hne : p.objective.linear.coeffs ≠ [] ∨ p.objective.quadratic.coeffs ≠ []) {psi : Fin (2 ^ op.numQubits) → ℂ}
    (hpsi : ∑ i, Complex.normSq (psi i) = 1) :
    expectation op.matrix psi + offset =
      ∑ i : Fin (2 ^ op.numQubits),
        ((p.objective.sense.value * p.objective.val (digitPt i) : ℚ) : ℂ) * (Complex.normSq (psi i) : ℂ) := by
  have h1 : ∑ i, (Complex.normSq (psi i) : ℂ) = 1 := by exact_mod_cast hpsi
  rw [C82_matrix_partial h hne, expectation_diagonal]
  have : ∀ i : Fin (2 ^ op.numQubits), ((p.objective.sense.value * p.objective.val (digitPt i) - offset : ℚ) : ℂ) *
      (Complex.normSq (psi i) : ℂ) = ((p.objective.sense.value * p.objective.val (digitPt i) : ℚ) : ℂ) *
        (Complex.normSq (psi i) : ℂ) - offset * (Complex.normSq (psi i) : ℂ) := fun i => by push_cast; ring
  rw [Finset.sum_congr rfl fun i _ => this i, Finset.sum_sub_distrib, ← Finset.mul_sum, h1]
  ring

/-! ## Samples -/

theorem normSq_amplitudes (m : Nat) (v : List (ℚ × ℚ)) (i : Fin m) :
    Complex.normSq (amplitudes m v i) = ((ampProb (v.getD i (0, 0)) : ℚ) : ℝ) := by
  simp [Complex.normSq_apply, amplitudes, ampProb, pow_two]

theorem sum_zipIdx {α : Type} (v : List α) (a : α) (f : α → Nat → ℚ) (k : Nat) :
    ((v.zipIdx k).map fun q => f q.1 q.2).sum = ∑ i ∈ range v.length, f (v.getD i a) (k + i) := by
  induction v generalizing k with
  | nil => simp
  | cons b v ih =>
    rw [List.zipIdx_cons, List.map_cons, List.sum_cons, ih, List.length_cons, Finset.sum_range_succ', add_comm]
    congr 1
    exact Finset.sum_congr rfl fun i _ => by
      rw [List.getD_cons_succ, show k + 1 + i = k + (i + 1) by omega]

theorem sum_filter_map {α : Type} (l : List α) (f : α → ℚ) (c : α → Bool) :
    ((l.filter c).map f).sum = (l.map fun a => if c a then f a else 0).sum := by
  induction l with
  | nil => rfl
  | cons a l ih =>
    rw [List.filter_cons]
    split
    · rw [List.map_cons, List.sum_cons, ih, List.map_cons, List.sum_cons, if_pos ‹_›]
    · rw [ih, List.map_cons, List.sum_cons, if_neg ‹_›, zero_add]

/-- The mean of the samples of a state vector: the basis states above the threshold. -/
theorem samples_mean {q : QP} {n : Nat} (hn : 0 < n) (h1 : q.objective.linear.n = n) (h2 : q.objective.quadratic.n = n)
    {thr : ℚ} {v : List (ℚ × ℚ)} (hv : v.length = 2 ^ n) {raw : List Sample}
    (hr : eigenToSolutions (.vector v) q thr = .ok raw) :
    (raw.map fun s => s.probability * s.fval).sum = ∑ i ∈ range (2 ^ n),
      if thr ≤ ampProb (v.getD i (0, 0)) then ampProb (v.getD i (0, 0)) * q.objective.val (digitPt i) else 0 := by
  have hne : v ≠ [] := by
    rintro rfl
    have := Nat.two_pow_pos n
    simp only [List.length_nil] at hv
    omega
  have hlog : Nat.log2 v.length = n := by rw [hv, Nat.log2_two_pow]
  simp only [eigenToSolutions, if_neg hne, hlog, decodeVector_ok hn h1 h2 v 0 (by omega), Except.ok.injEq] at hr
  rw [← hr, List.map_map, sum_filter_map]
  have := sum_zipIdx v (0, 0) (fun a i => if decide (thr ≤ ampProb a) = true then
    ampProb a * q.objective.val (pt (bitsOf n i)) else 0) 0
  refine Eq.trans ?_ (this.trans ?_)
  · rfl
  · rw [hv]
    refine Finset.sum_congr rfl fun i hi => ?_
    rw [Nat.zero_add, pt_digits (Finset.mem_range.mp hi)]
    simp only [decide_eq_true_eq]

theorem interpretResult_raw {p : QP} {convs : List Interp} {samples raw : List Sample} {x : List ℚ} {r : Result}
    (h : interpretResult p convs samples raw x = .ok r) : r.rawSamples = raw := by
  unfold interpretResult at h
  cases h0 : interpretAll convs x with
  | error e => simp [h0] at h
  | ok y =>
    cases h1 : p.objective.evaluate y with
    | error e => simp [h0, h1] at h
    | ok fval =>
      cases h2 : feasibilityStatus p y with
      | error e => simp [h0, h1, h2] at h
      | ok st =>
        simp only [h0, h1, h2, Result.mk?] at h
        split at h
        · simp at h
        · simp only [Except.ok.injEq] at h
          rw [← h]

theorem solveInternal_raw {solver : QubitOp → Option Eigenstate} {op : QubitOp} {q p : QP} {fs : List Interp} {r : Result}
    {e : Eigenstate} (he : solver op = some e) (h : solveInternal solver op q p fs = .ok r) :
    0 < op.numQubits ∧ ∃ raw, eigenToSolutions e q (1 / 10 ^ 6) = .ok raw ∧ r.rawSamples.Perm raw := by
  unfold solveInternal at h
  by_cases hn : op.numQubits = 0
  · simp [hn] at h
  · rw [if_neg hn, he] at h
    refine ⟨by omega, ?_⟩
    cases h1 : eigenToSolutions e q (1 / 10 ^ 6) with
    | error e => simp only [h1] at h; cases h
    | ok raw =>
      simp only [h1] at h
      refine ⟨raw, rfl, ?_⟩
      have hp := sortedBy_perm (fun a b : Sample =>
        decide (q.objective.sense.value * a.fval ≤ q.objective.sense.value * b.fval)) raw
      generalize sortedBy (fun a b : Sample =>
        decide (q.objective.sense.value * a.fval ≤ q.objective.sense.value * b.fval)) raw = srt at h hp
      cases srt with
      | nil => simp at h
      | cons s l =>
        cases h2 : interpretSamples p (s :: l) fs with
        | error e => simp [h2] at h
        | ok samples =>
          simp only [h2] at h
          rw [interpretResult_raw h]
          exact hp

theorem solve_raw {solver : QubitOp → Option Eigenstate} {penalty : Option ℚ} {p : QP} {st : QuboState}
    (h : p.toQubo penalty = .ok st) {op : QubitOp} {offset : ℚ} (hop : st.dst.toIsing = .ok (op, offset))
    {e : Eigenstate} (he : solver op = some e) {r : Result} (hr : minEigenSolve solver [quboConverter penalty] p = .ok r) :
    0 < op.numQubits ∧ ∃ raw, eigenToSolutions e st.dst (1 / 10 ^ 6) = .ok raw ∧ r.rawSamples.Perm raw := by
  have hmsg : ¬ (quboMsg p).length > 0 := by
    intro hlen
    simp [QP.toQubo, hlen] at h
  have hsolve : minEigenSolve solver [quboConverter penalty] p = solveInternal solver op st.dst p [st.interpret] := by
    simp only [minEigenSolve, hmsg, if_false, convertAll, quboConverter, h, hop]
  rw [hsolve] at hr
  exact solveInternal_raw he hr

theorem expectation_list {p : QP} {op : QubitOp} {offset : ℚ} (h : p.toIsing = .ok (op, offset))
    (hne : p.objective.linear.coeffs ≠ [] ∨ p.objective.quadratic.coeffs ≠ []) {v : List (ℚ × ℚ)}
    (hv : v.length = 2 ^ op.numQubits) (hnorm : (v.map ampProb).sum = 1) :
    expectation op.matrix (amplitudes _ v) + offset = ((∑ i ∈ range (2 ^ op.numQubits),
      p.objective.sense.value * (ampProb (v.getD i (0, 0)) * p.objective.val (digitPt i)) : ℚ) : ℂ) := by
  rw [C82_expectation_partial h hne, Finset.sum_range, Rat.cast_sum]
  · refine Finset.sum_congr rfl fun i _ => ?_
    rw [normSq_amplitudes]
    push_cast
    ring
  · simp only [normSq_amplitudes]
    rw [← Rat.cast_sum, ← Finset.sum_range fun i => ampProb (v.getD i (0, 0)), ← hv]
    have := sum_zipIdx v (0, 0) (fun a _ => ampProb a) 0
    rw [← this, ← Rat.cast_one, ← hnorm]
    congr 2
    calc _ = (v.zipIdx.map Prod.fst).map ampProb := by rw [List.map_map]; rfl
      _ = _ := by rw [List.zipIdx_map_fst]

/-- **C82** (samples), partial: the mean of the raw samples of `MinimumEigenOptimizer` is the expectation value of the
operator in the state that the eigensolver returns, plus the offset, up to sign and to 1e-6 times the sum of the absolute
values of all objective values; and exactly if no basis state has a positive probability below 1e-6.  Full statement:
equality for all states.  Missing: states with positive probabilities below 1e-6 (`C82_violated`), and constant objectives
(`C09_violated`). -/
theorem C82_mean_partial {p : QP} (hs : p.WF) {penalty : Option ℚ} {st : QuboState} (h : p.toQubo penalty = .ok st)
    {op : QubitOp} {offset : ℚ} (hop : st.dst.toIsing = .ok (op, offset))
    (hne : st.dst.objective.linear.coeffs ≠ [] ∨ st.dst.objective.quadratic.coeffs ≠ [])
    {solver : QubitOp → Option Eigenstate} {v : List (ℚ × ℚ)} (he : solver op = some (.vector v))
    (hv : v.length = 2 ^ op.numQubits) (hnorm : (v.map ampProb).sum = 1) {r : Result}
    (hr : minEigenSolve solver [quboConverter penalty] p = .ok r) :
    ‖(expectation op.matrix (amplitudes _ v) + offset) -
        ((st.dst.objective.sense.value * (r.rawSamples.map fun s => s.probability * s.fval).sum : ℚ) : ℂ)‖ ≤
      ((1 / 10 ^ 6 * ∑ i ∈ range (2 ^ op.numQubits), |st.dst.objective.val (digitPt i)| : ℚ) : ℝ) ∧
    ((∀ a ∈ v, 0 < ampProb a → 1 / 10 ^ 6 ≤ ampProb a) →
      expectation op.matrix (amplitudes _ v) + offset =
        ((st.dst.objective.sense.value * (r.rawSamples.map fun s => s.probability * s.fval).sum : ℚ) : ℂ)) := by
  obtain ⟨_, _, h1, h2, h3⟩ := toQubo_stages h
  have hf1 := ineqToEq_facts hs h1
  have hf2 := intToBin_facts hf1.starts.wf h2
  have hf3 := toPenalty_facts hf2.wf h3
  obtain ⟨hn0, raw, hraw, hperm⟩ := solve_raw h hop he hr
  obtain ⟨hnq, _⟩ := toIsing_diag hop
  have hmean : (r.rawSamples.map fun s => s.probability * s.fval).sum = _ := ((hperm.map _).sum_eq).trans
    (samples_mean hn0 (hf3.shape.2.1.trans hnq.symm) (hf3.shape.2.2.trans hnq.symm) hv hraw)
  rw [expectation_list hop hne hv hnorm, hmean, Finset.mul_sum]
  have hpos : ∀ a : ℚ × ℚ, 0 ≤ ampProb a := fun a => by unfold ampProb; positivity
  constructor
  · rw [← Rat.cast_sub, ← Finset.sum_sub_distrib]
    rw [Complex.norm_ratCast]
    have hsv : |st.dst.objective.sense.value| = 1 := by cases st.dst.objective.sense <;> simp [ObjSense.value]
    have key : |∑ i ∈ range (2 ^ op.numQubits), (st.dst.objective.sense.value *
        (ampProb (v.getD i (0, 0)) * st.dst.objective.val (digitPt i)) - st.dst.objective.sense.value *
          if 1 / 10 ^ 6 ≤ ampProb (v.getD i (0, 0)) then
            ampProb (v.getD i (0, 0)) * st.dst.objective.val (digitPt i) else 0)| ≤
        1 / 10 ^ 6 * ∑ i ∈ range (2 ^ op.numQubits), |st.dst.objective.val (digitPt i)| := by
      rw [Finset.mul_sum]
      refine (Finset.abs_sum_le_sum_abs _ _).trans (Finset.sum_le_sum fun i _ => ?_)
      split
      · rw [sub_self, abs_zero]
        positivity
      · rename_i h6
        rw [mul_zero, sub_zero, abs_mul, hsv, one_mul, abs_mul, abs_of_nonneg (hpos _)]
        exact mul_le_mul_of_nonneg_right (not_le.mp h6).le (abs_nonneg _)
    exact_mod_cast key
  · intro hall
    congr 1
    refine Finset.sum_congr rfl fun i hi => ?_
    by_cases h6 : 1 / 10 ^ 6 ≤ ampProb (v.getD i (0, 0))
    · rw [if_pos h6]
    · rw [if_neg h6]
      have hi' : i < v.length := by rw [hv]; exact Finset.mem_range.mp hi
      have hm : v.getD i (0, 0) ∈ v := by
        rw [List.getD_eq_getElem?_getD, List.getElem?_eq_getElem hi', Option.getD_some]
        exact List.getElem_mem hi'
      have : ampProb (v.getD i (0, 0)) = 0 := by
        by_contra h0
        exact h6 (hall _ hm (lt_of_le_of_ne (hpos _) (Ne.symm h0)))
      rw [this]
      ring

/-! ## The optimizer with eigenvectors of the matrix -/

theorem exists_likely {v : List (ℚ × ℚ)} {n : Nat} (hv : v.length = 2 ^ n) (hn : n ≤ 19) (hnorm : (v.map ampProb).sum = 1) :
    ∃ (i : Nat) (a : ℚ × ℚ), v[i]? = some a ∧ 1 / 10 ^ 6 ≤ ampProb a := by
  by_contra hcon
  push Not at hcon
  have hle : (v.map ampProb).sum ≤ (v.map fun _ => (1 / 10 ^ 6 : ℚ)).sum := by
    refine List.sum_le_sum fun a ha => ?_
    obtain ⟨i, hi⟩ := List.mem_iff_getElem?.mp ha
    exact (hcon i a hi).le
  rw [hnorm, List.map_const', List.sum_replicate, hv, nsmul_eq_mul] at hle
  have h19 : ((2 ^ n : Nat) : ℚ) ≤ 2 ^ 19 := by
    exact_mod_cast Nat.pow_le_pow_right (by norm_num) hn
  nlinarith

theorem least_ground {p : QP} (hw : p.WF) {op : QubitOp} {offset : ℚ} (h : p.toIsing = .ok (op, offset)) {v : List (ℚ × ℚ)}
    (hv : v.length = 2 ^ op.numQubits) {lam : ℝ} (hl : LeastEigen op.matrix lam (amplitudes _ v)) :
    (Eigenstate.vector v).Ground p.numVars op := by
  obtain ⟨hn, c, hen⟩ := toIsing_shift h
  have hopt := ((C82_ground hw h _).mp ⟨lam, hl⟩).2
  refine ⟨by rw [Eigenstate.IsState, hv, hn], ?_⟩
  rintro x pr ⟨i, a, ha, hxl, hx, rfl⟩ hpos b hb
  have hi : i < 2 ^ op.numQubits := by rw [← hv]; exact (List.getElem?_eq_some_iff.mp ha).1
  have hxd : pt x = digitPt i := by
    funext j
    by_cases hj : j < p.numVars
    · exact hx j hj
    · rw [digitPt_zero (hn ▸ hi) (by omega)]
      simp [pt, List.getD_eq_getElem?_getD, List.getElem?_eq_none (show x.length ≤ j by omega)]
  have hne : amplitudes (2 ^ op.numQubits) v ⟨i, hi⟩ ≠ 0 := by
    intro h0
    have := normSq_amplitudes (2 ^ op.numQubits) v ⟨i, hi⟩
    rw [h0, map_zero] at this
    have h1 : ampProb (v.getD i (0, 0)) = 0 := by exact_mod_cast this.symm
    rw [List.getD_eq_getElem?_getD, ha, Option.getD_some] at h1
    unfold ampProb at h1
    linarith
  have := hopt ⟨i, hi⟩ hne b hb
  rw [hxd, hen _ (digitPt_isBits _ i), hen b hb]
  linarith

/-- **C82** (optimizer), partial: if the eigensolver returns a normalized eigenvector to the smallest eigenvalue of the
matrix of the operator, `MinimumEigenOptimizer.solve` returns an optimal point.  Full statement: for all compatible and
feasible programs.  Missing: the cases of C28 where the QUBO is not exact, and QUBOs with twenty or more variables, where
every basis state of an eigenvector can be below the threshold (`C28_violated`, `C28_violated_threshold`). -/
theorem C82_optimum_partial (p : QP) (hs : p.WF) (hsh : p.ShapeOK) (hb : p.BinBoundsOK)
    (hi : ∀ v ∈ p.vars, v.vartype = .integer → (∃ z : Int, v.lb = z) ∧ ∃ z : Int, v.ub = z)
    (hp : ProductsOK p p.objective.quadratic) (st : QuboState) (h : p.toQubo none = .ok st)
    (hn : 0 < st.dst.numVars) (hn19 : st.dst.numVars ≤ 19) (hfeas : ∃ x, p.Feas x) (solver : QubitOp → Option Eigenstate)
    (hsol : ∀ op offset, st.dst.toIsing = .ok (op, offset) → ∃ v lam, solver op = some (.vector v) ∧
      v.length = 2 ^ op.numQubits ∧ (v.map ampProb).sum = 1 ∧ LeastEigen op.matrix lam (amplitudes _ v)) :
    ∃ r y, minEigenSolve solver [quboConverter none] p = .ok r ∧ r.x = some y ∧ y.length = p.numVars ∧
      OptimalIn p.Feas p.objective (pt y) ∧ r.fval = some (p.objective.val (pt y)) ∧ r.status = .success := by
  obtain ⟨_, _, h1, h2, h3⟩ := toQubo_stages h
  have hf1 := ineqToEq_facts hs h1
  have hf2 := intToBin_facts hf1.starts.wf h2
  have hf3 := toPenalty_facts hf2.wf h3
  refine C28_optimum_partial p hs hsh hb hi hp st h hn hfeas solver fun op offset hop => ?_
  obtain ⟨v, lam, hv, hl, hnorm, hleast⟩ := hsol op offset hop
  obtain ⟨hnq, _⟩ := toIsing_diag hop
  refine ⟨_, hv, least_ground hf3.wf hop hl hleast, ?_⟩
  obtain ⟨i, a, ha, h6⟩ := exists_likely (hl.trans (by rw [hnq])) hn19 hnorm
  exact ⟨bitsOf st.dst.numVars i, _, ⟨i, a, ha, bitsOf_length _ _, fun j hj => pt_bitsOf hj, rfl⟩, h6⟩

/-! ## Concrete cases -/

/-- The conversion of `twoBitQP` (minimize `b0` with two binary variables). -/
def twoBitState : QuboState :=
  match twoBitQP.toQubo none with
  | .ok st => st
  | .error _ => ⟨QP.empty "", QP.empty "", ⟨QP.empty "", QP.empty "", []⟩, QP.empty "", 0⟩

/-- Its operator: `-Z_0 / 2`. -/
def twoBitOp : QubitOp := ⟨2, [(([true, false], [false, false]), -1 / 2)]⟩

/-- An eigensolver that returns a state vector. -/
def vectorSolver (v : List (ℚ × ℚ)) : QubitOp → Option Eigenstate := fun _ => some (.vector v)

/-- A normalized state in which `b0 = 1` has the probability `(8000 / 16000001)²`, about 2.5e-7. -/
def rareState : List (ℚ × ℚ) := [(15999999 / 16000001, 0), (8000 / 16000001, 0), (0, 0), (0, 0)]

/-- The result with this state. -/
def rareResult : Result :=
  match minEigenSolve (vectorSolver rareState) [quboConverter none] twoBitQP with
  | .ok r => r
  | .error _ => ⟨none, none, [], none, .failure, [], []⟩

/-- **C82 fails** for samples below the threshold: for `minimize b0` and a state that contains `b0 = 1` with a probability of
about 2.5e-7 the mean of the raw samples is 0, but the expectation value plus the offset is that probability. -/
theorem C82_violated : twoBitQP.WF ∧ twoBitQP.toQubo none = .ok twoBitState ∧
    twoBitState.dst.toIsing = .ok (twoBitOp, 1 / 2) ∧ rareState.length = 2 ^ twoBitOp.numQubits ∧
    (rareState.map ampProb).sum = 1 ∧
    minEigenSolve (vectorSolver rareState) [quboConverter none] twoBitQP = .ok rareResult ∧
    (rareResult.rawSamples.map fun s => s.probability * s.fval).sum = 0 ∧
    expectation twoBitOp.matrix (amplitudes _ rareState) + ((1 / 2 : ℚ) : ℂ) = (((8000 / 16000001) ^ 2 : ℚ) : ℂ) := by
  have hop : twoBitState.dst.toIsing = .ok (twoBitOp, 1 / 2) := by decide +kernel
  refine ⟨by decide +kernel, by decide +kernel, hop, rfl, by decide +kernel, by decide +kernel, by decide +kernel, ?_⟩
  rw [expectation_list hop (by decide +kernel) rfl (by decide +kernel)]
  congr 1
  decide +kernel

/-- The superpositions of (0,0) and (0,1) are the eigenvectors to the smallest eigenvalue: the hypotheses of
`C82_optimum_partial` and `C82_mean_partial`. -/
example : ∃ lam, LeastEigen twoBitOp.matrix lam (amplitudes _ [(3 / 5, 0), (0, 0), (0, 4 / 5), (0, 0)]) := by
  have hop : twoBitState.dst.toIsing = .ok (twoBitOp, 1 / 2) := by decide +kernel
  have hw : twoBitState.dst.WF := by decide +kernel
  have ho : twoBitState.dst.objective = ⟨0, ⟨2, [(0, 1)]⟩, ⟨2, []⟩, .minimize⟩ := by decide +kernel
  rw [C82_ground hw hop]
  constructor
  · intro h0
    have := congrArg Complex.re (congrFun h0 ⟨0, by norm_num [twoBitOp]⟩)
    norm_num [amplitudes] at this
  · intro i hi b hb
    have h0 : digitPt i 0 = 0 := by
      obtain ⟨i, hlt⟩ := i
      have hlt' : i < 4 := hlt
      interval_cases i
      · norm_num [digitPt]
      · exfalso
        apply hi
        apply Complex.ext <;> simp [amplitudes]
      · norm_num [digitPt]
      · exfalso
        apply hi
        apply Complex.ext <;> simp [amplitudes]
    rw [ho]
    simp only [Objective.val, LinExpr.val, QuadExpr.val, Dict.sum, ObjSense.value, List.map_cons, List.map_nil,
      List.sum_cons, List.sum_nil, h0]
    rcases hb 0 (by decide +kernel) with h | h <;> rw [h] <;> norm_num

example : twoBitQP.ShapeOK ∧ ProductsOK twoBitQP twoBitQP.objective.quadratic ∧ 0 < twoBitState.dst.numVars ∧
    twoBitState.dst.numVars ≤ 19 ∧
    (minEigenSolve (vectorSolver [(3 / 5, 0), (0, 0), (0, 4 / 5), (0, 0)]) [quboConverter none] twoBitQP).toOption.map
      (fun r => (r.x, r.rawSamples)) =
      some (some [0, 0], [⟨[0, 0], 0, 9 / 25, .success⟩, ⟨[0, 1], 0, 16 / 25, .success⟩]) := by
  refine ⟨by decide +kernel, fun k hk => absurd hk (by
    rw [show twoBitQP.objective.quadratic.coeffs = [] by decide +kernel]; simp [Assoc.keys]), by decide +kernel, by decide +kernel, by decide +kernel⟩

end Verif

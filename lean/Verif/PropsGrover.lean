import Verif.GroverLemmas
import Verif.PropsResult
import Mathlib.Data.Rat.Sqrt

/-!
# C33, C34, C57, C58: the Grover optimizer
-/

namespace Verif

/-! ## C34 -/

/-- **C34** (sign flip): the objective used in the search is the objective of the converted problem at every point,
negated for maximization, and is to be minimised. -/
theorem C34_sign (o : Objective) (h1 : o.linear.WF) (h2 : o.quadratic.WF) (x : Nat → ℚ) :
    (groverObjective o).val x = (if o.sense = .maximize then -o.val x else o.val x) ∧
      (groverObjective o).sense = .minimize := by
  refine ⟨?_, groverObjective_sense o⟩
  rw [groverObjective_val h1 h2]
  cases o.sense <;> simp [ObjSense.value]

/-- **C34** (decoding): reading a two's complement register of `n` bits inverts the encoding for all integers in
`[-2^(n-1), 2^(n-1))`. -/
theorem C34_decode (n : Nat) (hn : 0 < n) (z : Int) (h1 : -2 ^ (n - 1) ≤ z) (h2 : z < 2 ^ (n - 1)) :
    binToInt (twosComplement n z) n = .ok z := binToInt_twos hn h1 h2

/-- **C34** (key register): the key read from the outcome and written into the point is the key measured. -/
theorem C34_key (n k : Nat) (hn : 0 < n) (hk : k < 2 ^ n) :
    intBase2 (bitString n k) = .ok k ∧ keyToPoint n k = keyPt n k :=
  ⟨intBase2_bitString hn hk, keyToPoint_eq hn hk⟩

example : binToInt (twosComplement 5 (-13)) 5 = .ok (-13) ∧ twosComplement 5 (-13) = "10011".toList ∧
    keyPt 3 6 = [1, 1, 0] := by decide +kernel

/-! ## C33 -/

/-- The measurements: the key measured in iteration `i` is `key i`; whenever the objective prepared in the circuit has
the integral value `z` there and `z` fits into the register, the outcome begins with the key followed by the two's complement of
`z` (a state vector also has the oracle qubit). -/
structure Faithful (nKey nValue : Nat) (key : Nat → Nat) (measure : Nat → Objective → Outcome) : Prop where
  key_lt : ∀ i, key i < 2 ^ nKey
  bits : ∀ (i : Nat) (o : Objective) (z : Int), o.val (pt (keyPt nKey (key i))) = z →
    -2 ^ (nValue - 1) ≤ z → z < 2 ^ (nValue - 1) →
    (measure i o).bits.take (nKey + nValue) = bitString nKey (key i) ++ twosComplement nValue z

/-- All values, and all differences of values, of the objective at the measured keys are integers that fit into the
register. -/
structure FitsRegister (nKey nValue : Nat) (key : Nat → Nat) (o : Objective) : Prop where
  val : ∀ i, ∃ z : Int, o.val (pt (keyPt nKey (key i))) = z ∧ -2 ^ (nValue - 1) ≤ z ∧ z < 2 ^ (nValue - 1)
  diff : ∀ i j, ∃ z : Int, o.val (pt (keyPt nKey (key i))) - o.val (pt (keyPt nKey (key j))) = z ∧
    -2 ^ (nValue - 1) ≤ z ∧ z < 2 ^ (nValue - 1)

/-- The invariant of the search. -/
structure GroverInv (nKey : Nat) (key : Nat → Nat) (o : Objective) (s : GroverState) : Prop where
  start : s.optValue = none → s.threshold = 0 ∧ s.iteration = 0
  best : ∀ v, s.optValue = some v → s.threshold = v ∧
    (∃ i < s.iteration, s.optKey = key i ∧ v = o.val (pt (keyPt nKey (key i)))) ∧
    ∀ i < s.iteration, v ≤ o.val (pt (keyPt nKey (key i)))

theorem outcome_read {nKey nValue : Nat} (hk : 0 < nKey) (hv : 0 < nValue) {key : Nat → Nat}
    {measure : Nat → Objective → Outcome} (hm : Faithful nKey nValue key measure) {o : Objective}
    (hf : FitsRegister nKey nValue key o) {s : GroverState} (hi : GroverInv nKey key o s) :
    ∃ z : Int, intBase2 ((measure s.iteration { o with constant := o.constant - s.threshold }).bits.take nKey) =
        .ok (key s.iteration) ∧
      binToInt (((measure s.iteration { o with constant := o.constant - s.threshold }).bits.drop nKey).take nValue)
        nValue = .ok z ∧ (z : ℚ) + s.threshold = o.val (pt (keyPt nKey (key s.iteration))) := by
  obtain ⟨z, hz, h1, h2⟩ : ∃ z : Int, o.val (pt (keyPt nKey (key s.iteration))) - s.threshold = z ∧
      -2 ^ (nValue - 1) ≤ z ∧ z < 2 ^ (nValue - 1) := by
    cases hopt : s.optValue with
    | none =>
      rw [(hi.start hopt).1, sub_zero]
      exact hf.val _
    | some v =>
      obtain ⟨h1, ⟨i, _, _, h2⟩, _⟩ := hi.best v hopt
      rw [h1, h2]
      exact hf.diff _ _
  have hval : ({ o with constant := o.constant - s.threshold } : Objective).val
      (pt (keyPt nKey (key s.iteration))) = z := by
    rw [← hz]; simp only [Objective.val]; ring
  have hb := hm.bits s.iteration _ z hval h1 h2
  refine ⟨z, ?_, ?_, by rw [← hz]; ring⟩
  · rw [← Nat.min_eq_left (Nat.le_add_right nKey nValue), ← List.take_take, hb,
      List.take_left' (bitString_length _ _)]
    exact intBase2_bitString hk (hm.key_lt _)
  · have h := List.drop_take (i := nKey) (j := nKey + nValue)
      (l := (measure s.iteration { o with constant := o.constant - s.threshold }).bits)
    rw [Nat.add_sub_cancel_left] at h
    rw [← h, hb, List.drop_left' (bitString_length _ _)]
    exact binToInt_twos hv h1 h2

theorem groverLoop_inv {measure : Nat → Objective → Outcome} {rot : Nat → Nat} {sqrt : ℚ → ℚ} {o : Objective}
    {p : ℚ → QP} {q : QP} {convs : List Interp} {nKey nValue nIt maxRot : Nat} (hk : 0 < nKey) (hv : 0 < nValue)
    {key : Nat → Nat} (hm : Faithful nKey nValue key measure) (hf : FitsRegister nKey nValue key o) {fuel : Nat}
    {s r : GroverState} (hi : GroverInv nKey key o s)
    (h : groverLoop measure rot sqrt o p q convs nKey nValue nIt maxRot fuel s = some (.ok r)) :
    GroverInv nKey key o r ∧ 0 < r.iteration ∧ r.optValue ≠ none := by
  induction fuel generalizing s with
  | zero => simp [groverLoop] at h
  | succ fuel ih =>
    obtain ⟨z, h1, h2, h3⟩ := outcome_read hk hv hm hf hi
    simp only [groverLoop, h1, h2, h3] at h
    by_cases himp : improves (o.val (pt (keyPt nKey (key s.iteration)))) s.optValue = true
    · rw [if_pos himp] at h
      split at h
      · simp at h
      · split at h
        · simp at h
        · refine ih ⟨by simp, ?_⟩ h
          intro v hv
          simp only [Option.some.injEq] at hv
          subst hv
          refine ⟨rfl, ⟨s.iteration, by simp, rfl, rfl⟩, ?_⟩
          intro i hi'
          simp only at hi'
          rcases Nat.lt_succ_iff_lt_or_eq.mp hi' with hlt | rfl
          · cases hopt : s.optValue with
            | none => rw [(hi.start hopt).2] at hlt; omega
            | some w =>
              rw [hopt] at himp
              simp only [improves, decide_eq_true_eq] at himp
              exact himp.le.trans ((hi.best w hopt).2.2 i hlt)
          · exact le_refl _
    · rw [if_neg himp] at h
      cases hopt : s.optValue with
      | none => simp [hopt, improves] at himp
      | some w =>
        rw [hopt] at himp
        simp only [improves, decide_eq_true_eq, not_lt] at himp
        have hb := hi.best w hopt
        have hnew : ∀ (keys : List Nat) (rots loops : Nat), GroverInv nKey key o
            { s with keysMeasured := keys, rotations := rots, iteration := s.iteration + 1, loops := loops } := by
          intro keys rots loops
          refine ⟨by simp [hopt], ?_⟩
          intro v hv
          simp only [hopt, Option.some.injEq] at hv
          subst hv
          obtain ⟨a, ⟨i, hi1, hi2, hi3⟩, c⟩ := hb
          refine ⟨a, ⟨i, Nat.lt_succ_of_lt hi1, hi2, hi3⟩, ?_⟩
          intro j hj
          simp only at hj
          rcases Nat.lt_succ_iff_lt_or_eq.mp hj with hlt | rfl
          · exact c j hlt
          · exact himp
        generalize (if key s.iteration ∈ s.keysMeasured then s.keysMeasured else s.keysMeasured ++ [key s.iteration]) = keys at h
        split at h
        · simp only [Option.some.injEq, Except.ok.injEq] at h
          subst h
          exact ⟨hnew _ _ _, by simp, by simp [hopt]⟩
        · exact ih (hnew _ _ _) h

theorem groverInit_inv (nKey : Nat) (key : Nat → Nat) (o : Objective) : GroverInv nKey key o groverInit :=
  ⟨fun _ => ⟨rfl, rfl⟩, by simp [groverInit]⟩

/-- **C33**: for every sequence of faithful measurements whose values fit into the register, the point found is at
least as good as every point measured during the run, `fval` is its objective value, the result is its interpretation,
and the final threshold is the best value measured.  The point is one of those measured, or the zero point. -/
theorem C33_best (measure : Nat → Objective → Outcome) (rot : Nat → Nat) (sqrt : ℚ → ℚ) (converters : List Converter)
    (nValue nIt : Nat) (p qubo : QP) (convs : List Interp) (fuel : Nat) (key : Nat → Nat) (r : GroverResult)
    (hc : convertAll converters p = .ok (qubo, convs)) (h1 : qubo.objective.linear.WF)
    (h2 : qubo.objective.quadratic.WF) (hn : 0 < qubo.objective.linear.n) (hv : 0 < nValue)
    (hm : Faithful qubo.objective.linear.n nValue key measure)
    (hf : FitsRegister qubo.objective.linear.n nValue key (groverObjective qubo.objective))
    (h : groverSolve measure rot sqrt converters nValue nIt p fuel = some (.ok r)) :
    0 < r.iterations ∧ r.fval = qubo.objective.val (pt r.optX) ∧ r.result.x.isSome ∧
      (∀ y, r.result.x = some y ↔ Interprets convs r.optX y) ∧
      (∀ i < r.iterations, qubo.objective.sense.value * r.fval ≤
        qubo.objective.sense.value * qubo.objective.val (pt (keyPt qubo.objective.linear.n (key i)))) ∧
      ((∃ i < r.iterations, r.optX = keyPt qubo.objective.linear.n (key i)) ∨
        r.optX = List.replicate qubo.objective.linear.n 0) ∧
      (∃ i < r.iterations, r.threshold =
        qubo.objective.sense.value * qubo.objective.val (pt (keyPt qubo.objective.linear.n (key i)))) ∧
      ∀ i < r.iterations, r.threshold ≤
        qubo.objective.sense.value * qubo.objective.val (pt (keyPt qubo.objective.linear.n (key i))) := by
  simp only [interprets_iff]
  unfold groverSolve at h
  split at h
  · simp at h
  · simp only [hc, groverObjective_n] at h
    cases hl : groverLoop measure rot sqrt (groverObjective qubo.objective)
        (callersGrover converters (groverObjective qubo.objective) p) qubo convs qubo.objective.linear.n nValue
        nIt groverMaxRotations fuel groverInit with
    | none => simp [hl] at h
    | some e =>
      cases e with
      | error e => simp [hl] at h
      | ok s =>
        simp only [hl, Option.some.injEq] at h
        obtain ⟨hinv, hpos, hsome⟩ := groverLoop_inv hn hv hm hf (groverInit_inv _ _ _) hl
        obtain ⟨v, hopt⟩ := Option.ne_none_iff_exists'.mp hsome
        obtain ⟨hthr, ⟨i0, hi0, hkey, hval⟩, hbest⟩ := hinv.best v hopt
        simp only [groverObjective_val h1 h2] at hval hbest
        unfold groverFinish at h
        simp only [hopt] at h
        generalize hkk : (if (decide (0 ≤ v) = true ∧ (groverObjective qubo.objective).constant = 0) then 0
          else s.optKey) = k at h
        have hklt : k < 2 ^ qubo.objective.linear.n := by
          rw [← hkk]; split
          · positivity
          · rw [hkey]; exact hm.key_lt i0
        rw [keyToPoint_eq hn hklt] at h
        generalize hx : keyPt qubo.objective.linear.n k = x at h
        cases he : qubo.objective.evaluate x with
        | error e => simp [he] at h
        | ok fv =>
          cases hr : interpretResult (callersGrover converters (groverObjective qubo.objective) p s.threshold) convs s.samples s.raw x with
          | error e => simp [he, hr] at h
          | ok res =>
            simp only [he, hr, Except.ok.injEq] at h
            subst h
            have hfv := (Objective.evaluate_inv he).2.2
            have hle : qubo.objective.sense.value * qubo.objective.val (pt x) ≤ v := by
              by_cases hz : decide (0 ≤ v) = true ∧ (groverObjective qubo.objective).constant = 0
              · rw [if_pos hz] at hkk
                subst hkk
                rw [keyPt_zero] at hx
                have hzero : qubo.objective.val (pt x) = qubo.objective.constant := by
                  have hp : pt x = fun _ => 0 := by
                    funext j
                    rw [← hx]
                    by_cases hj : j < qubo.objective.linear.n <;>
                      simp [pt, List.getD_eq_getElem?_getD, List.getElem?_replicate, hj]
                  rw [hp]
                  simp [Objective.val, LinExpr.val, QuadExpr.val, Dict.sum]
                rw [hzero, ← groverObjective_constant, hz.2]
                simpa using hz.1
              · rw [if_neg hz] at hkk
                rw [← hx, ← hkk, hkey, ← hval]
            have hres : ∃ y, interpretAll convs x = .ok y ∧ res.x = some y := by
              clear hl
              generalize callersGrover converters (groverObjective qubo.objective) p s.threshold = p at hr
              unfold interpretResult at hr
              cases h0 : interpretAll convs x with
              | error e => simp [h0] at hr
              | ok y =>
                refine ⟨y, rfl, ?_⟩
                cases h3 : p.objective.evaluate y with
                | error e => simp [h0, h3] at hr
                | ok fval =>
                  cases h4 : feasibilityStatus p y with
                  | error e => simp [h0, h3, h4] at hr
                  | ok st =>
                    simp only [h0, h3, h4, Result.mk?] at hr
                    split at hr
                    · simp at hr
                    · cases hr; rfl
            obtain ⟨y, hy1, hy2⟩ := hres
            refine ⟨hpos, hfv, by simp [hy2], ?_, ?_, ?_, ⟨i0, hi0, hthr.trans hval⟩, ?_⟩
            · intro y'
              rw [hy1, hy2]; simp
            · intro i hi
              simp only [hfv]
              exact hle.trans (hbest i hi)
            · by_cases hz : decide (0 ≤ v) = true ∧ (groverObjective qubo.objective).constant = 0
              · rw [if_pos hz] at hkk
                right
                rw [← hx, ← hkk, keyPt_zero]
              · rw [if_neg hz] at hkk
                left
                exact ⟨i0, hi0, by rw [← hx, ← hkk, hkey]⟩
            · intro i hi
              simp only [hthr]
              exact hbest i hi

/-! ## C58 -/

theorem groverLoop_terminates {measure : Nat → Objective → Outcome} {rot : Nat → Nat} {sqrt : ℚ → ℚ} {o : Objective}
    {p : ℚ → QP} {q : QP} {convs : List Interp} {nKey nValue nIt maxRot : Nat} (hk : 0 < nKey) (hv : 0 < nValue)
    {key : Nat → Nat} (hm : Faithful nKey nValue key measure) (hf : FitsRegister nKey nValue key o) {fuel : Nat}
    {s : GroverState} (hi : GroverInv nKey key o s) (room : Nat)
    (hroom : match s.optValue with
      | none => 2 ^ nValue < room
      | some v => v + 2 ^ (nValue - 1) < room) (hlt : room * (nIt + 1) + (nIt - s.loops) < fuel) :
    groverLoop measure rot sqrt o p q convs nKey nValue nIt maxRot fuel s ≠ none := by
  induction fuel generalizing s room with
  | zero => omega
  | succ fuel ih =>
    obtain ⟨z, h1, h2, h3⟩ := outcome_read hk hv hm hf hi
    simp only [groverLoop, h1, h2, h3]
    obtain ⟨w, hw, hw1, hw2⟩ := hf.val s.iteration
    by_cases himp : improves (o.val (pt (keyPt nKey (key s.iteration)))) s.optValue = true
    · rw [if_pos himp]
      have hroom0 : 0 < room := by
        cases hopt : s.optValue with
        | none => rw [hopt] at hroom; simp only at hroom; exact Nat.zero_lt_of_lt hroom
        | some v =>
          rw [hopt] at hroom
          simp only at hroom
          obtain ⟨_, ⟨i, _, _, hvi⟩, _⟩ := hi.best v hopt
          obtain ⟨w', hw', hw1', _⟩ := hf.val i
          rw [hvi, hw'] at hroom
          have : (0 : ℚ) ≤ w' + 2 ^ (nValue - 1) := by
            have : (0 : Int) ≤ w' + 2 ^ (nValue - 1) := by linarith
            exact_mod_cast this
          have : (0 : ℚ) < room := by linarith
          exact_mod_cast this
      split
      · simp
      · split
        · simp
        · refine ih ⟨by simp, ?_⟩ (room - 1) ?_ ?_
          · intro v hv
            simp only [Option.some.injEq] at hv
            subst hv
            refine ⟨rfl, ⟨s.iteration, by simp, rfl, rfl⟩, ?_⟩
            intro i hi'
            simp only at hi'
            rcases Nat.lt_succ_iff_lt_or_eq.mp hi' with hlt | rfl
            · cases hopt : s.optValue with
              | none => rw [(hi.start hopt).2] at hlt; omega
              | some w =>
                rw [hopt] at himp
                simp only [improves, decide_eq_true_eq] at himp
                exact himp.le.trans ((hi.best w hopt).2.2 i hlt)
            · exact le_refl _
          · simp only
            rw [hw]
            have hcast : (((room - 1 : Nat) : Int) : ℚ) = ((room - 1 : Nat) : ℚ) := by simp
            suffices hs : w + 2 ^ (nValue - 1) < ((room - 1 : Nat) : Int) by
              rw [← hcast]; exact_mod_cast hs
            have hr1 : ((room - 1 : Nat) : Int) = room - 1 := by omega
            rw [hr1]
            cases hopt : s.optValue with
            | none =>
              rw [hopt] at hroom
              simp only at hroom
              have h4 : (2 : Int) ^ nValue < room := by exact_mod_cast hroom
              have h5 : (2 : Int) ^ nValue = 2 * 2 ^ (nValue - 1) := by
                obtain ⟨m, rfl⟩ : ∃ m, nValue = m + 1 := ⟨nValue - 1, by omega⟩
                simp [pow_succ, mul_comm]
              omega
            | some v =>
              rw [hopt] at hroom himp
              simp only [improves, decide_eq_true_eq] at himp hroom
              obtain ⟨_, ⟨i, _, _, hvi⟩, _⟩ := hi.best v hopt
              obtain ⟨w', hw', _, _⟩ := hf.val i
              rw [hvi, hw'] at hroom himp
              rw [hw] at himp
              have h6 : w < w' := by exact_mod_cast himp
              have h7 : w' + 2 ^ (nValue - 1) < (room : Int) := by
                have : ((w' + 2 ^ (nValue - 1) : Int) : ℚ) < ((room : Int) : ℚ) := by push_cast; exact hroom
                exact_mod_cast this
              omega
          · simp only
            obtain ⟨m, rfl⟩ : ∃ m, room = m + 1 := ⟨room - 1, by omega⟩
            simp only [Nat.add_sub_cancel, Nat.sub_zero]
            have : (m + 1) * (nIt + 1) = m * (nIt + 1) + nIt + 1 := by ring
            omega
    · rw [if_neg himp]
      cases hopt : s.optValue with
      | none => simp [hopt, improves] at himp
      | some w =>
        rw [hopt] at himp
        simp only [improves, decide_eq_true_eq, not_lt] at himp
        generalize (if key s.iteration ∈ s.keysMeasured then s.keysMeasured else s.keysMeasured ++ [key s.iteration]) = keys
        split
        · simp
        · rename_i hstop
          push Not at hstop
          refine ih ⟨by simp [hopt], ?_⟩ room ?_ ?_
          · intro v hv
            simp only [hopt, Option.some.injEq] at hv
            subst hv
            obtain ⟨a, ⟨i, hi1, hi2, hi3⟩, c⟩ := hi.best w hopt
            refine ⟨a, ⟨i, Nat.lt_succ_of_lt hi1, hi2, hi3⟩, ?_⟩
            intro j hj
            simp only at hj
            rcases Nat.lt_succ_iff_lt_or_eq.mp hj with hlt | rfl
            · exact c j hlt
            · exact himp
          · simpa [hopt] using hroom
          · simp only
            have := hstop.1
            omega

/-- **C58** (partial: values that fit into the register).  Full statement: the search ends after a number of measurements
bounded by the width of the register and the number of iterations without improvement, whatever is measured.  Missing:
values that do not fit, for which it is false (`C58_violated`).  Here: for every sequence of faithful measurements whose
values fit into the register, whatever the keys and rotation numbers are. -/
theorem C58_terminates_partial (measure : Nat → Objective → Outcome) (rot : Nat → Nat) (sqrt : ℚ → ℚ)
    (converters : List Converter) (nValue nIt : Nat) (p : QP) (key : Nat → Nat) (hv : 0 < nValue)
    (hq : ∀ qubo convs, convertAll converters p = .ok (qubo, convs) → 0 < qubo.objective.linear.n ∧
      Faithful qubo.objective.linear.n nValue key measure ∧
      FitsRegister qubo.objective.linear.n nValue key (groverObjective qubo.objective)) :
    ∃ r, groverSolve measure rot sqrt converters nValue nIt p ((2 ^ nValue + 1) * (nIt + 1) + nIt + 1) = some r := by
  unfold groverSolve
  split
  · exact ⟨_, rfl⟩
  · cases hc : convertAll converters p with
    | error e => exact ⟨_, rfl⟩
    | ok qc =>
      obtain ⟨qubo, convs⟩ := qc
      obtain ⟨hn, hm, hf⟩ := hq qubo convs hc
      have ht := groverLoop_terminates (rot := rot) (sqrt := sqrt)
        (p := callersGrover converters (groverObjective qubo.objective) p) (q := qubo) (convs := convs) (nIt := nIt)
        (maxRot := groverMaxRotations) (fuel := (2 ^ nValue + 1) * (nIt + 1) + nIt + 1) hn hv hm hf
        (groverInit_inv _ _ _) (2 ^ nValue + 1) (by simp [groverInit]) (by simp [groverInit])
      simp only [groverObjective_n]
      cases hl : groverLoop measure rot sqrt (groverObjective qubo.objective)
        (callersGrover converters (groverObjective qubo.objective) p) qubo convs qubo.objective.linear.n
          nValue nIt groverMaxRotations ((2 ^ nValue + 1) * (nIt + 1) + nIt + 1) groverInit with
      | none => exact absurd hl ht
      | some e => cases e <;> exact ⟨_, rfl⟩

/-! ### A concrete run -/

/-- A simulated backend: the given key is measured in every iteration, with the value of the prepared objective. -/
def simMeasure (nKey nValue : Nat) (key : Nat → Nat) (c : Circuit) : Nat → Objective → Outcome := fun i o =>
  ⟨bitString nKey (key i) ++ twosComplement nValue (o.val (pt (keyPt nKey (key i)))).num, c⟩

theorem simMeasure_faithful {nKey nValue : Nat} {key : Nat → Nat} {c : Circuit} (h : ∀ i, key i < 2 ^ nKey) :
    Faithful nKey nValue key (simMeasure nKey nValue key c) :=
  ⟨h, fun i o z hz _ _ => by
    simp only [simMeasure, hz, Rat.num_intCast]
    exact List.take_of_length_le (by simp [twosComplement, bitString_length])⟩

/-- `maximize x + 2 y - 4 x y` over two binary variables. -/
def groverQP : QP :=
  (runCalls (QP.empty "") [.addVar 0 1 .binary (some "x"), .addVar 0 1 .binary (some "y"),
    .objective .maximize 0 (.dict [(.name "x", 1), (.name "y", 2)]) (.dict [((.name "x", .name "y"), -4)])]).2

/-- The keys measured: (1,1), (1,0), (0,1), (0,0), and so on. -/
def groverKeys : Nat → Nat := fun i => [3, 2, 1, 0].getD (i % 4) 0

/-- The uniform superposition on two key and four value qubits (only the key register matters). -/
def groverCircuit : Circuit := .state (List.replicate 4 (1 / 2, 0))

example : 0 < groverQP.objective.linear.n ∧
    Faithful groverQP.objective.linear.n 4 groverKeys (simMeasure 2 4 groverKeys groverCircuit) ∧
    FitsRegister groverQP.objective.linear.n 4 groverKeys (groverObjective groverQP.objective) ∧
    groverQP.objective.linear.WF ∧ groverQP.objective.quadratic.WF := by
  have hn : groverQP.objective.linear.n = 2 := by decide +kernel
  rw [hn]
  have hk : ∀ i, groverKeys i < 4 := by
    intro i
    have : i % 4 < 4 := Nat.mod_lt _ (by norm_num)
    unfold groverKeys
    generalize i % 4 = k at this
    interval_cases k <;> simp
  have hv : ∀ k < 4, ((groverObjective groverQP.objective).val (pt (keyPt 2 k))).den = 1 ∧
      -8 ≤ ((groverObjective groverQP.objective).val (pt (keyPt 2 k))).num ∧
      ((groverObjective groverQP.objective).val (pt (keyPt 2 k))).num < 8 := by decide +kernel
  have hd : ∀ k < 4, ∀ l < 4, ((groverObjective groverQP.objective).val (pt (keyPt 2 k)) -
        (groverObjective groverQP.objective).val (pt (keyPt 2 l))).den = 1 ∧
      -8 ≤ ((groverObjective groverQP.objective).val (pt (keyPt 2 k)) -
        (groverObjective groverQP.objective).val (pt (keyPt 2 l))).num ∧
      ((groverObjective groverQP.objective).val (pt (keyPt 2 k)) -
        (groverObjective groverQP.objective).val (pt (keyPt 2 l))).num < 8 := by decide +kernel
  refine ⟨by norm_num, simMeasure_faithful hk, ⟨?_, ?_⟩, by decide +kernel, by decide +kernel⟩
  · intro i
    obtain ⟨a, b, c⟩ := hv _ (hk i)
    exact ⟨_, (Rat.den_eq_one_iff _).mp a |>.symm, by simpa using b, by simpa using c⟩
  · intro i j
    obtain ⟨a, b, c⟩ := hd _ (hk i) _ (hk j)
    exact ⟨_, (Rat.den_eq_one_iff _).mp a |>.symm, by simpa using b, by simpa using c⟩

/-- The run: the first key has value -1, the second 1, the third 2, and then no improvement in three iterations. -/
example : (match groverSolve (simMeasure 2 4 groverKeys groverCircuit) (fun _ => 0) id [] 4 3 groverQP 100 with
    | some (.ok r) => decide (r.optX = [0, 1]) && decide (r.fval = 2) && decide (r.threshold = -2) &&
        decide (r.iterations = 6) && decide (r.result.x = some [0, 1])
    | _ => false) = true := by decide +kernel

/-! ### C58 fails: values that do not fit into the register -/

/-- `minimize 2 x` over one binary variable. -/
def wrapQP : QP :=
  (runCalls (QP.empty "") [.addVar 0 1 .binary (some "x"),
    .objective .minimize 0 (.dict [(.name "x", 2)]) (.dict [])]).2

/-- The two keys are measured in turn. -/
def wrapKeys : Nat → Nat := fun i => i % 2

/-- Both keys have been seen equally often. -/
def wrapCircuit : Circuit := .counts 2 [("000", 1), ("101", 1)]

theorem wrap_read (k : Nat) (hk : k < 2) (z w : Int) (c : Circuit) (hz : z % 4 = 0 ∧ w = 0 ∨ z % 4 = 2 ∧ w = -2) :
    intBase2 ((Outcome.mk (bitString 1 k ++ twosComplement 2 z) c).bits.take 1) = .ok k ∧
      binToInt (((Outcome.mk (bitString 1 k ++ twosComplement 2 z) c).bits.drop 1).take 2) 2 = .ok w := by
  simp only [twosComplement, show (2 : Int) ^ 2 = 4 by norm_num]
  rcases hz with ⟨h, rfl⟩ | ⟨h, rfl⟩ <;> rw [h] <;> interval_cases k <;> decide +kernel

/-- Two value qubits show `2` as `-2`: once the threshold is the value of one key, the other key seems to be better by two,
whatever multiple of two the threshold has become. -/
theorem groverLoop_endless {rot : Nat → Nat} {sqrt : ℚ → ℚ} {o : Objective} {p q : QP} {convs : List Interp}
    {nIt maxRot : Nat} {raw samples : List Sample} (h0 : o.val (pt (keyPt 1 0)) = 0) (h1 : o.val (pt (keyPt 1 1)) = 2)
    (hr : groverRaw sqrt q 1 wrapCircuit = .ok raw)
    (hs : interpretSamples p (sortedBy (fun a b => decide (o.sense.value * a.fval ≤ o.sense.value * b.fval)) raw) convs =
      .ok samples) (fuel : Nat) (s : GroverState)
    (h : (s.iteration = 0 ∧ s.optValue = none ∧ s.threshold = 0) ∨
      ∃ i : Nat, s.iteration = i + 1 ∧ s.optValue = some (-2 * (i : ℚ)) ∧ s.threshold = -2 * (i : ℚ)) :
    groverLoop (simMeasure 1 2 wrapKeys wrapCircuit) rot sqrt o (fun _ => p) q convs 1 2 nIt maxRot fuel s = none := by
  induction fuel generalizing s with
  | zero => rfl
  | succ fuel ih =>
    have hshift : ∀ (t : ℚ) (x : Nat → ℚ), ({ o with constant := o.constant - t } : Objective).val x = o.val x - t := by
      intro t x
      simp only [Objective.val]
      ring
    obtain ⟨z, w, hz, hzw, himp, hnext⟩ : ∃ z w : Int,
        o.val (pt (keyPt 1 (wrapKeys s.iteration))) - s.threshold = z ∧
        (z % 4 = 0 ∧ w = 0 ∨ z % 4 = 2 ∧ w = -2) ∧ improves (w + s.threshold) s.optValue = true ∧
        ∃ i : Nat, s.iteration + 1 = i + 1 ∧ (w : ℚ) + s.threshold = -2 * (i : ℚ) := by
      rcases h with ⟨e1, e2, e3⟩ | ⟨i, e1, e2, e3⟩
      · exact ⟨0, 0, by rw [e1, e3]; simp [wrapKeys, h0], by simp, by rw [e2]; rfl, 0, by rw [e1], by rw [e3]; simp⟩
      · refine ⟨2 * ((i + 1 : Nat) % 2 : Nat) + 2 * i, -2, ?_, Or.inr ⟨by omega, rfl⟩, ?_, i + 1, by rw [e1], ?_⟩
        · rw [e1, e3]
          rcases Nat.mod_two_eq_zero_or_one (i + 1) with hm | hm
          · simp only [wrapKeys, hm, h0]; push_cast; ring
          · simp only [wrapKeys, hm, h1]; push_cast; ring
        · rw [e2, e3]
          simp only [improves, decide_eq_true_eq]
          push_cast
          linarith
        · rw [e3]; push_cast; ring
    obtain ⟨hk, hb⟩ := wrap_read (wrapKeys s.iteration) (Nat.mod_lt _ (by norm_num)) z w wrapCircuit hzw
    have hmeas : simMeasure 1 2 wrapKeys wrapCircuit s.iteration { o with constant := o.constant - s.threshold } =
        ⟨bitString 1 (wrapKeys s.iteration) ++ twosComplement 2 z, wrapCircuit⟩ := by
      simp only [simMeasure, hshift, hz, Rat.num_intCast]
    simp only [groverLoop, hmeas, hk, hb, himp, if_true, hr, hs]
    obtain ⟨i, hi, hv⟩ := hnext
    exact ih _ (Or.inr ⟨i, hi, by simp only [hv], hv⟩)

theorem groverLoop_stop {measure : Nat → Objective → Outcome} {rot : Nat → Nat} {sqrt : ℚ → ℚ} {obj : Objective}
    {problem : ℚ → QP} {qubo : QP} {convs : List Interp} {nKey nValue nIt maxRot : Nat} (fuel : Nat) (s s' : GroverState)
    (hr : s.rotations = ((List.range s.iteration).map rot).sum) (hk : s.keysMeasured.length ≤ s.iteration)
    (ho : s.optValue = none ∨ s.loops < s.iteration ∧ s.keysMeasured.length < s.iteration)
    (h : groverLoop measure rot sqrt obj problem qubo convs nKey nValue nIt maxRot fuel s = some (.ok s')) :
    nIt < s'.iteration ∨ 2 ^ nKey < s'.iteration ∨ maxRot ≤ ((List.range s'.iteration).map rot).sum := by
  induction fuel generalizing s with
  | zero => simp [groverLoop] at h
  | succ fuel ih =>
    have hsum : s.rotations + rot s.iteration = ((List.range (s.iteration + 1)).map rot).sum := by
      rw [hr, List.range_succ]
      simp
    unfold groverLoop at h
    simp only at h
    split at h
    · simp at h
    · rename_i k _
      split at h
      · simp at h
      · split at h
        · split at h
          · simp at h
          · split at h
            · simp at h
            · exact ih _ hsum (Nat.le_succ_of_le hk)
                (Or.inr ⟨Nat.succ_pos _, Nat.lt_succ_of_le hk⟩) h
        · rename_i hno
          have hs : s.loops < s.iteration ∧ s.keysMeasured.length < s.iteration := by
            rcases ho with h0 | h0
            · rw [h0] at hno; simp [improves] at hno
            · exact h0
          have hkeys : (if k ∈ s.keysMeasured then s.keysMeasured else s.keysMeasured ++ [k]).length <
              s.iteration + 1 := by
            split
            · omega
            · simp; omega
          generalize (if k ∈ s.keysMeasured then s.keysMeasured else s.keysMeasured ++ [k]) = keys at h hkeys
          split at h
          · rename_i hstop
            simp only [Option.some.injEq, Except.ok.injEq] at h
            subst h
            simp only
            rcases hstop with h1 | h1 | h1
            · left; omega
            · right; left; rw [← h1]; exact hkeys
            · right; right; rw [← hsum]; exact h1
          · exact ih _ hsum hkeys.le (Or.inr ⟨Nat.succ_lt_succ hs.1, hkeys⟩) h

/-- **C58** (the search is not given up early): when it ends, there have been more measurements than the given number of
iterations without improvement, or more than there are keys, or the numbers of rotations of all measurements add up to at least
79, the limit `ceil(100 π / 4)`. -/
theorem C58_not_early (measure : Nat → Objective → Outcome) (rot : Nat → Nat) (sqrt : ℚ → ℚ) (converters : List Converter)
    (nValue nIt : Nat) (p : QP) (fuel : Nat) (r : GroverResult)
    (h : groverSolve measure rot sqrt converters nValue nIt p fuel = some (.ok r)) :
    ∃ qubo convs, convertAll converters p = .ok (qubo, convs) ∧
      (nIt < r.iterations ∨ 2 ^ qubo.objective.linear.n < r.iterations ∨
        79 ≤ ((List.range r.iterations).map rot).sum) := by
  unfold groverSolve at h
  split at h
  · simp at h
  · split at h
    · simp at h
    · rename_i qubo convs hc
      refine ⟨qubo, convs, hc, ?_⟩
      simp only at h
      split at h
      · simp at h
      · simp at h
      · rename_i s hl
        have hstop := groverLoop_stop (maxRot := groverMaxRotations) fuel groverInit s rfl (Nat.le_refl _) (Or.inl rfl) hl
        have hi : r.iterations = s.iteration := by
          simp only [groverFinish, Option.some.injEq] at h
          split at h
          · simp at h
          · split at h
            · simp at h
            · simp only [Except.ok.injEq] at h
              subst h
              rfl
        have hn : (groverObjective qubo.objective).linear.n = qubo.objective.linear.n := by
          unfold groverObjective
          split <;> rfl
        rw [hn] at hstop
        rw [hi]
        exact hstop

/-- **C58** (violated): `minimize 2 x` with two value qubits and the default converter.  The circuit computes modulo four
and both keys are measured in turn, each with the value of the prepared objective in two's complement.  The search never
ends, whatever the number of iterations without improvement is: every measurement seems to be an improvement. -/
theorem C58_violated (rot : Nat → Nat) (nIt fuel : Nat) :
    groverSolve (simMeasure 1 2 wrapKeys wrapCircuit) rot id [quboConverter none] 2 nIt wrapQP fuel = none := by
  have hmsg : ¬ (quboMsg wrapQP).length > 0 := by decide +kernel
  have hall : (match convertAll [quboConverter none] wrapQP with
      | .ok (q, f) =>
        decide ((groverObjective q.objective).linear.n = 1) &&
        decide ((groverObjective q.objective).val (pt (keyPt 1 0)) = 0) &&
        decide ((groverObjective q.objective).val (pt (keyPt 1 1)) = 2) &&
        (match groverRaw id q 1 wrapCircuit with
          | .ok raw => (interpretSamples wrapQP (sortedBy (fun a b => decide
              ((groverObjective q.objective).sense.value * a.fval ≤
                (groverObjective q.objective).sense.value * b.fval)) raw) f).isOk
          | .error _ => false)
      | .error _ => false) = true := by decide +kernel
  unfold groverSolve
  rw [if_neg hmsg]
  cases hc : convertAll [quboConverter none] wrapQP with
  | error e => rw [hc] at hall; cases hall
  | ok qf =>
    obtain ⟨q, f⟩ := qf
    rw [hc] at hall
    simp only [Bool.and_eq_true, decide_eq_true_eq] at hall
    obtain ⟨⟨⟨hn, h0⟩, h1⟩, h2⟩ := hall
    cases hr : groverRaw id q 1 wrapCircuit with
    | error e => rw [hr] at h2; cases h2
    | ok raw =>
      rw [hr] at h2
      simp only at h2
      cases hs : interpretSamples wrapQP (sortedBy (fun a b => decide
          ((groverObjective q.objective).sense.value * a.fval ≤
            (groverObjective q.objective).sense.value * b.fval)) raw) f with
      | error e => rw [hs] at h2; cases h2
      | ok samples =>
        have he := groverLoop_endless (rot := rot) (nIt := nIt) (maxRot := groverMaxRotations) h0 h1 hr hs fuel groverInit
          (Or.inl ⟨rfl, rfl, rfl⟩)
        have hcall : callersGrover [quboConverter none] (groverObjective q.objective) wrapQP = fun _ => wrapQP := rfl
        simp only [hn, hcall, he]

/-- The measurements of `C58_violated` are those of `C33` and `C58_terminates_partial`: only the values do not fit. -/
example : Faithful 1 2 wrapKeys (simMeasure 1 2 wrapKeys wrapCircuit) :=
  simMeasure_faithful fun _ => Nat.mod_lt _ (by norm_num)

/-! ## C57 -/

/-- The probability of measuring the value `j` in the key register of `n` qubits (the low qubits). -/
def keyProbability (n : Nat) (v : List (ℚ × ℚ)) (j : Nat) : ℚ :=
  (((List.range v.length).filter fun i => i % 2 ^ n = j).map fun i => ampProb (v.getD i (0, 0))).sum

theorem keyMarginal_eq (n : Nat) (v : List (ℚ × ℚ)) :
    keyMarginal n v = (List.range (2 ^ n)).map (keyProbability n v) := by
  unfold keyMarginal keyProbability
  congr 1
  funext j
  have : v.zipIdx = (List.range v.length).map fun i => (v.getD i (0, 0), i) := by
    apply List.ext_getElem
    · simp
    · intro i h1 h2
      have hi : i < v.length := by simpa using h1
      simp [List.getD_eq_getElem?_getD, hi]
  rw [this, List.filter_map, List.map_map]
  rfl

theorem decodeProbs_ok {qubo : QP} {thr : ℚ} {n : Nat} (hn : 0 < n) (h1 : qubo.objective.linear.n = n)
    (h2 : qubo.objective.quadratic.n = n) (v : List ℚ) (k : Nat) (hk : k + v.length ≤ 2 ^ n) :
    decodeProbs qubo thr n v k = .ok (((v.zipIdx k).filter fun q => thr ≤ q.1).map fun q =>
      basisSample qubo n q.2 q.1) := by
  induction v generalizing k with
  | nil => rfl
  | cons a v ih =>
    simp only [List.length_cons] at hk
    have hg : generateSolution (vectorKey n k) qubo a = .ok (basisSample qubo n k a) :=
      generateSolution_ok (digitsOf_vectorKey hn (by omega)) (by rw [bitsOf_length, h1]) (by rw [bitsOf_length, h2])
    simp only [decodeProbs, hg, ih (k + 1) (by omega), List.zipIdx_cons, List.filter_cons]
    by_cases h : thr ≤ a <;> simp [h]

/-- **C57** (partial: state vector backends).  Full statement: the samples of a Grover run carry the measured
probabilities of the keys.  Missing: backends with shots, where it is false (`C57_violated`, `C57_violated_merge`).
Here: the raw samples are exactly the keys with probability at least 1e-6, each with its value in the converted problem
and its probability in the measured state. -/
theorem C57_state_partial (sqrt : ℚ → ℚ) (qubo : QP) (n : Nat) (hn : 0 < n) (h1 : qubo.objective.linear.n = n)
    (h2 : qubo.objective.quadratic.n = n) (v : List (ℚ × ℚ)) :
    ∃ raw, groverRaw sqrt qubo n (.state v) = .ok raw ∧
      ∀ s, s ∈ raw ↔ ∃ j < 2 ^ n, 1 / 10 ^ 6 ≤ keyProbability n v j ∧ s.x = bitsOf n j ∧
        s.fval = qubo.objective.val (pt (bitsOf n j)) ∧ s.probability = keyProbability n v j ∧
        s.status = .success := by
  refine ⟨_, decodeProbs_ok hn h1 h2 _ 0 (by simp [keyMarginal]), ?_⟩
  intro s
  rw [keyMarginal_eq]
  simp only [List.mem_map, List.mem_filter, decide_eq_true_eq]
  constructor
  · rintro ⟨⟨a, j⟩, ⟨hm, ht⟩, rfl⟩
    rw [List.mem_zipIdx_iff_getElem?] at hm
    simp only [List.getElem?_map, Option.map_eq_some_iff] at hm
    obtain ⟨k, hk, rfl⟩ := hm
    obtain ⟨hlt, rfl⟩ := List.getElem?_eq_some_iff.mp hk
    simp only [List.getElem_range] at *
    exact ⟨j, by simpa using hlt, ht, rfl, rfl, rfl, rfl⟩
  · rintro ⟨j, hj, ht, e1, e2, e3, e4⟩
    refine ⟨(keyProbability n v j, j), ⟨?_, ht⟩, ?_⟩
    · rw [List.mem_zipIdx_iff_getElem?]
      simp [hj]
    · cases s; simp_all [basisSample]

/-- One binary variable. -/
def oneBitQP : QP :=
  (runCalls (QP.empty "") [.addVar 0 1 .binary (some "x"), .objective .minimize 0 (.dict [(.name "x", 1)]) (.dict [])]).2

/-- **C57 fails** for backends with shots: square roots of the frequencies are used as if they were counts.  With the
frequencies 9/25 and 16/25 of the keys 0 and 1 the samples get the probabilities 3/7 and 4/7. -/
theorem C57_violated (sqrt : ℚ → ℚ) (h1 : sqrt (9 / 25) = 3 / 5) (h2 : sqrt (16 / 25) = 4 / 5) :
    groverRaw sqrt oneBitQP 1 (.counts 25 [("00", 9), ("11", 16)]) =
      .ok [⟨[0], 0, 3 / 7, .success⟩, ⟨[1], 1, 4 / 7, .success⟩] := by
  have e1 : "00".toList = ['0', '0'] := by decide +kernel
  have e2 : "11".toList = ['1', '1'] := by decide +kernel
  simp only [groverRaw, List.map_cons, List.map_nil, h1, h2, e1, e2]
  decide +kernel

/-- **C57 fails** also when one key is measured with several values: only the last of them is kept.  The key 0 is
measured in 36 + 4 of 49 shots, but its sample has a smaller probability than the one of the key 1 with 9 shots. -/
theorem C57_violated_merge (sqrt : ℚ → ℚ) (h1 : sqrt (36 / 49) = 6 / 7) (h2 : sqrt (4 / 49) = 2 / 7)
    (h3 : sqrt (9 / 49) = 3 / 7) :
    groverRaw sqrt oneBitQP 1 (.counts 49 [("10", 36), ("00", 4), ("11", 9)]) =
      .ok [⟨[0], 0, 2 / 5, .success⟩, ⟨[1], 1, 3 / 5, .success⟩] := by
  have e1 : "00".toList = ['0', '0'] := by decide +kernel
  have e2 : "11".toList = ['1', '1'] := by decide +kernel
  have e3 : "10".toList = ['1', '0'] := by decide +kernel
  simp only [groverRaw, List.map_cons, List.map_nil, h1, h2, h3, e1, e2, e3]
  decide +kernel

/-- Square roots as assumed exist. -/
example : Rat.sqrt (9 / 25) = 3 / 5 ∧ Rat.sqrt (16 / 25) = 4 / 5 ∧ Rat.sqrt (36 / 49) = 6 / 7 ∧
    Rat.sqrt (4 / 49) = 2 / 7 ∧ Rat.sqrt (9 / 49) = 3 / 7 := by decide +kernel

example : groverRaw id groverQP 2 groverCircuit = .ok [⟨[0, 0], 0, 1 / 4, .success⟩, ⟨[1, 0], 1, 1 / 4, .success⟩,
    ⟨[0, 1], 2, 1 / 4, .success⟩, ⟨[1, 1], -1, 1 / 4, .success⟩] := by decide +kernel

end Verif

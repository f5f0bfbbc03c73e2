import Verif.PropsGrover
import Verif.PropsResult

/-!
# The Grover optimizer and the caller's program: C70
-/

namespace Verif

/-- The samples kept by the loop are interpreted for the caller's program at some threshold. -/
theorem groverLoop_samples {measure : Nat → Objective → Outcome} {rot : Nat → Nat} {sqrt : ℚ → ℚ} {o : Objective}
    {p : ℚ → QP} {q : QP} {convs : List Interp} {nKey nValue nIt maxRot fuel : Nat} {s r : GroverState}
    (hs : s.samples = [] ∨ ∃ th, interpretSamples (p th) s.raw convs = .ok s.samples)
    (h : groverLoop measure rot sqrt o p q convs nKey nValue nIt maxRot fuel s = some (.ok r)) :
    r.samples = [] ∨ ∃ th, interpretSamples (p th) r.raw convs = .ok r.samples := by
  induction fuel generalizing s with
  | zero => simp [groverLoop] at h
  | succ fuel ih =>
    simp only [groverLoop] at h
    split at h
    · simp at h
    · split at h
      · simp at h
      · split at h
        · split at h
          · simp at h
          · split at h
            · simp at h
            · rename_i hi
              exact ih (Or.inr ⟨_, hi⟩) h
        · generalize (if _ ∈ s.keysMeasured then s.keysMeasured else _) = keys at h
          split at h
          · simp only [Option.some.injEq, Except.ok.injEq] at h
            subst h
            exact hs
          · exact ih (s := { s with keysMeasured := keys, rotations := _, iteration := _, loops := _ }) hs h

/-- A finished run of `solve` in parts. -/
theorem groverSolve_inv {measure : Nat → Objective → Outcome} {rot : Nat → Nat} {sqrt : ℚ → ℚ}
    {converters : List Converter} {nValue nIt : Nat} {p : QP} {fuel : Nat} {r : GroverResult}
    (h : groverSolve measure rot sqrt converters nValue nIt p fuel = some (.ok r)) :
    ∃ (qubo : QP) (convs : List Interp) (s : GroverState), convertAll converters p = .ok (qubo, convs) ∧
      (s.samples = [] ∨ ∃ th, interpretSamples (callersGrover converters (groverObjective qubo.objective) p th) s.raw
        convs = .ok s.samples) ∧ r.threshold = s.threshold ∧
      r.callers = callersGrover converters (groverObjective qubo.objective) p s.threshold ∧
      interpretResult r.callers convs s.samples s.raw r.optX = .ok r.result := by
  unfold groverSolve at h
  split at h
  · simp at h
  · cases hc : convertAll converters p with
    | error e => simp [hc] at h
    | ok qc =>
      obtain ⟨qubo, convs⟩ := qc
      simp only [hc] at h
      split at h
      · simp at h
      · simp at h
      · rename_i s hl
        simp only [Option.some.injEq] at h
        have hsam := groverLoop_samples (Or.inl rfl) hl
        unfold groverFinish at h
        simp only at h
        split at h
        · simp at h
        · split at h
          · simp at h
          · rename_i hr
            simp only [Except.ok.injEq] at h
            subst h
            exact ⟨qubo, convs, s, rfl, hsam, rfl, rfl, hr⟩

/-- **C70** (with converters): the caller's program is unchanged, the reported value is its value at the reported point,
and every sample carries the value of its point.  Full statement: the same for every list of converters.  Missing (false
by `C70_violated`): the empty list. -/
theorem C70_value_partial (measure : Nat → Objective → Outcome) (rot : Nat → Nat) (sqrt : ℚ → ℚ)
    (converters : List Converter) (nValue nIt : Nat) (p : QP) (hn : (p.vars.map Variable.name).Nodup) (fuel : Nat)
    (r : GroverResult) (hne : converters ≠ [])
    (h : groverSolve measure rot sqrt converters nValue nIt p fuel = some (.ok r)) :
    r.callers = p ∧ (∃ y, r.result.x = some y ∧ y.length = p.numVars ∧ r.result.fval = some (p.objective.val (pt y)) ∧
      (r.result.status = .success ↔ p.FeasTol (pt y))) ∧
    ∀ s ∈ r.result.samples, s.x.length = p.numVars ∧ s.fval = p.objective.val (pt s.x) := by
  obtain ⟨qubo, convs, s, _, hsam, _, hcal, hr⟩ := groverSolve_inv h
  have hp : ∀ th, callersGrover converters (groverObjective qubo.objective) p th = p := by
    intro th
    simp [callersGrover, hne]
  rw [hp] at hcal
  rw [hcal] at hr
  obtain ⟨y, _, h1, h2, _, h3, _, h4, _⟩ := C29_result p hn convs _ _ _ _ hr
  refine ⟨hcal, ⟨y, h1, h2, h3, h4⟩, ?_⟩
  have hs : r.result.samples = s.samples := by
    unfold interpretResult at hr
    split at hr
    · simp at hr
    · split at hr
      · simp at hr
      · split at hr
        · simp at hr
        · unfold Result.mk? at hr
          simp only at hr
          split at hr
          · simp at hr
          · simp only [Except.ok.injEq] at hr
            rw [← hr]
  rw [hs]
  rcases hsam with h0 | ⟨th, h0⟩
  · simp [h0]
  · rw [hp] at h0
    obtain ⟨_, _, _, _, hg, _⟩ := C26_merge p _ convs _ h0
    exact fun t ht => ⟨(hg t ht).2.1, (hg t ht).2.2.1⟩

/-- **C70** (without converters, what happens instead): the program of the caller is a minimization afterwards, its
constant has been reduced by the threshold, and the reported value is the value of the converted point in that
program. -/
theorem C70_inplace (measure : Nat → Objective → Outcome) (rot : Nat → Nat) (sqrt : ℚ → ℚ) (nValue nIt : Nat) (p : QP)
    (hn : (p.vars.map Variable.name).Nodup) (h1 : p.objective.linear.WF) (h2 : p.objective.quadratic.WF) (fuel : Nat)
    (r : GroverResult) (h : groverSolve measure rot sqrt [] nValue nIt p fuel = some (.ok r)) :
    r.callers.objective.sense = .minimize ∧ r.callers.vars = p.vars ∧
    (∀ x, r.callers.objective.val x = p.objective.sense.value * p.objective.val x - r.threshold) ∧
    r.result.x = some r.optX ∧
    r.result.fval = some (p.objective.sense.value * p.objective.val (pt r.optX) - r.threshold) := by
  obtain ⟨qubo, convs, s, hc, _, ht, hcal, hr⟩ := groverSolve_inv h
  simp only [convertAll, Except.ok.injEq, Prod.mk.injEq] at hc
  obtain ⟨rfl, rfl⟩ := hc
  have hval : ∀ x, r.callers.objective.val x = p.objective.sense.value * p.objective.val x - r.threshold := by
    intro x
    rw [hcal, ht, ← groverObjective_val h1 h2]
    simp only [callersGrover, List.length_nil, if_true, Objective.val]
    ring
  have hv : r.callers.vars = p.vars := by rw [hcal]; simp [callersGrover]
  obtain ⟨y, hy, g1, _, _, g2, _⟩ := C29_result r.callers (by rw [hv]; exact hn) [] _ _ _ _ hr
  have hyx : y = r.optX := by
    rw [interprets_iff] at hy
    simpa [interpretAll, interpretRev] using hy.symm
  rw [hyx] at g1 g2
  refine ⟨?_, hv, hval, g1, by rw [g2, hval]⟩
  rw [hcal]
  simp only [callersGrover, List.length_nil, if_true]
  exact (C34_sign _ h1 h2 (fun _ => 0)).2

/-- **C70 fails** without converters: `maximize x + 2 y - 4 x y` is a minimization with the constant 2 after the call,
and the value reported for the optimal point `(0, 1)` is 0 instead of 2. -/
theorem C70_violated : ∃ r, groverSolve (simMeasure 2 4 groverKeys groverCircuit) (fun _ => 0) id [] 4 3 groverQP 100 =
      some (.ok r) ∧ groverQP.WF ∧ r.result.x = some [0, 1] ∧ groverQP.objective.evaluate [0, 1] = .ok 2 ∧
      r.result.fval = some 0 ∧ r.callers.objective.sense = .minimize ∧ groverQP.objective.sense = .maximize ∧
      r.callers.objective.constant = 2 ∧ groverQP.objective.constant = 0 := by
  have h : (match groverSolve (simMeasure 2 4 groverKeys groverCircuit) (fun _ => 0) id [] 4 3 groverQP 100 with
      | some (.ok r) => decide (r.result.x = some [0, 1]) && decide (r.result.fval = some 0) &&
          decide (r.callers.objective.sense = .minimize) && decide (r.callers.objective.constant = 2)
      | _ => false) = true := by decide +kernel
  revert h
  generalize groverSolve _ _ _ _ _ _ _ _ = o
  intro h
  match o, h with
  | some (.ok r), h =>
    simp only [Bool.and_eq_true, decide_eq_true_eq] at h
    exact ⟨r, rfl, by decide +kernel, h.1.1.1, by decide +kernel, h.1.1.2, h.1.2, by decide +kernel, h.2, by decide +kernel⟩

/-- With the default converter the same run reports the value 2. -/
example : (match groverSolve (simMeasure 2 4 groverKeys groverCircuit) (fun _ => 0) id [quboConverter none] 4 3 groverQP
      100 with
    | some (.ok r) => decide (r.result.x = some [0, 1]) && decide (r.result.fval = some 2) &&
        decide (r.callers = groverQP) && decide ((r.result.samples.map Sample.fval) = [2, 1, 0, -1])
    | _ => false) = true ∧ (groverQP.vars.map Variable.name).Nodup ∧ groverQP.objective.linear.WF ∧
    groverQP.objective.quadratic.WF := by decide +kernel

end Verif

import Verif.PropsGrover

/-!
# The order of raw samples (C100)
-/

namespace Verif

/-- The list of samples is ordered best value first, for the sense of the objective. -/
def BestFirst : ObjSense → List Sample → Prop
  | .minimize, l => l.Pairwise fun a b => a.fval ≤ b.fval
  | .maximize, l => l.Pairwise fun a b => b.fval ≤ a.fval

theorem bestFirst_sorted (sense : ObjSense) (l : List Sample) :
    BestFirst sense (sortedBy (fun a b => decide (sense.value * a.fval ≤ sense.value * b.fval)) l) := by
  have h := sortedBy_pairwise (le := fun a b : Sample => decide (sense.value * a.fval ≤ sense.value * b.fval))
    (fun a b => by simpa using le_total _ _) (fun a b c h1 h2 => by simp at h1 h2 ⊢; exact h1.trans h2) l
  cases sense with
  | minimize => exact h.imp fun h => by simpa [ObjSense.value] using h
  | maximize => exact h.imp fun h => by simpa [ObjSense.value] using h

theorem interpretResult_fields {p : QP} {convs : List Interp} {samples raw : List Sample} {x : List ℚ} {r : Result}
    (h : interpretResult p convs samples raw x = .ok r) :
    r.rawSamples = raw ∧ ∃ y, interpretAll convs x = .ok y ∧ r.x = some y := by
  unfold interpretResult at h
  cases h1 : interpretAll convs x with
  | error e => simp [h1] at h
  | ok y =>
    simp only [h1] at h
    cases h2 : p.objective.evaluate y with
    | error e => simp [h2] at h
    | ok f =>
      simp only [h2] at h
      cases h3 : feasibilityStatus p y with
      | error e => simp [h3] at h
      | ok st =>
        simp only [h3, Result.mk?] at h
        split at h
        · simp at h
        · simp only [Except.ok.injEq] at h
          subst h
          exact ⟨rfl, y, rfl, rfl⟩

/-- **C100** (minimum eigen optimizer): the raw samples of a result are the decoded samples in the order of their values in the
converted problem, best first, and the point of the result is the interpretation of the first one. -/
theorem C100_minEigen (solver : QubitOp → Option Eigenstate) (convs : List Converter) (p : QP) (r : Result)
    (h : minEigenSolve solver convs p = .ok r) (hx : r.x ≠ none) :
    ∃ q fs op off e raw, convertAll convs p = .ok (q, fs) ∧ q.toIsing = .ok (op, off) ∧ solver op = some e ∧
      eigenToSolutions e q (1 / 10 ^ 6) = .ok raw ∧ r.rawSamples.Perm raw ∧ BestFirst q.objective.sense r.rawSamples ∧
      ∃ s rest y, r.rawSamples = s :: rest ∧ interpretAll fs s.x = .ok y ∧ r.x = some y := by
  unfold minEigenSolve at h
  split at h
  · simp at h
  cases hc : convertAll convs p with
  | error e => simp [hc] at h
  | ok qf =>
    obtain ⟨q, fs⟩ := qf
    simp only [hc] at h
    cases hi : q.toIsing with
    | error e => simp [hi] at h
    | ok oo =>
      obtain ⟨op, off⟩ := oo
      simp only [hi, solveInternal] at h
      split at h
      · simp at h
      cases hs : solver op with
      | none =>
        simp only [hs, Result.mk?, Except.ok.injEq] at h
        subst h
        exact absurd rfl hx
      | some e =>
        simp only [hs] at h
        cases hd : eigenToSolutions e q (1 / 10 ^ 6) with
        | error er =>
          rw [hd] at h
          simp at h
        | ok raw =>
          simp only [hd] at h
          have hb := bestFirst_sorted q.objective.sense raw
          have hp := sortedBy_perm (fun a b : Sample => decide (q.objective.sense.value * a.fval ≤ q.objective.sense.value * b.fval)) raw
          revert h hb hp
          generalize sortedBy (fun a b : Sample => decide (q.objective.sense.value * a.fval ≤ q.objective.sense.value * b.fval)) raw = srt
          intro h hb hp
          cases srt with
          | nil => simp at h
          | cons s rest =>
            simp only at h
            cases hj : interpretSamples p (s :: rest) fs with
            | error er => simp [hj] at h
            | ok samples =>
              simp only [hj] at h
              obtain ⟨f1, y, f2, f3⟩ := interpretResult_fields h
              exact ⟨q, fs, op, off, e, raw, rfl, hi, hs, hd, f1 ▸ hp, f1 ▸ hb, s, rest, y, f1, f2, f3⟩

/-- `maximize x + 2 y - 4 x y` on three measured states. -/
example : (minEigenSolve (fun _ => some (.counts [("11", 2), ("01", 1), ("10", 1)])) [] groverQP).toOption.map
    (fun r => (r.x, r.rawSamples.map Sample.fval)) = some (some [0, 1], [2, 1, -1]) := by decide +kernel

theorem groverLoop_raw {measure : Nat → Objective → Outcome} {rot : Nat → Nat} {sqrt : ℚ → ℚ} {o : Objective}
    {p : ℚ → QP} {q : QP} {convs : List Interp} {nKey nValue nIt maxRot : Nat} {fuel : Nat}
    {s r : GroverState} (hi : BestFirst o.sense s.raw)
    (h : groverLoop measure rot sqrt o p q convs nKey nValue nIt maxRot fuel s = some (.ok r)) : BestFirst o.sense r.raw := by
  induction fuel generalizing s with
  | zero => simp [groverLoop] at h
  | succ fuel ih =>
    simp only [groverLoop] at h
    split at h
    · simp at h
    split at h
    · simp at h
    split at h
    · split at h
      · simp at h
      split at h
      · simp at h
      · exact ih (bestFirst_sorted o.sense _) h
    · split at h <;> split at h
      all_goals first
        | (simp only [Option.some.injEq, Except.ok.injEq] at h; subst h; exact hi)
        | (refine @ih _ ?_ h; exact hi)

/-- **C100** (Grover optimizer, what happens): the raw samples are always listed with the smallest value in the converted
problem first, whether that is minimized or maximized. -/
theorem C100_grover (measure : Nat → Objective → Outcome) (rot : Nat → Nat) (sqrt : ℚ → ℚ) (converters : List Converter)
    (nValue nIt : Nat) (p : QP) (fuel : Nat) (r : GroverResult)
    (h : groverSolve measure rot sqrt converters nValue nIt p fuel = some (.ok r)) :
    r.result.rawSamples.Pairwise fun a b => a.fval ≤ b.fval := by
  unfold groverSolve at h
  split at h
  · simp at h
  split at h
  · simp at h
  rename_i qubo convs hc
  simp only at h
  split at h
  · simp at h
  · simp at h
  · rename_i s hs
    have hb := groverLoop_raw (s := groverInit) (by rw [groverObjective_sense]; simp [groverInit, BestFirst]) hs
    rw [groverObjective_sense] at hb
    simp only [Option.some.injEq, groverFinish] at h
    split at h
    · simp at h
    split at h
    · simp at h
    · rename_i res hres
      simp only [Except.ok.injEq] at h
      subst h
      rw [(interpretResult_fields hres).1]
      exact hb

/-- **C100, the part that holds for the Grover optimizer.**  Full statement: the raw samples are listed best first.  Proved: if
the converted problem is a minimization.  Missing (false, `C100_violated`): maximizations. -/
theorem C100_grover_partial (measure : Nat → Objective → Outcome) (rot : Nat → Nat) (sqrt : ℚ → ℚ) (converters : List Converter)
    (nValue nIt : Nat) (p : QP) (fuel : Nat) (r : GroverResult)
    (h : groverSolve measure rot sqrt converters nValue nIt p fuel = some (.ok r)) (q : QP) (fs : List Interp)
    (hc : convertAll converters p = .ok (q, fs)) (hq : q.objective.sense = .minimize) :
    BestFirst q.objective.sense r.result.rawSamples := by
  rw [hq]
  exact C100_grover measure rot sqrt converters nValue nIt p fuel r h

/-- `minimize x + 2 y - 4 x y` over two binary variables. -/
def groverMinQP : QP :=
  (runCalls (QP.empty "") [.addVar 0 1 .binary (some "x"), .addVar 0 1 .binary (some "y"),
    .objective .minimize 0 (.dict [(.name "x", 1), (.name "y", 2)]) (.dict [((.name "x", .name "y"), -4)])]).2

example : (match groverSolve (simMeasure 2 4 groverKeys groverCircuit) (fun _ => 0) id [] 4 3 groverMinQP 100 with
    | some (.ok r) => decide (r.result.rawSamples.map Sample.fval = [-1, 0, 1, 2])
    | _ => false) = true ∧ groverMinQP.objective.sense = .minimize := by decide +kernel

/-- **C100 is violated** by the Grover optimizer for maximizations: the raw samples of `maximize x + 2 y - 4 x y` start with
the value -1 and end with the maximum 2. -/
theorem C100_violated : ∃ r, groverSolve (simMeasure 2 4 groverKeys groverCircuit) (fun _ => 0) id [] 4 3 groverQP 100 =
    some (.ok r) ∧ groverQP.objective.sense = .maximize ∧ r.result.rawSamples.map Sample.fval = [-1, 0, 1, 2] ∧
    ¬ BestFirst groverQP.objective.sense r.result.rawSamples := by
  have hd : (match groverSolve (simMeasure 2 4 groverKeys groverCircuit) (fun _ => 0) id [] 4 3 groverQP 100 with
    | some (.ok r) => decide (r.result.rawSamples.map Sample.fval = [-1, 0, 1, 2])
    | _ => false) = true := by decide +kernel
  have hs : groverQP.objective.sense = .maximize := by decide +kernel
  split at hd
  · rename_i r hr
    have hd : r.result.rawSamples.map Sample.fval = [-1, 0, 1, 2] := by simpa using hd
    refine ⟨r, hr, hs, hd, ?_⟩
    rw [hs]
    intro hb
    have := (List.pairwise_map (f := Sample.fval) (R := fun a b => b ≤ a)).mpr hb
    rw [hd] at this
    revert this
    decide +kernel
  · simp at hd

end Verif

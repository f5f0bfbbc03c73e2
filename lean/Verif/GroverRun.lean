import Verif.PropsGroverDraw

/-!
# Whole runs of the Grover optimizer with random measurements

Models the two nested loops of `GroverOptimizer.solve` (`algorithms/grover_optimizer.py:215-295`) as a random process: the
numbers of rotations and the measured keys are drawn at random.
-/

namespace Verif

open Finset

/-- The objective of the circuits when the threshold is `t`: `problem_.objective.constant = orig_constant - threshold`
(`grover_optimizer.py:220`). -/
def shiftObjective (o : Objective) (t : ℚ) : Objective := { o with constant := o.constant - t }

/-- The probability that one of the keys in `target` is measured within `fuel` measurements, when `best` is the smallest
value so far (`optimum_value`; the threshold is 0 before the first measurement, `grover_optimizer.py:193`, and `best`
afterwards, line 256), `loops` measurements were made without improvement in this round, `m` is the range and `rotations` the
number of all rotations so far (`grover_optimizer.py:215-289`).  `o` is the objective to be minimized and `form t` the matrix
of `QuadraticForm` for the threshold `t`.

The number of rotations is drawn (line 228) and added up (line 229), then a key is measured with its probability
in the state of the circuit.  The value measured with a key is that of the objective (`C75_support`), so it is not drawn again.
After an improvement a new round begins with `m = 1`, without a look at the stop parameters (lines 253-271); otherwise `m`
grows (line 275) and the search may end because of the measurements without improvement or of the rotations (lines 283-289).
That it also ends when every key has been measured without improvement (line 285) is left out: then the keys in `target`
have been measured as well. -/
noncomputable def hitProb (nKey nValue nIterations : Nat) (o : Objective) (form : ℚ → Unitary (nKey + nValue + 1))
    (target : Finset Nat) : (fuel : Nat) → (best : Option ℚ) → (loops m rotations : Nat) → ℝ
  | 0, _, _, _, _ => 0
  | fuel + 1, best, loops, m, rotations => ∫ u in (0 : ℝ)..1, ∑ k ∈ range (2 ^ nKey),
      keyProb (groverCircuitState nKey nValue (form (best.getD 0)) (rotationDraw m u)) nKey k *
        if k ∈ target then 1
        else if improves (o.val (pt (keyPt nKey k))) best then
          hitProb nKey nValue nIterations o form target fuel (some (o.val (pt (keyPt nKey k)))) 0 1
            (rotations + rotationDraw m u)
        else if loops + 1 ≥ nIterations ∨ rotations + rotationDraw m u ≥ groverMaxRotations then 0
        else hitProb nKey nValue nIterations o form target fuel best (loops + 1) (nextRange nKey m)
          (rotations + rotationDraw m u)

end Verif

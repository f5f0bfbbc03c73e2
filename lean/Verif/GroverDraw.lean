import Verif.PropsGroverCircuit
import Mathlib.MeasureTheory.Integral.IntervalIntegral.Basic
import Mathlib.Analysis.SpecialFunctions.Pow.Real

/-!
# The random numbers of rotations of the Grover optimizer

Models how `GroverOptimizer.solve` draws the number of rotations and enlarges their range, and the probability that a
measurement shows a key below the threshold.  Real numbers stand for floating point numbers.
-/

namespace Verif

open Finset

/-- `int(np.ceil(algorithm_globals.random.uniform(0, m - 1)))` (`grover_optimizer.py:228`): numpy's `uniform(low, high)`
is `low + (high - low) * u` where `u` is drawn uniformly from `[0, 1)`. -/
noncomputable def rotationDraw (m : Nat) (u : ℝ) : Nat := ⌈0 + ((m : ℝ) - 1 - 0) * u⌉₊

/-- `m = int(np.ceil(min(m * 8 / 7, 2 ** (n_key / 2))))` after a measurement without improvement
(`grover_optimizer.py:275`). -/
noncomputable def nextRange (nKey m : Nat) : Nat := ⌈min ((m : ℝ) * 8 / 7) ((2 : ℝ) ^ ((nKey : ℝ) / 2))⌉₊

/-- The probability that one measurement with range `m` shows a key with a value below the threshold
(`grover_optimizer.py:228-249`): the draw of the number of rotations is uniform, then a basis state of the circuit is
drawn with its probability.  `o` is the objective minus the threshold. -/
noncomputable def improveProb (nKey nValue : Nat) (o : Objective) (form : Unitary (nKey + nValue + 1)) (m : Nat) : ℝ :=
  ∫ u in (0 : ℝ)..1, ∑ k ∈ range (2 ^ nKey) with o.val (pt (keyPt nKey k)) < 0,
    keyProb (groverCircuitState nKey nValue form (rotationDraw m u)) nKey k

/-- The probability that `l` measurements in a row, the first one with range `m`, all show no improvement
(`grover_optimizer.py:224-275`); the draws are independent.  That the search may be stopped before is not considered. -/
noncomputable def missProb (nKey nValue : Nat) (o : Objective) (form : Unitary (nKey + nValue + 1)) : Nat → Nat → ℝ
  | 0, _ => 1
  | l + 1, m => (1 - improveProb nKey nValue o form m) * missProb nKey nValue o form l (nextRange nKey m)

end Verif

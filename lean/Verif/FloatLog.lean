import Verif.IntToBin
import Mathlib.Analysis.SpecialFunctions.Log.Base
import Mathlib.Analysis.Complex.ExponentialBounds
import Mathlib.Data.Int.Log

/-!
# The floating point logarithm in the encoding of integer variables

Models the line `power = int(np.log2(var_range))` of `converters/integer_to_binary.py` with floating point numbers;
`Verif/IntToBin.lean` has the exact logarithm instead.
-/

namespace Verif

/-- `y` is the double precision number nearest to `x` (one of the two in case of a tie): a multiple of the distance of two
neighbouring numbers with 53 digits of the size of `x`.  The smallest (subnormal) and largest numbers are not modelled. -/
def NearestDouble (x y : ℝ) : Prop :=
  if x = 0 then y = 0
  else ∃ m : ℤ, y = m * (2 : ℝ) ^ (Int.log 2 |x| - 52) ∧ |x - y| ≤ (2 : ℝ) ^ (Int.log 2 |x| - 53)

/-- `_convert_var` (`integer_to_binary.py:103-111`): the coefficients for `var_range = r`, an integer, where `log2` is the
floating point value `np.log2(var_range)`.  `int` cuts off the digits after the point; `2 ** i` and the differences of
integers are exact.  `r = 0` is an OverflowError. -/
noncomputable def encodeCoeffsFloat (log2 : ℝ) (r : ℕ) : Except Err (List ℚ) :=
  if r = 0 then .error .overflowError
  else .ok (((List.range ⌊log2⌋₊).map fun i => (2 : ℚ) ^ i) ++ [(r : ℚ) - (2 ^ ⌊log2⌋₊ - 1)])

end Verif

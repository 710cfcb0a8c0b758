import Mathlib.Data.Rat.Floor
import Mathlib.Algebra.Order.Field.Power
import Mathlib.Tactic.Linarith
import Mathlib.Tactic.Positivity
import Mathlib.Tactic.NormNum
import Mathlib.Tactic.Ring
import Mathlib.Tactic.FieldSimp

/-!
# IEEE 754 double arithmetic as used by Python's `float`

Python's `/` on ints and `*` of an int and a float round the exact result to the nearest double,
ties to even. Only nonnegative values of moderate size occur in the modelled code, so overflow,
subnormals, signed zeros and NaN are not modelled: a double is a rational number.
-/

namespace Verif.Float

/-- Python's built-in `round` on a nonnegative number: round half to even.
Used by /repo src/megatron/energon/flavors/webdataset/sharder.py:28 (`round(...)`) and as the
rounding of IEEE 754 "roundTiesToEven". -/
def roundHalfEven (x : ℚ) : ℤ :=
  let f := ⌊x⌋
  if x - f < 1 / 2 then f
  else if 1 / 2 < x - f then f + 1
  else if f % 2 = 0 then f else f + 1

/-- The binary exponent of a positive rational: `2 ^ expo x ≤ x < 2 ^ (expo x + 1)`. -/
def expo (x : ℚ) : ℤ :=
  let l : ℤ := (Nat.log2 x.num.natAbs : ℤ) - (Nat.log2 x.den : ℤ)
  if (2 : ℚ) ^ l ≤ x then l else l - 1

/-- Round a nonnegative rational to the nearest IEEE 754 double (53 bits of precision, ties to
even). Simplification: unbounded exponent range, only nonnegative arguments are meaningful. -/
def fl (x : ℚ) : ℚ :=
  if x ≤ 0 then 0
  else
    let e := expo x - 52
    (roundHalfEven (x / (2 : ℚ) ^ e) : ℚ) * (2 : ℚ) ^ e

/-- Python `a / b` for nonnegative ints (true division). -/
def pyDiv (a b : ℕ) : ℚ := fl ((a : ℚ) / (b : ℚ))

/-- Python `i * x` for a nonnegative int `i` and a float `x`. -/
def pyMul (i : ℕ) (x : ℚ) : ℚ := fl ((i : ℚ) * x)

/-- Python `int(x)` for a nonnegative float: truncation towards zero, i.e. the floor. -/
def pyInt (x : ℚ) : ℕ := ⌊x⌋₊

end Verif.Float

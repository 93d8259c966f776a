import Verif.Basic
import Mathlib.Data.Rat.Floor

/-!
# Model of the arithmetic helpers of `src/ults.cpp`

`TFlt` (`double`, `common.h:8`) is modelled by exact rationals, `TInt` (`int`, `common.h:7`)
by `Int`.  `std::rand ()` is an argument.
-/

namespace Verif.Ults

/-- Conversion `TInt (x)` / `int (x)`: truncation toward zero (value part). -/
def trunc (x : ℚ) : ℤ := if 0 ≤ x then ⌊x⌋ else ⌈x⌉

/-- `int (x)` with the C++ rule that a value outside the range of `int` is undefined. -/
def toInt (x : ℚ) : Res ℤ :=
  if -2147483648 ≤ trunc x ∧ trunc x ≤ 2147483647 then .ok (trunc x) else .ub

/-- `ults.cpp:12-21` `round`, the value for a draw `u = rand () / RAND_MAX`. -/
def roundVal (x u : ℚ) : ℤ :=
  if x - (trunc x : ℚ) > u then trunc x + 1 else trunc x

/-- `ults.cpp:12-21` `round` with the undefined out-of-range conversions (line 16 and lines
18/20). -/
def round (x u : ℚ) : Res ℤ :=
  (toInt x).bind fun n =>
    let floorN : ℚ := n
    if x - floorN > u then toInt (floorN + 1) else toInt floorN

/-- `ults.cpp:23-31` `divide`. -/
def divide (a b : ℚ) : ℚ :=
  if a = 0 then 0 else if b = 0 then 0 else a / b

/-- `ults.cpp:33-39` `mod` (C++ `%` truncates toward zero; `INT_MIN % -1` is undefined). -/
def mod (a b : ℤ) : Res ℤ :=
  if b = 0 then .ok 0
  else if a = -2147483648 ∧ b = -1 then .ub
  else .ok (a.tmod b)

/-- `ults.cpp:75-88` `approximate_equal`. -/
def approxEq (a b p : ℚ) : Bool := decide (|a - b| ≤ p * max |a| |b|)

/-- `ults.cpp:90-94` `approximate_less_than`. -/
def approxLt (a b p : ℚ) : Bool := decide (a + p * max |a| |b| < b)

/-- `ults.cpp:96-116` `round_up_time`. -/
def roundUpTime (t p : ℚ) : Res ℤ :=
  if t < 1 then .ok 1
  else (toInt t).bind fun n =>
    if approxEq t n p then .ok n
    else if n + 1 ≤ 2147483647 then .ok (n + 1) else .ub   -- signed overflow

/-- `ults.cpp:118-130` `round_down_time`. -/
def roundDownTime (t : ℚ) : Res ℤ :=
  if t < 1 then .ok 1 else toInt t

end Verif.Ults

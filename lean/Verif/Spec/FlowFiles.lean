import Verif.Model.FlowFiles
import Verif.Spec.Io

/-!
# What it means that a number or the flows of a path survive (C214, C215)
-/

namespace Verif.FlowF

/-- `y` is `x` up to half a millionth, and is `x` if `x` has at most six decimals. -/
def Close (x y : ℚ) : Prop := |y - x| ≤ 1 / 2000000 ∧ ∀ n : ℤ, x = n / 1000000 → y = x

end Verif.FlowF

import Verif.Model.MTrees
import Verif.Spec.Trees

/-! # Specification vocabulary for the trees of curves of cars and trucks -/

namespace Verif.MNet
open Net Tab

/-- The movements of vehicles of class `b` (trucks: `true`) from some link onto link `l`. -/
def arrived (scalar : ℚ) (s : State) (b : Bool) (l : ℕ) : List Item :=
  (s.log.filter fun e => decide (e.src ≠ none ∧ e.dst = some l ∧ s.truck e.veh = b)).map (itemOf scalar s.vehs)

/-- The number of vehicles of class `b`, of path number `path` and released in assignment interval `dep`, that moved
from another link onto link `l` in the intervals `a`, …, `z - 1`. -/
def entered (s : State) (b : Bool) (l : ℕ) (path dep : ℤ) (a z : ℕ) : ℕ :=
  s.log.countP fun e => decide (e.src ≠ none ∧ e.dst = some l ∧ s.truck e.veh = b ∧ a ≤ e.t ∧ e.t < z ∧
    pathKey (s.vehs e.veh).path = path ∧ (s.vehs e.veh).assign = dep)

end Verif.MNet

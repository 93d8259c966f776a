import Verif.Spec.Net
import Verif.Spec.TravelTime

/-!
# What happened on a link during a loading

The log of a loading lists every movement of a vehicle in order.  The histories of a link read it: one entry per
vehicle, with the end of the interval in which the vehicle entered, or left, the link.
-/

namespace Verif.Net

/-- The vehicles that entered link `l`: one entry per vehicle, in order. -/
def entries (log : List Event) (l : ℕ) : List (ℕ × ℕ) :=
  (log.filter fun e => decide (e.dst = some l)).map fun e => (e.t + 1, 1)

/-- The vehicles that left link `l`: one entry per vehicle, in order. -/
def exits (log : List Event) (l : ℕ) : List (ℕ × ℕ) :=
  (log.filter fun e => decide (e.src = some l)).map fun e => (e.t + 1, 1)

end Verif.Net

import Verif.Spec.MNet
import Verif.Spec.TravelTime

/-!
# What happened on a link with cars and trucks

The log of a loading lists every movement of a vehicle in order.  The histories of a link and a class read it: one
entry per vehicle of the class, with the end of the interval in which the vehicle entered, or left, the link.
-/

namespace Verif.MNet
open Net

/-- The vehicles of class `b` that entered link `l`: one entry per vehicle, in order. -/
def came (truck : ℕ → Bool) (log : List Event) (b : Bool) (l : ℕ) : List (ℕ × ℕ) :=
  (log.filter fun e => decide (e.dst = some l ∧ truck e.veh = b)).map fun e => (e.t + 1, 1)

/-- The vehicles of class `b` that left link `l`: one entry per vehicle, in order. -/
def went (truck : ℕ → Bool) (log : List Event) (b : Bool) (l : ℕ) : List (ℕ × ℕ) :=
  (log.filter fun e => decide (e.src = some l ∧ truck e.veh = b)).map fun e => (e.t + 1, 1)

end Verif.MNet

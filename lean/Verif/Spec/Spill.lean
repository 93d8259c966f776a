import Verif.Model.Spill
import Verif.Spec.MNet

/-! # Vocabulary for spillback -/

namespace Verif.Spill
open MNet

/-- The current attributes of a link. -/
def attrs : MLnk.Link ℕ → MLnk.Args
  | .ctm l => l.args
  | .lq l => l.args
  | .pq l => l.args

/-- Whether a link is a point queue. -/
def pointQueue : MLnk.Link ℕ → Prop
  | .pq _ => True
  | _ => False

/-- The vehicles on link `l` in car equivalents: a truck counts as many cars as the conversion factor of the link
says. -/
def volume (s : State) (l : ℕ) : ℚ :=
  (cls s.truck false (s.on l) : ℚ) + (attrs (s.links l).link).factor * (cls s.truck true (s.on l) : ℚ)

/-- Link `l` holds more than its jam density allows: the car equivalents in flow units per metre exceed the jam density
of its lanes. -/
def Overfull (s : State) (l : ℕ) : Prop :=
  let a := attrs (s.links l).link
  a.holdCar * a.lanes < volume s l / a.scalar / a.length

end Verif.Spill

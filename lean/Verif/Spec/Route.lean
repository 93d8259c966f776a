import Verif.Spec.Net

/-! # Vocabulary for the routes of vehicles -/

namespace Verif.Net

/-- The moves of vehicle `v` in the order in which they happen: from where (none: an origin queue)
to where (none: the queue of a destination node). -/
def movesOf (log : List Event) (v : ℕ) : List (Option ℕ × Option ℕ) :=
  (log.filter fun e => decide (e.veh = v)).map fun e => (e.src, e.dst)

/-- The moves of a vehicle that leaves its origin queue, enters the links `ls` one after the other
and leaves the last one for the queue of a destination node. -/
def legs (ls : List ℕ) : List (Option ℕ × Option ℕ) :=
  (none :: ls.map some).zip (ls.map some ++ [none])

/-- The path table a routing reads, if it has one. -/
def Routing.table : Routing → Option PathTable
  | .fixed pt => some pt
  | .hybrid _ pt => some pt
  | _ => none

end Verif.Net

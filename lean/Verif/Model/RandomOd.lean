import Mathlib.Data.Nat.Notation
import Verif.Basic

/-!
# Model of `MNM_OD_Factory::get_random_od_pair`

`factory.cpp:283-310`.  The maps are lists in an arbitrary order; `rand` is an arbitrary sequence of numbers.  An origin is given with
the destinations in its demand.  `multiclass.cpp:3548-3573`, `multimodal.cpp:3175-3199`, `3201-3226` and `3228-3253` are the same function
for the demand for cars, for the bus and for park-and-ride.
-/

namespace Verif.ROd

/-- `factory.cpp:291-292`, `298-299`, `304-305`: `begin ()`, advanced by `rand () % size ()`; the remainder by zero is undefined. -/
def pickAt {α : Type} (xs : List α) (r : ℕ) : Res α :=
  match xs[r % xs.length]? with
  | some x => .ok x
  | none => .ub

/-- `factory.cpp:289-308` `get_random_od_pair`: draws of an origin are repeated until one with demand comes up (`289-301`), then
a destination is drawn (`303-306`).  The fuel bounds the number of draws of an origin. -/
def randomPair {α β : Type} (origins : List (α × List β)) (rand : ℕ → ℕ) : ℕ → ℕ → Res (α × β)
  | 0, _ => .diverge
  | fuel + 1, i => (pickAt origins (rand i)).bind fun o =>
    if o.2.isEmpty then randomPair origins rand fuel (i + 1)
    else (pickAt o.2 (rand (i + 1))).bind fun d => .ok (o.1, d)

end Verif.ROd

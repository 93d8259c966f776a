import Verif.Model.MLink
import Verif.Spec.Link

/-!
# Vocabulary for the properties of two-class links

As for the single-class links (`Verif.Spec.Link`): vehicles arrive at the entrance, vehicles
waiting at the exit depart, the simulator calls `clear_incoming_array` and `evolve`, and the
attributes of the link may be changed (`modify_property`).
-/

namespace Verif.MLnk
open Lnk
variable {V : Type}

/-- Everything that can happen to a two-class link. -/
inductive Op (V : Type) where
  | arrive (v : V)
  | depart (p : V → Bool)
  | clear
  | evolve (u : Draws)
  | modify (a : Args)

/-- One event; the second component lists the departing vehicles. -/
def Link.step (truck hasNext : V → Bool) (l : Link V) : Op V → Res (Link V × List V)
  | .arrive v => .ok (l.setIncoming (l.incoming ++ [v]), [])
  | .depart p =>
    match removeFirst p l.finished with
    | none => .ok (l, [])
    | some (v, rest) => .ok (l.setFinished rest, [v])
  | .clear => (l.clear truck).bind fun l' => .ok (l', [])
  | .evolve u => (l.evolve truck hasNext u).bind fun l' => .ok (l', [])
  | .modify a => (l.modify a).bind fun l' => .ok (l', [])

/-- A history of events; the second component lists the departures in order. -/
def Link.run (truck hasNext : V → Bool) (l : Link V) : List (Op V) → Res (Link V × List V)
  | [] => .ok (l, [])
  | op :: ops =>
    (l.step truck hasNext op).bind fun r =>
      (r.1.run truck hasNext ops).bind fun r' => .ok (r'.1, r.2 ++ r'.2)

/-- The vehicles that arrive during a history, in order. -/
def arrivals (ops : List (Op V)) : List V :=
  ops.filterMap fun op =>
    match op with
    | .arrive v => some v
    | _ => none

/-- The event is an `evolve`. -/
def Op.isEvolve : Op V → Bool
  | .evolve _ => true
  | _ => false

/-- Vehicle-intervals spent waiting at the exit during a history: after every `evolve`, each
vehicle of `cls` in the exit queue counts one. -/
def waited (cls truck hasNext : V → Bool) : Link V → List (Op V) → ℕ
  | _, [] => 0
  | l, op :: ops =>
    match l.step truck hasNext op with
    | .ok r =>
      (if op.isEvolve then r.1.finished.countP cls else 0) + waited cls truck hasNext r.1 ops
    | _ => 0

/-- A triangular fundamental diagram: `cap` is reached at the critical density both on the
free-flow side and on the congested side, and the critical density lies below the jam density. -/
structure Triangle (cap ffs wave crit hold : ℚ) : Prop where
  free : cap = ffs * crit
  congested : cap = wave * (hold - crit)
  crit_pos : 0 < crit
  crit_lt : crit < hold

/-- `d` describes a road of `a.lanes` lanes with the configured speeds, jam densities `hc`, `ht` and
capacities `qc`, `qt` per lane; a capacity is raised, if need be, to one (unscaled) vehicle per
interval. -/
structure RoadOf (a : Args) (hc ht qc qt : ℚ) (d : Diagram) : Prop where
  capCar : d.capCar = max (a.lanes * qc) (1 / (a.unit * a.scalar))
  capTruck : d.capTruck = max (a.lanes * qt) (1 / (a.unit * a.scalar))
  holdCar : d.holdCar = a.lanes * hc
  holdTruck : d.holdTruck = a.lanes * ht
  ffsCar : d.ffsCar = a.ffsCar
  ffsTruck : d.ffsTruck = a.ffsTruck
  car : Triangle d.capCar d.ffsCar d.waveCar d.critCar d.holdCar
  truck : Triangle d.capTruck d.ffsTruck d.waveTruck d.critTruck d.holdTruck
  meet : d.rho1N * (d.ffsTruck + d.waveCar) = d.holdCar * d.waveCar

end Verif.MLnk

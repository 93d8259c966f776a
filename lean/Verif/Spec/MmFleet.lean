import Verif.Model.MmFleet
import Verif.Spec.Tour

/-! # What the vehicles of a multimodal loading should be -/

namespace Verif.MmF

/-- Attributes every vehicle has that is released by origin `o` at `ts`.  Only buses have a route; no bus is adaptive and
no truck and no bus is park-and-ride. -/
structure Released (o : Org) (ts : ℕ) (v : Veh) : Prop where
  origin : v.origin = o.id
  start : v.start = ts
  assign : v.assign = (ts / o.freq : ℕ)
  capacity : v.capacity = if v.kind = .bus then o.capacity else 1
  wait : v.wait = if v.kind = .pnr then o.wait else 0
  static : v.kind = .bus → v.adaptive = false
  route : v.route ≠ -1 → v.kind = .bus
  pnr : v.pnr = true → v.kind = .pnr

/-- The demand of an interval is known and not negative. -/
structure Demand.Ok (dm : Demand) (a : ℕ) : Prop where
  car : ∀ p ∈ dm.car, ∀ x, p.2[a]? = some x → 0 ≤ x
  truck : ∀ p ∈ dm.truck, ∀ x, p.2[a]? = some x → 0 ≤ x
  pnr : ∀ p ∈ dm.pnr, ∀ x, p.2[a]? = some x → 0 ≤ x
  bus : ∀ p ∈ dm.bus, ∀ q ∈ p.2, ∀ x, q.2[a]? = some x → 0 ≤ x
  route : ∀ p ∈ dm.bus, ∀ q ∈ p.2, q.1 ≠ -1
  carKeys : (dm.car.map (·.1)).Nodup
  truckKeys : (dm.truck.map (·.1)).Nodup
  pnrKeys : (dm.pnr.map (·.1)).Nodup
  busKeys : (dm.bus.map (·.1)).Nodup
  routeKeys : ∀ p ∈ dm.bus, (p.2.map (·.1)).Nodup

/-- The number of vehicles of a kind for a destination. -/
def toDest (new : List Veh) (k : Kind) (d : ℕ) : ℕ := new.countP fun v => v.kind == k && v.dest == d

/-- The number of buses of a route for a destination. -/
def onRoute (new : List Veh) (d : ℕ) (ρ : ℤ) : ℕ :=
  new.countP fun v => v.kind == .bus && v.dest == d && v.route == ρ

/-- Of the demand `l` of one kind, in interval `a`, with the draws `u` for rounding, `n` vehicles per destination. -/
def Served (l : List (ℕ × List ℚ)) (a : ℕ) (scalar : ℚ) (u : ℕ → ℚ) (n : ℕ → ℕ) : Prop :=
  (∀ i d dem, l[i]? = some (d, dem) → ∃ x, dem[a]? = some x ∧ Tour.Rounded (x * scalar) (u i) (n d)) ∧
    ∀ d, d ∉ l.map (·.1) → n d = 0

/-- With share `q` of adaptive drivers and draw `r` (between 0 and 1): adaptive or not. -/
def AdaptiveBy (q r : ℚ) (b : Bool) : Prop := b = true ↔ 0 < q ∧ r ≤ q

/-! ## Histories of the fleet -/

/-- A vehicle is made (its number is given by the factory) or finishes at `t`. -/
inductive Op where
  | make (v : Veh)
  | finish (id : ℕ) (t : ℤ)

/-- One operation. -/
def Fleet.op (f : Fleet) : Op → Res Fleet
  | .make v => .ok (f.make { v with id := f.num + 1 })
  | .finish id t => f.remove id t

/-- A history. -/
def Fleet.run (ops : List Op) : Res Fleet := Res.foldlM Fleet.op Fleet.empty ops

/-- The vehicles ever made: the `n`-th one has number `n`. -/
def madeFrom : ℕ → List Op → List Veh
  | _, [] => []
  | n, .make v :: ops => { v with id := n + 1 } :: madeFrom (n + 1) ops
  | n, .finish _ _ :: ops => madeFrom n ops

def made (ops : List Op) : List Veh := madeFrom 0 ops

/-- When vehicle `id` has finished, if it has. -/
def finishOf (ops : List Op) (id : ℕ) : Option ℤ :=
  ops.findSome? fun o =>
    match o with
    | .finish i t => if i = id then some t else none
    | .make _ => none

/-- How long a vehicle has been under way until it finished, or until now. -/
def spent (ops : List Op) (cur : ℤ) (v : Veh) : ℤ := (finishOf ops v.id).getD cur - v.start

/-- Number of vehicles of a kind ever made. -/
def numKind (ops : List Op) (k : Kind) : ℕ := (made ops).countP fun v => v.kind == k

/-- Number of vehicles of a kind that have finished. -/
def doneKind (ops : List Op) (k : Kind) : ℕ :=
  (made ops).countP fun v => v.kind == k && (finishOf ops v.id).isSome

/-- Hours spent by the vehicles of some kinds. -/
def hours (ops : List Op) (unit : ℚ) (cur : ℤ) (P : Kind → Bool) : ℚ :=
  ((((made ops).filter fun v => P v.kind).map (spent ops cur)).sum : ℤ) * unit / 3600

/-! ## Minutes -/

/-- The buses of one interval of `n` minutes: rounded down in each minute. -/
def busesIn (row : List ℚ) (scalar : ℚ) (n j : ℕ) : ℤ :=
  (((row.drop (n * j)).take n).map fun x => ⌊x * scalar⌋).sum

/-! ## Trips -/

/-- The routing that is for a kind of vehicles. -/
def routerOf : Kind → Router
  | .car => .car
  | .pnr => .pnr
  | .truck => .truck
  | .bus => .bus

/-- The path `π` to node `g`: its links exist, its last one ends at `g` and no other one does, and links that follow each
other differ. -/
structure GoodPath (w : Roads) (π : List ℤ) (g : ℤ) : Prop where
  nonempty : π ≠ []
  links : ∀ l ∈ π, l ≠ -1 ∧ ∃ n, w.toNode l = some n
  last : ∀ i l, π[i]? = some l → (w.toNode l = some g ↔ i + 1 = π.length)
  differ : ∀ i l m, π[i]? = some l → π[i + 1]? = some m → l ≠ m

end Verif.MmF

namespace Verif.MmF

/-- Following the tree towards the parking lot at `g` from node `n`, through nodes that are no destinations, takes the
links `ls` and ends at `g`. -/
inductive LeadsTo (c : Lots) (toNode : ℤ → ℤ) (g : ℤ) : ℤ → List ℤ → Prop
  | here : c.isDest g = some true → LeadsTo c toNode g g []
  | step {n l : ℤ} {ls : List ℤ} : n ≠ g → c.isDest n = none → c.tree g n = some l → LeadsTo c toNode g (toNode l) ls →
      LeadsTo c toNode g n (l :: ls)

end Verif.MmF

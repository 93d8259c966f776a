import Verif.Model.Tour
import Mathlib.Algebra.Order.Floor.Ring

/-! # What tours should do -/

namespace Verif.Tour

/-- Input from the files: the tours of an origin begin there, and are not empty. -/
structure Cfg.Wf (c : Cfg) : Prop where
  tours : ∀ o, ∀ t ∈ (c.origin o).tours, ∃ d rest, t.1 = (o, d) :: rest

/-- Shuffles are permutations, and batteries stay for roadside charging or not. -/
structure StepOracle.Ok (o : StepOracle) : Prop where
  shuffle : ∀ i l, ((o.release i).shuffle l).Perm l
  ev : ∀ v e, (o.around.ev v e).roadside = e.roadside

/-- The destination a tour ends at. -/
def Ends (sq : List (ℕ × ℕ)) (d : ℕ) : Prop := ∃ p, sq.getLast? = some p ∧ p.2 = d

/-- The vehicle has been made. -/
def State.Made (s : State) (v : ℕ) : Prop := 1 ≤ v ∧ v ≤ s.num

/-- The vehicle is under way. -/
def State.UnderWay (s : State) (v : ℕ) : Prop := v ∈ s.map

/-- The numbers of vehicles made so far with a property. -/
def State.count (s : State) (P : Veh → Bool) : ℕ := (List.range s.num).countP fun i => P (s.veh (i + 1))

/-- The vehicle charges, but not at the roadside. -/
def Veh.elsewhere (v : Veh) : Bool :=
  match v.ev with
  | some e => !e.roadside
  | none => false

/-- Rounded down or, when the draw is below the fractional part, up. -/
def Rounded (x u : ℚ) (n : ℕ) : Prop :=
  ((n : ℤ) = ⌊x⌋ ∧ Int.fract x ≤ u) ∨ ((n : ℤ) = ⌊x⌋ + 1 ∧ u < Int.fract x)

/-- The vehicle with number `id` has just been released: its attributes and, if it is electrified, its battery.  It is
electrified if its label is the one of electrified vehicles; such a vehicle uses roadside charging if its draw is within
the share of the origin. -/
structure Released (c : Cfg) (oid : ℕ) (orc : ReleaseOracle) (ts id : ℕ) (v : Veh) : Prop where
  start : v.start = ts
  finish : v.finish = -1
  origin : v.origin = oid
  assign : v.assign = ts / (c.origin oid).freq
  label : v.label = Net.generateLabel (c.origin oid).labels (orc.l id)
  index : v.index = 0
  waiting : v.waiting = 0
  electrified : v.ev.isSome ↔ (c.evLabel = some v.label ∧ 0 ≤ v.label)
  battery : ∀ e, v.ev = some e → e.electrified = true ∧ e.delivery = v.seq.isSome ∧ e.full = c.full ∧ e.miles = 0 ∧
    e.since = 0 ∧ (e.roadside = true ↔ orc.road id ≤ (c.origin oid).roadside) ∧
    e.range = if e.roadside then c.rangeRoadside else c.rangeOther
  adaptive : v.adaptive = true ↔ orc.r id ≤ c.ratio ∨
    ∃ e, v.ev = some e ∧ e.roadside = true ∧ (v.seq = none ∨ c.rangeRoadside ≤ c.full / 10)

/-- Who comes to the point queue: interval, vehicle and waiting time. -/
def comes : List Coming → ℕ → List (ℕ × ℕ × ℤ)
  | [], _ => []
  | x :: xs, ts => x.ins.map (fun p => (ts, p.1, p.2)) ++ comes xs (ts + 1)

/-- An empty point queue. -/
def Pq.empty (supply : ℚ) (atOrigin : Bool) (delivery : ℕ → Bool) : Pq :=
  { supply := supply, atOrigin := atOrigin, delivery := delivery, incoming := [], wait := fun _ => 0, queue := [],
    log := [] }

/-- How long a vehicle that comes with waiting time `w` has to wait. -/
def Pq.must (l : Pq) (v : ℕ) (w : ℤ) : ℕ := if l.atOrigin && l.delivery v then w.toNat else 0

end Verif.Tour

import Verif.Model.Charge

/-!
# Specification of charging stations

A charging station is a number of slots with one queue each, first in, first out.  Charging takes
the same time for every vehicle, and one more interval passes before the next vehicle of the queue
is connected.
-/

namespace Verif.Chg

/-- When vehicles leave a slot that is free from interval `free` on: the vehicles are given with the
intervals in which they come, first one first.  Each is connected when it has come and the slot is
free, leaves `time` intervals later, and the slot is free again in the interval after that. -/
def schedule (time : ℕ) : ℕ → List (ℕ × ℕ) → List (ℕ × ℕ)
  | _, [] => []
  | free, (a, p) :: rest =>
    (max a free + time, p) :: schedule time (max a free + time + 1) rest

/-- What happened at slot `i`, in order: intervals and vehicles. -/
def atSlot (L : List (ℕ × ℕ × ℕ)) (i : ℕ) : List (ℕ × ℕ) :=
  (L.filter fun x => decide (x.2.2 = i)).map fun x => (x.1, x.2.1)

/-- The number of events at slot `i` before interval `t`. -/
def before (L : List (ℕ × ℕ × ℕ)) (i t : ℕ) : ℕ := L.countP fun x => decide (x.2.2 = i ∧ x.1 < t)

/-- The number of vehicles in the queue of slot `i` when the vehicles `came` have joined queues and no vehicle has
left since the start of interval `t`. -/
def State.ahead (s : State) (came : List (ℕ × ℕ × ℕ)) (i t : ℕ) : ℤ :=
  (came.countP fun x => decide (x.2.2 = i) : ℕ) - (before s.leaves i t : ℕ)

/-- Every vehicle joins the first one of the shortest queues. -/
def Fair (c : Cfg) (s : State) : Prop :=
  ∀ came t p i rest, s.joins = came ++ (t, p, i) :: rest → i < c.queues ∧
    ∀ j < c.queues, s.ahead came i t ≤ s.ahead came j t ∧ (j < i → s.ahead came i t < s.ahead came j t)

/-- The number of vehicles in the queue of slot `i` at the start of interval `t`. -/
def State.waiting (s : State) (i t : ℕ) : ℤ := (before s.joins i t : ℕ) - (before s.leaves i t : ℕ)

/-- The vehicles at the ends of the links that lead to the station and in its queues. -/
def State.there (s : State) (p : ℕ) : Prop := (∃ q ∈ s.pool, p ∈ q) ∨ ∃ l, p ∈ s.finished l

/-- What the rest of the network does makes sense: vehicles that reach the ends of links are
different ones and not at the station already, the links lead to the station, and the timers of the
vehicles are not running (`charge` resets them, so that they do not run outside of stations). -/
structure Around.Ok (c : Cfg) (s : State) (a : Around) : Prop where
  order : a.order.Perm c.inLinks
  nodup : (a.arrive.map fun x => x.2.1).Nodup
  away : ∀ x ∈ a.arrive, ¬ s.there x.2.1
  links : ∀ x ∈ a.arrive, x.1 ∈ c.inLinks
  timer : ∀ x ∈ a.arrive, x.2.2.timer ≤ 0

/-- `Around.Ok` in every interval of a run. -/
def Ok (c : Cfg) : List Around → ℕ → State → Prop
  | [], _, _ => True
  | a :: as, ts, s => a.Ok c s ∧ ∀ s', evolve c a.order ts (s.around a) = .ok s' → Ok c as (ts + 1) s'

/-- The vehicles that come to the station, with intervals: within an interval link by link. -/
def arrivals : List Around → ℕ → List (ℕ × ℕ)
  | [], _ => []
  | a :: as, t =>
    (a.order.flatMap fun l => (a.arrive.filter fun x => decide (x.1 = l)).map fun x => (t, x.2.1)) ++
      arrivals as (t + 1)

/-- A vehicle that was routed to the station. -/
structure Ev.Routed (c : Cfg) (v : Ev) : Prop where
  electrified : v.electrified = true
  adaptive : v.adaptive = true
  station : v.station = some c.id
  next : ∃ o ∈ c.outLinks, v.next = some o

end Verif.Chg

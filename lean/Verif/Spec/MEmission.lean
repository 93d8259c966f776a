import Verif.Model.MEmission
import Verif.Spec.MHistory

/-!
# What the emission report of a loading with cars and trucks is about

`false` stands for cars and `true` for trucks.
-/

namespace Verif.MEmis
open MNet Net

/-- The time, in intervals, that vehicles of class `b` have spent on link `l` from their entrance until the
end of interval `T - 1` or until they left. -/
def spent (truck : ℕ → Bool) (log : List Event) (T : ℕ) (b : Bool) (l : ℕ) : ℚ :=
  ((log.filter fun e => decide (e.dst = some l ∧ truck e.veh = b)).map fun e => (T : ℚ) - e.t).sum -
  ((log.filter fun e => decide (e.src = some l ∧ truck e.veh = b)).map fun e => (T : ℚ) - e.t).sum

/-- The vehicles of class `b` that have entered one of the links `reg`, one after the other, once for every
entrance. -/
def entered (truck : ℕ → Bool) (log : List Event) (reg : List ℕ) (b : Bool) : List ℕ :=
  (log.filter fun e => decide ((∃ l ∈ reg, e.dst = some l) ∧ truck e.veh = b)).map Event.veh

/-- The vehicles of class `b` on a link, those waiting at its entrance aside. -/
def onRoad (truck : ℕ → Bool) (b : Bool) (l : MLnk.Link ℕ) : ℕ := cls truck b (l.finished ++ road l)

/-- The speed on a link, in metres per second, when its travel time is `tt`. -/
def speed (l : MLnk.Link ℕ) (tt : ℚ) : ℚ := length l / tt

/-- The miles (of 1600 metres) driven in one interval by the vehicles of class `b` on link `l`. -/
def miles (unit : ℚ) (truck : ℕ → Bool) (b : Bool) (l : MLnk.Link ℕ) : ℚ :=
  match l.ttCar l.flow with
  | none => 0
  | some tt => speed l tt * unit / 1600 * (onRoad truck b l / l.scalar)

/-- All totals of the first report are at most those of the second. -/
def le (a b : Emis.Totals) : Prop :=
  a.fuel ≤ b.fuel ∧ a.co2 ≤ b.co2 ∧ a.hc ≤ b.hc ∧ a.co ≤ b.co ∧ a.nox ≤ b.nox ∧ a.vmt ≤ b.vmt ∧ a.vmtEv ≤ b.vmtEv

/-- The vehicles of class `b` on a link, those waiting at its entrance aside, that are electric or are not. -/
def onRoadEv (truck : ℕ → Bool) (label : ℕ → ℤ) (ev : ℤ) (b electric : Bool) (l : MLnk.Link ℕ) : ℕ :=
  (l.finished ++ road l).countP fun v => decide (truck v = b ∧ (label v = ev ↔ electric = true))

/-- The distance driven on a link in one interval, in miles. -/
def distance (unit : ℚ) (l : MLnk.Link ℕ) : ℚ :=
  match l.ttCar l.flow with
  | none => 0
  | some tt => speed l tt * unit / 1600

/-- The speed on a link in miles per hour, or the nearest one between 5 and 65. -/
def mph (l : MLnk.Link ℕ) : ℚ :=
  match l.ttCar l.flow with
  | none => 5
  | some tt => min 65 (max 5 (speed l tt / 1600 * 3600))

/-- How much more than a car a truck emits, below 25 miles per hour, from 25 to less than 55 and above. -/
def times (b : Bool) (slow mid fast v : ℚ) : ℚ :=
  match b with
  | false => 1
  | true => if 55 ≤ v then fast else if 25 ≤ v then mid else slow

/-- What vehicles of class `b` on a link add to the totals in one interval; `n`: those with an engine,
`m`: electric ones, both in flow units. -/
def gain (unit : ℚ) (b : Bool) (l : MLnk.Link ℕ) (n m : ℚ) : Emis.Totals where
  fuel := times b 1.53 1.50 1.55 (mph l) * (Emis.fuelRate (mph l)).getD 0 * (distance unit l * n)
  co2 := times b 1.53 1.50 1.55 (mph l) * (Emis.co2Rate (mph l)).getD 0 * (distance unit l * n)
  hc := times b 1.87 2.41 2.01 (mph l) * Emis.hcRate (mph l) * (distance unit l * n)
  co := times b 3.97 2.67 5.01 (mph l) * Emis.coRate (mph l) * (distance unit l * n)
  nox := times b 7.32 6.03 5.75 (mph l) * Emis.noxRate (mph l) * (distance unit l * n)
  vmt := distance unit l * (n + m)
  vmtEv := distance unit l * m

/-- Addition of totals. -/
def plus (a b : Emis.Totals) : Emis.Totals :=
  ⟨a.fuel + b.fuel, a.co2 + b.co2, a.hc + b.hc, a.co + b.co, a.nox + b.nox, a.vmt + b.vmt, a.vmtEv + b.vmtEv⟩

end Verif.MEmis

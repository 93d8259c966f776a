import Verif.Model.Record
import Verif.Spec.MHistory

/-! # Vocabulary for the records of a loading with cars and trucks -/

namespace Verif.Rec
open Ults Curve MNet
open Net (Event)

/-- The record of the queue of class `x` on link `l`; `true` stands for trucks. -/
def Books.queueOf (b : Books) (x : Bool) (l : ℕ) : List ℕ := if x then b.queueTruck l else b.queueCar l

/-- The waiting time that link `l` has on record for class `x` (vehicle-seconds in flow units). -/
def waitOf (s : State) (x : Bool) (l : ℕ) : ℚ :=
  if x then (s.links l).link.com.waitTruck else (s.links l).link.com.waitCar

/-- The vehicles of class `x` that entered link `l`. -/
def entered (s : State) (x : Bool) (l : ℕ) : ℕ :=
  s.log.countP fun e => decide (e.dst = some l ∧ s.truck e.veh = x)

/-- The vehicles of class `x` that left link `l`. -/
def left (s : State) (x : Bool) (l : ℕ) : ℕ :=
  s.log.countP fun e => decide (e.src = some l ∧ s.truck e.veh = x)

/-- The vehicles of class `x` that left link `l` in interval `t`. -/
def leftIn (s : State) (x : Bool) (l t : ℕ) : ℕ :=
  s.log.countP fun e => decide (e.src = some l ∧ s.truck e.veh = x ∧ e.t = t)

/-- All links use the flow scalar of the network and the given length of an interval in seconds. -/
def Uniform (c : Cfg) (unit : ℚ) (s : State) : Prop :=
  ∀ l ∈ c.net.linkIds, ∃ k a, MLnk.mkLink k a = .ok (s.links l).link ∧ a.scalar = c.net.scalar ∧ a.unit = unit

end Verif.Rec

import Verif.Model.MNet
import Verif.Spec.Net
import Verif.Spec.MLink

/-! # Vocabulary for the properties of networks with cars and trucks

The boolean `b` always means: `false` for cars, `true` for trucks. -/

namespace Verif.MNet
open Ults Curve Net

/-- The number of vehicles of class `b` in a list. -/
def cls (truck : ℕ → Bool) (b : Bool) (l : List ℕ) : ℕ := l.countP fun v => truck v == b

/-- The vehicles waiting at the exit of link `l`, longest waiting first. -/
def State.fin (s : State) (l : ℕ) : List ℕ := (s.links l).link.finished

/-- The vehicles waiting at the entrance of link `l`. -/
def State.inc (s : State) (l : ℕ) : List ℕ := (s.links l).link.incoming

/-- The travelling vehicles of a link, in no particular order. -/
def road (l : MLnk.Link ℕ) : List ℕ :=
  match l with
  | .ctm x => (x.cells.map fun c => c.queueCar ++ c.queueTruck).flatten
  | .lq x => x.bufCar ++ x.queueCar ++ x.bufTruck ++ x.queueTruck
  | .pq x => x.pool.map Prod.fst

/-- All vehicles on link `l`, in no particular order. -/
def State.on (s : State) (l : ℕ) : List ℕ := s.fin l ++ road (s.links l).link ++ s.inc l

/-- All vehicles in the network, place by place: the queues of the origin and destination nodes and
the links. -/
def State.places (c : Cfg) (s : State) : List ℕ :=
  c.net.nodeIds.flatMap s.queue ++ c.net.linkIds.flatMap s.on

/-- The curve of vehicles of class `b` entering a link. -/
def LinkSt.nIn (l : LinkSt) (b : Bool) : Option Curve := if b then l.nInTruck else l.nInCar

/-- The curve of vehicles of class `b` leaving a link. -/
def LinkSt.nOut (l : LinkSt) (b : Bool) : Option Curve := if b then l.nOutTruck else l.nOutCar

/-- Released vehicles of a class. -/
def State.num (s : State) (b : Bool) : ℕ := if b then s.numTruck else s.numCar

/-- Vehicles of a class under way. -/
def State.under (s : State) (b : Bool) : ℤ := if b then s.enrouteTruck else s.enrouteCar

/-- Finished vehicles of a class. -/
def State.done (s : State) (b : Bool) : ℕ := if b then s.finishedTruck else s.finishedCar

/-- Total travel time of the finished vehicles of a class. -/
def State.time (s : State) (b : Bool) : ℚ := if b then s.timeTruck else s.timeCar

/-- The vehicles that have left the network. -/
def State.gone (s : State) : List ℕ :=
  (List.range' 1 s.numVeh).filter fun v => decide (v ∉ s.vehMap)

/-- The vehicles waiting at the exit of `i` for link `o`, longest waiting first. -/
def State.waiting (s : State) (i o : ℕ) : List ℕ :=
  (s.fin i).filter fun v => decide ((s.vehs v).next = some o)

/-- The vehicles in the queue of an origin node that are bound for link `o`. -/
def State.queued (s : State) (node o : ℕ) : List ℕ :=
  (s.queue node).filter fun v => decide ((s.vehs v).next = some o)

/-- The car equivalents of some vehicles: a truck counts `factor`, a car 1. -/
def load (factor : ℚ) (truck : ℕ → Bool) (l : List ℕ) : ℚ :=
  (l.map fun v => if truck v then factor else 1).sum

/-- The share of a demand `d` when the demands for an exit add up to `total` and the exit can take
`cap`: all of it if there is room for everybody, and otherwise a part in proportion to the demand. -/
def share (d total cap : ℚ) : ℚ := if total = 0 then 0 else d * min total cap / total

/-- Nothing but the entrance and exit queues and the curves of links, the current links of vehicles
and the log differs between the two states. -/
structure OnlyMoves (s s' : State) : Prop where
  rest : s' = { s with links := s'.links, vehs := s'.vehs, log := s'.log }
  veh : ∀ v, { s'.vehs v with cur := none } = { s.vehs v with cur := none }
  link : ∀ l, (s'.links l).link = ((s.links l).link.setFinished (s'.fin l)).setIncoming (s'.inc l)

/-- As `OnlyMoves`, and the queues of nodes may differ, too. -/
def OnlyQueues (s s' : State) : Prop := OnlyMoves { s with queue := s'.queue } s'

/-- What is required of the random choices of an interval: shuffles are permutations. -/
structure StepOracle.Ok (c : Cfg) (o : StepOracle) : Prop where
  release : ∀ oid l, ((o.release oid).shuffle l).Perm l
  order : ∀ n k, (o.order n k).Perm (List.range (c.net.node n).ins.length)

/-- The state before loading: every link fresh from the factory, with all four curves or without. -/
def Fresh (s : State) : Prop :=
  ∃ links : ℕ → LinkSt, s = State.init links ∧
    ∀ l, (∃ k a, MLnk.mkLink k a = .ok (links l).link) ∧ ∀ b,
      (((links l).nIn b = none ∧ (links l).nOut b = none) ∨
       ((links l).nIn b = some install ∧ (links l).nOut b = some install))

end Verif.MNet

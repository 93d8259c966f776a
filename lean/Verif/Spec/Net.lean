import Verif.Model.Net
import Verif.Spec.Link

/-! # Vocabulary for the node and network properties -/

namespace Verif.Net
open Ults Curve Lnk

/-- The vehicles waiting at the exit of link `l`, longest waiting first. -/
def State.fin (s : State) (l : ℕ) : List ℕ := (s.links l).link.finished

/-- The vehicles waiting at the entrance of link `l`. -/
def State.inc (s : State) (l : ℕ) : List ℕ := (s.links l).link.incoming

/-- The vehicles waiting at the exit of `i` for link `o`, longest waiting first. -/
def State.waiting (s : State) (i o : ℕ) : List ℕ :=
  (s.fin i).filter fun v => decide ((s.vehs v).next = some o)

/-- Nothing but the queues at nodes, the entrance and exit queues and the curves of links, the
current links of vehicles and the log differs between the two states. -/
structure Frame (s s' : State) : Prop where
  next : ∀ v, (s'.vehs v).next = (s.vehs v).next
  veh : ∀ v, { s'.vehs v with cur := none } = { s.vehs v with cur := none }
  link : ∀ l, (s'.links l).link = ((s.links l).link.setFinished (s'.fin l)).setIncoming (s'.inc l)
  factory : s'.numVeh = s.numVeh ∧ s'.enroute = s.enroute ∧ s'.finished = s.finished ∧
    s'.totalTime = s.totalTime ∧ s'.vehMap = s.vehMap
  tracker : s'.tracker = s.tracker

/-- As `Frame`, and the queues at nodes do not differ either. -/
structure OnlyMoves (s s' : State) : Prop extends Frame s s' where
  queue : s'.queue = s.queue

/-- A link has both cumulative curves or none (they are installed together, `dlink.cpp:64-80`). -/
def BothCurves (s : State) (l : ℕ) : Prop := (s.links l).nIn.isSome = (s.links l).nOut.isSome

/-- What a curve that counts the passage of `n` vehicles in interval `ts` must become: nothing
changes when nobody passes or when no curve is installed, otherwise the `n` vehicles are recorded,
in flow units, at the end of the interval. -/
def Recorded (scalar : ℚ) (ts : ℕ) (n : ℤ) (c c' : Option Curve) : Prop :=
  if 0 < n then
    match c with
    | none => c' = none
    | some k => ∃ k', addIncrement k ((ts : ℚ) + 1, n / scalar) = .ok k' ∧ c' = some k'
  else c' = c

/-- A curve to which a record at time `t` can be added. -/
def CurveReady (t : ℚ) : Option Curve → Prop
  | none => True
  | some c => ∃ b, c.getLast? = some b ∧ b.1 ≤ t

/-- The vehicles in the queue of an origin node that are bound for link `o`. -/
def State.queued (s : State) (node o : ℕ) : List ℕ :=
  (s.queue node).filter fun v => decide ((s.vehs v).next = some o)

/-! ## Whole networks -/

/-- The entrances of a node. -/
def Node.ins : Node → List ℕ
  | .origin _ => []
  | .dest ins => ins
  | .fwj ins _ => ins
  | .grj ins _ => ins

/-- The exits of a node. -/
def Node.outs : Node → List ℕ
  | .origin outs => outs
  | .dest _ => []
  | .fwj _ outs => outs
  | .grj _ outs => outs

/-- What the builders guarantee of every network: the maps of links and nodes have distinct keys,
nodes refer to existing links and list each once, and origins and destinations sit on origin and
destination nodes of the network. -/
structure Cfg.Ok (c : Cfg) : Prop where
  links : c.linkIds.Nodup
  nodes : c.nodeIds.Nodup
  ins : ∀ n ∈ c.nodeIds, (c.node n).ins.Nodup ∧ ∀ l ∈ (c.node n).ins, l ∈ c.linkIds
  outs : ∀ n ∈ c.nodeIds, (c.node n).outs.Nodup ∧ ∀ l ∈ (c.node n).outs, l ∈ c.linkIds
  origins : ∀ o ∈ c.originIds, (c.origin o).node ∈ c.nodeIds ∧
    ∃ outs, c.node (c.origin o).node = .origin outs
  dests : ∀ d ∈ c.destIds, c.destNode d ∈ c.nodeIds ∧ ∃ ins, c.node (c.destNode d) = .dest ins

/-- What is required of the random choices of an interval: shuffles are permutations and the draws of
nodes are not negative. -/
structure StepOracle.Ok (c : Cfg) (o : StepOracle) : Prop where
  release : ∀ oid l, ((o.release oid).shuffle l).Perm l
  order : ∀ n k, ((o.node n).order k).Perm (List.range (c.node n).ins.length)
  draw : ∀ n i j, 0 ≤ (o.node n).u i j

/-- All vehicles on a link. -/
def State.on (s : State) (l : ℕ) : List ℕ := (s.links l).link.holds

/-- All vehicles in the network, place by place: the queues of the origin and destination nodes and
the links. -/
def State.places (c : Cfg) (s : State) : List ℕ := c.nodeIds.flatMap s.queue ++ c.linkIds.flatMap s.on

/-- The state before loading: every link fresh from the factory, with both curves or without. -/
def Fresh (s : State) : Prop :=
  ∃ links : ℕ → LinkSt, s = State.init links ∧ ∀ l, (∃ k a, mkLink k a = .ok (links l).link) ∧
    (((links l).nIn = none ∧ (links l).nOut = none) ∨
     ((links l).nIn = some install ∧ (links l).nOut = some install))

/-- The last count of a curve. -/
def total (c : Curve) : ℚ := (c.getLast?.map Prod.snd).getD 0

/-! ## The vehicle factory alone -/

/-- A call to the vehicle factory. -/
inductive FactoryOp where
  | make (start : ℤ) (adaptive : Bool) (origin dest : ℕ) (assign label : ℤ)
  | remove (v : ℕ) (del : Bool)

/-- One call; an exception is caught by the caller.  The second component is the ID of the vehicle
made, if any. -/
def FactoryOp.run (s : State) : FactoryOp → State × List ℕ
  | .make st ad o d a l =>
    let s' := s.makeVeh st ad o d a l
    (s', s'.vehMap.drop s.vehMap.length)
  | .remove v del => ((s.removeFinished v del).stateOr s, [])

/-- A history of calls with the IDs made, in order. -/
def runFactory : State → List FactoryOp → State × List ℕ
  | s, [] => (s, [])
  | s, op :: ops =>
    let r := op.run s
    let r' := runFactory r.1 ops
    (r'.1, r.2 ++ r'.2)

/-- The time at which a vehicle finished, or `now` if it has not. -/
def endTime (s : State) (now : ℕ) (v : ℕ) : ℤ :=
  if (s.vehs v).finish = -1 then now else (s.vehs v).finish

end Verif.Net

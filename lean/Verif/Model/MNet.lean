import Verif.Model.MLink
import Verif.Model.Net

/-!
# Model of a network with cars and trucks

Sources: `multiclass.cpp:2258-3521` (nodes, origins, vehicles, factories), the two-class routing of
`routing.cpp:709-960`, and the loading loop `dta.cpp:538-781`, which `MNM_Dta_Multiclass` inherits.

Conventions are those of `Verif.Model.Net`; what the two models share is taken from there.  Buses
and park-and-ride travellers do not occur in this class of network (`get_bus_route_ID` is -1,
`get_ispnr` is false, `vehicle.h`).  Miles travelled and the trees of cumulative curves are left
out.
-/

namespace Verif.MNet
open Ults Curve Net

/-- A two-class link with the four cumulative curves of `multiclass.h:80-83`, null unless
installed (`multiclass.cpp:83-111`). -/
structure LinkSt where
  link : MLnk.Link ℕ
  nInCar : Option Curve
  nInTruck : Option Curve
  nOutCar : Option Curve
  nOutTruck : Option Curve

/-- What changes during loading.  The fields shared with `Net.State` have the same meaning; `truck`
is `m_class` (`multiclass.cpp:3311-3316`), the last eight are the counters of
`MNM_Veh_Factory_Multiclass` (`multiclass.cpp:3326-3337`).  The two trackers of the two fixed
routings are one map here: each routing only looks up vehicles of its class. -/
structure State where
  links : ℕ → LinkSt
  vehs : ℕ → Veh
  truck : ℕ → Bool
  queue : ℕ → List ℕ
  numVeh : ℕ
  enroute : ℤ
  finished : ℕ
  totalTime : ℚ
  vehMap : List ℕ
  tracker : ℕ → Option (List ℕ)
  log : List Event
  numCar : ℕ
  numTruck : ℕ
  enrouteCar : ℤ
  enrouteTruck : ℤ
  finishedCar : ℕ
  finishedTruck : ℕ
  timeCar : ℚ
  timeTruck : ℚ

/-- `multiclass.h` `MNM_Origin_Multiclass`: the demand of cars and of trucks per destination, in
the iteration order of the maps, optional adaptive ratios, and label ratios.  (Node and frequency
are in `Net.Origin`.) -/
structure Demand where
  car : List (ℕ × (ℕ → ℚ))
  truck : List (ℕ × (ℕ → ℚ))
  ratioCar : ℕ → Option (ℕ → ℚ)
  ratioTruck : ℕ → Option (ℕ → ℚ)
  labelCar : List ℚ
  labelTruck : List ℚ

/-- What does not change during loading: the network, the car equivalent of a truck, the demand of
every origin, and the link attributes to set at the beginning of an interval
(`m_td_link_attribute_table`). -/
structure Cfg where
  net : Net.Cfg
  factor : ℚ
  dem : ℕ → Demand
  attrs : ℕ → List (ℕ × MLnk.Args)

/-! ## Vehicles -/

/-- `multiclass.cpp:3342-3366` `make_veh_multiclass`, with the vehicle set up by the caller. -/
def State.makeVeh (s : State) (cls : Bool) (start : ℤ) (adaptive : Bool) (origin dest : ℕ)
    (assign label : ℤ) : State :=
  { s with
    vehs := upd s.vehs (s.numVeh + 1)
      ⟨start, -1, adaptive, origin, dest, none, none, none, assign, label⟩
    truck := upd s.truck (s.numVeh + 1) cls
    vehMap := s.vehMap ++ [s.numVeh + 1]
    numVeh := s.numVeh + 1
    enroute := s.enroute + 1
    numCar := if cls then s.numCar else s.numCar + 1
    numTruck := if cls then s.numTruck + 1 else s.numTruck
    enrouteCar := if cls then s.enrouteCar else s.enrouteCar + 1
    enrouteTruck := if cls then s.enrouteTruck + 1 else s.enrouteTruck }

/-- `multiclass.cpp:3369-3391` `remove_finished_veh`: the counters of the class, then
`factory.cpp:41-67`. -/
def State.removeFinished (s : State) (v : ℕ) (del : Bool) : Res State :=
  let t : ℚ := ((s.vehs v).finish - (s.vehs v).start : ℤ)
  if v ∈ s.vehMap then
    .ok { s with
      vehMap := if del then s.vehMap.erase v else s.vehMap
      totalTime := s.totalTime + t
      finished := s.finished + 1
      enroute := s.enroute - 1
      finishedCar := if s.truck v then s.finishedCar else s.finishedCar + 1
      finishedTruck := if s.truck v then s.finishedTruck + 1 else s.finishedTruck
      enrouteCar := if s.truck v then s.enrouteCar else s.enrouteCar - 1
      enrouteTruck := if s.truck v then s.enrouteTruck - 1 else s.enrouteTruck
      timeCar := if s.truck v then s.timeCar else s.timeCar + t
      timeTruck := if s.truck v then s.timeTruck + t else s.timeTruck }
  else .throw "vehicle not found"

/-! ## Release -/

/-- Draws of one release of one origin: rounding per position in the two demand maps, the rest per
vehicle ID. -/
structure ReleaseOracle where
  uCar : ℕ → ℚ
  uTruck : ℕ → ℚ
  r : ℕ → ℚ
  l : ℕ → ℚ
  shuffle : List ℕ → List ℕ

/-- The inner loops of `multiclass.cpp:3089-3126` (cars) and `3139-3175` (trucks): `n` vehicles of
one class for one destination.  `labels` are the label ratios of the class
(`multiclass.cpp:2918-2979` `generate_label`). -/
def releaseVehs (node oid freq : ℕ) (orc : ReleaseOracle) (ts d : ℕ) (cls : Bool) (ratio : ℚ)
    (labels : List ℚ) : ℕ → State → State
  | 0, s => s
  | n + 1, s =>
    let id := s.numVeh + 1
    let ad := if ratio = 0 then false else if ratio = 1 then true else decide (orc.r id ≤ ratio)
    let s1 := s.makeVeh cls ts ad oid d (ts / freq : ℕ) (generateLabel labels (orc.l id))
    releaseVehs node oid freq orc ts d cls ratio labels n
      { s1 with queue := upd s1.queue node (s1.queue node ++ [id]) }

/-- The loop over the destinations of one class (`multiclass.cpp:3080-3127` and `3129-3176`): a
ratio found for one destination stays in force for the following ones; the last one is returned. -/
def releaseDests (scalar : ℚ) (node oid freq : ℕ) (orc : ReleaseOracle) (ts assign : ℕ) (cls : Bool)
    (u : ℕ → ℚ) (own : ℕ → Option (ℕ → ℚ)) (labels : List ℚ) :
    ℕ → ℚ → List (ℕ × (ℕ → ℚ)) → State → Res (State × ℚ)
  | _, ratio, [], s => .ok (s, ratio)
  | k, ratio, (d, dem) :: rest, s =>
    let ratio := match own d with
      | some f => f assign
      | none => ratio
    (Ults.round (dem assign * scalar) (u k)).bind fun n =>
      releaseDests scalar node oid freq orc ts assign cls u own labels (k + 1) ratio rest
        (releaseVehs node oid freq orc ts d cls ratio labels n.toNat s)

/-- How vehicles are released in an interval (`dta.cpp:572-622`): one adaptive ratio for both
classes (`release_one_interval`), or one per class (`release_one_interval_biclass`, routing type
`Biclass_Hybrid`); nothing for other routing types. -/
inductive Release where
  | one (ratio : ℚ)
  | two (car truck : ℚ)
  | nothing

/-- `multiclass.cpp:3067-3180` `release_one_interval` and `3183-3296`
`release_one_interval_biclass`.  With a single ratio, the one left over from the cars is the one the
trucks start with. -/
def releaseOne (c : Cfg) (oid : ℕ) (orc : ReleaseOracle) (ts assign : ℕ) (m : Release) (s : State) :
    Res State :=
  let o := c.net.origin oid
  let d := c.dem oid
  let cars := fun ratio => releaseDests c.net.scalar o.node oid o.freq orc ts assign false orc.uCar
    d.ratioCar d.labelCar 0 ratio d.car s
  let trucks := fun ratio => releaseDests c.net.scalar o.node oid o.freq orc ts assign true orc.uTruck
    d.ratioTruck d.labelTruck 0 ratio d.truck
  let mix := fun (s : State) =>
    { s with queue := upd s.queue o.node (orc.shuffle (s.queue o.node)) }
  if o.freq = 0 then .ub
  else
    match m with
    | .one r => (cars r).bind fun p => (trucks p.2 p.1).bind fun q => .ok (mix q.1)
    | .two rc rt => (cars rc).bind fun p => (trucks rt p.1).bind fun q => .ok (mix q.1)
    | .nothing => .ok s

/-! ## Routing -/

/-- What routing sees of a link: the vehicles waiting at its exit and at its entrance, and those on
it.  Routing reads nothing else of links (`routing.cpp`), so the rest is filled with constants. -/
def shell (l : MLnk.Link ℕ) : Lnk.Link ℕ :=
  let road := match l with
    | .ctm x => (x.cells.reverse.map fun c : MLnk.Cell ℕ => c.queueCar).flatten
        ++ (x.cells.reverse.map fun c : MLnk.Cell ℕ => c.queueTruck).flatten
    | .lq x => x.bufCar ++ x.queueCar ++ (x.bufTruck ++ x.queueTruck)
    | .pq x => x.pool.map Prod.fst
  .pq ⟨1, 1, 1, 1, 1, 1, 1, 1, road.map fun v => (v, 0), 0, l.incoming, l.finished⟩

/-- The state as routing sees it (classes are looked up separately). -/
def State.view (s : State) : Net.State :=
  { links := fun l => ⟨shell (s.links l).link, none, none⟩, vehs := s.vehs, queue := s.queue,
    numVeh := s.numVeh, enroute := s.enroute, finished := s.finished, totalTime := s.totalTime,
    vehMap := s.vehMap, tracker := s.tracker, log := s.log }

/-- `routing.cpp:815-942` `MNM_Routing_Biclass_Fixed::update_routing` for the vehicles of class
`cls`, after the path probabilities of the class are in place: the fixed routing of `Net`, with the
other class left alone. -/
def fixedCls (c : Net.Cfg) (truck : ℕ → Bool) (cls : Bool) (pt : PathTable) (o : RouteOracle) :
    Net.State → Res Net.State :=
  routeAll c (fun _ s v => if truck v = cls then fixedOrigin c pt o s v else .ok s)
    (fun l s v => if truck v = cls then fixedLink c l s v else .ok s)

/-- The routing of an interval: one of the class-blind ones, or `MNM_Routing_Biclass_Hybrid`
(`routing.cpp:709-786`) with its adaptive part (`none` when it is switched off) and the path tables
as they stand for cars and for trucks. -/
inductive Routing where
  | net (r : Net.Routing)
  | biclass (tr : Option Trees) (car truck : PathTable)

/-- `update_routing` on the view. -/
def Routing.updateView (c : Net.Cfg) (truck : ℕ → Bool) (o : RouteOracle) (s : Net.State) :
    Routing → Res Net.State
  | .net r => r.update c o s
  | .biclass tr pc pt =>
    (match tr with
      | some t => adaptiveRouting c t o s
      | none => .ok s).bind fun s =>
      (fixedCls c truck false pc o s).bind (fixedCls c truck true pt o)

/-- `update_routing`: next links, paths and tracked paths change. -/
def Routing.update (c : Net.Cfg) (o : RouteOracle) (s : State) (r : Routing) : Res State :=
  (r.updateView c s.truck o s.view).bind fun t =>
    .ok { s with vehs := t.vehs, tracker := t.tracker }

/-! ## Nodes -/

/-- `get_next_link () == l`. -/
def State.heads (s : State) (l : ℕ) (v : ℕ) : Bool := decide ((s.vehs v).next = some l)

/-- `push_back` on the incoming array of link `l` and `set_current_link (l)` for each vehicle in
turn. -/
def State.enter (ts : ℕ) (src : Option ℕ) (l : ℕ) (s : State) (vs : List ℕ) : State :=
  { s with
    links := upd s.links l
      { s.links l with link := (s.links l).link.setIncoming ((s.links l).link.incoming ++ vs) }
    vehs := fun v => if v ∈ vs then { s.vehs v with cur := some l } else s.vehs v
    log := s.log ++ vs.map fun v => ⟨ts, v, src, some l⟩ }

/-- `if (curve != nullptr && n > 0) curve->add_increment (timestamp + 1, n / m_flow_scalar)`. -/
def note (scalar : ℚ) (ts n : ℕ) (k : Option Curve) : Res (Option Curve) :=
  if 0 < n then recordOpt scalar ts n k else .ok k

/-- Recording the passage into link `l` of `nc` cars and `nt` trucks. -/
def State.noteIn (scalar : ℚ) (ts l nc nt : ℕ) (s : State) : Res State :=
  (note scalar ts nc (s.links l).nInCar).bind fun a =>
    (note scalar ts nt (s.links l).nInTruck).bind fun b =>
      .ok { s with links := upd s.links l { s.links l with nInCar := a, nInTruck := b } }

/-- Recording the passage out of link `l`. -/
def State.noteOut (scalar : ℚ) (ts l nc nt : ℕ) (s : State) : Res State :=
  (note scalar ts nc (s.links l).nOutCar).bind fun a =>
    (note scalar ts nt (s.links l).nOutTruck).bind fun b =>
      .ok { s with links := upd s.links l { s.links l with nOutCar := a, nOutTruck := b } }

/-- The link is a point queue: what the casts of `multiclass.cpp:2357` and `2424` require. -/
def isPq : MLnk.Link ℕ → Bool
  | .pq _ => true
  | _ => false

/-- `multiclass.cpp:2279-2314`: the number of vehicles an origin node sends to link `l` (a truck
counts as one vehicle). -/
def originVolume (scalar : ℚ) (s : State) (q : List ℕ) (u : ℚ) (l : ℕ) : Res ℤ :=
  (s.links l).link.supply.bind fun sup =>
    if sup * scalar < (q.countP (s.heads l) : ℚ) then Ults.round (sup * scalar) u
    else .ok (q.countP (s.heads l))

/-- The volumes of all links, computed before any vehicle moves. -/
def originVolumes (scalar : ℚ) (s : State) (q : List ℕ) (u : ℕ → ℚ) :
    ℕ → List ℕ → Res (List (ℕ × ℤ))
  | _, [] => .ok []
  | i, l :: ls =>
    (originVolume scalar s q (u i) l).bind fun n =>
      (originVolumes scalar s q u (i + 1) ls).bind fun r => .ok ((l, n) :: r)

/-- `multiclass.cpp:2316-2373`, one link: move the vehicles, then record the inflow.  A link that is
not a point queue makes the code dereference a null pointer. -/
def originMove (scalar : ℚ) (ts node : ℕ) (s : State) (lv : ℕ × ℤ) : Res State :=
  if isPq (s.links lv.1).link then
    let r := takeFirst (s.heads lv.1) lv.2.toNat (s.queue node)
    (State.enter ts none lv.1 { s with queue := upd s.queue node r.2 } r.1).noteIn scalar ts lv.1
      (MLnk.cars s.truck r.1) (MLnk.trucks s.truck r.1)
  else .ub

/-- `multiclass.cpp:2273-2376` `MNM_DMOND_Multiclass::evolve`. -/
def originEvolve (scalar : ℚ) (ts node : ℕ) (outs : List ℕ) (u : ℕ → ℚ) (s : State) : Res State :=
  (originVolumes scalar s (s.queue node) u 0 outs).bind fun lvs =>
    Res.foldlM (originMove scalar ts node) s lvs

/-- `multiclass.cpp:2397-2439`, one link. -/
def destTake (scalar : ℚ) (ts node : ℕ) (s : State) (l : ℕ) : Res State :=
  let fin := (s.links l).link.finished
  if fin.all (fun v => decide ((s.vehs v).next = none)) then
    if isPq (s.links l).link then
      State.noteOut scalar ts l (MLnk.cars s.truck fin) (MLnk.trucks s.truck fin) { s with
        links := upd s.links l { s.links l with link := (s.links l).link.setFinished [] }
        vehs := fun v => if v ∈ fin then { s.vehs v with cur := none } else s.vehs v
        queue := upd s.queue node (s.queue node ++ fin)
        log := s.log ++ fin.map fun v => ⟨ts, v, some l, none⟩ }
    else .ub
  else .throw "invalid state"

/-- `multiclass.cpp:2390-2442` `MNM_DMDND_Multiclass::evolve`. -/
def destEvolve (scalar : ℚ) (ts node : ℕ) (ins : List ℕ) (s : State) : Res State :=
  Res.foldlM (destTake scalar ts node) s ins

/-- Car equivalents of a vehicle. -/
def equiv (factor : ℚ) (truck : ℕ → Bool) (v : ℕ) : ℚ := if truck v then factor else 1

/-- `multiclass.cpp:2509-2535`: the demand column of out link `o`, in car equivalents. -/
def demandCol (scalar factor : ℚ) (s : State) (ins : List ℕ) (o : ℕ) : List ℚ :=
  ins.map fun i =>
    (((s.links i).link.finished.filter (s.heads o)).map (equiv factor s.truck)).sum / scalar

/-- Supplies of the out links (`multiclass.cpp:2538-2543`). -/
def supplies (s : State) : List ℕ → Res (List ℚ)
  | [] => .ok []
  | o :: os => (s.links o).link.supply.bind fun x => (supplies s os).bind fun r => .ok (x :: r)

/-- The test of `multiclass.cpp:2498-2508`. -/
def onRightNode (s : State) (ins outs : List ℕ) : Bool :=
  ins.all fun i => (s.links i).link.finished.all fun v => outs.any fun o => s.heads o v

/-- The inner loop of `multiclass.cpp:2586-2686`: walk along the exit queue and take matching
vehicles while the volume left, in car equivalents, is positive.  (Both branches at line 2608 do the
same: the drawn number is the constant 0.)  Returns the vehicles taken, the vehicles left, and the
volume left. -/
def takeEquiv (eq : ℕ → ℚ) (p : ℕ → Bool) : ℚ → List ℕ → List ℕ × List ℕ × ℚ
  | x, [] => ([], [], x)
  | x, v :: q =>
    if 0 < x then
      if p v then
        let r := takeEquiv eq p (x - eq v) q
        (v :: r.1, r.2.1, r.2.2)
      else
        let r := takeEquiv eq p x q
        (r.1, v :: r.2.1, r.2.2)
    else ([], v :: q, x)

/-- `m_veh_moved_car`, `m_veh_moved_truck`: index of the in link, index of the out link. -/
abbrev Moved := ℕ → ℕ → ℕ × ℕ

/-- `multiclass.cpp:2582-2694`: from in link `i` (index `a`) to out link `o` (index `b`), `x` car
equivalents. -/
def moveOne (factor : ℚ) (ts o i a b : ℕ) (x : ℚ) (s : State × Moved) : Res (State × Moved) :=
  let r := takeEquiv (equiv factor s.1.truck) (s.1.heads o) x (s.1.links i).link.finished
  if r.2.2 > 1 / 1000 then .throw "invalid state"
  else .ok (State.enter ts (some i) o
      { s.1 with
        links := upd s.1.links i
          { s.1.links i with link := (s.1.links i).link.setFinished r.2.1 } } r.1,
    fun a' b' => if a' = a ∧ b' = b then
        (MLnk.cars s.1.truck r.1, MLnk.trucks s.1.truck r.1) else s.2 a' b')

/-- `multiclass.cpp:2575-2696`: all in links, in the shuffled order. -/
def moveCol (scalar factor : ℚ) (ts : ℕ) (ins : List ℕ) (order : List ℕ) (b o : ℕ) (flow : List ℚ)
    (s : State × Moved) : Res (State × Moved) :=
  Res.foldlM (fun s a =>
    match ins[a]? with
    | none => .ub
    | some i => moveOne factor ts o i a b (flow.getD a 0 * scalar) s) s order

/-- `multiclass.cpp:2556-2699` `move_vehicle`. -/
def moveAll (scalar factor : ℚ) (ts : ℕ) (ins : List ℕ) (order : ℕ → List ℕ) :
    ℕ → State × Moved → List (ℕ × List ℚ) → Res (State × Moved)
  | _, s, [] => .ok s
  | b, s, (o, f) :: rest =>
    (moveCol scalar factor ts ins (order b) b o f s).bind fun s' =>
      moveAll scalar factor ts ins order (b + 1) s' rest

/-- Sum of the first `n` entries. -/
def total (n : ℕ) (f : ℕ → ℕ) : ℕ := ((List.range n).map f).sum

/-- First loop of `multiclass.cpp:2718-2777` `record_cumulative_curve`. -/
def recordOuts (scalar : ℚ) (ts nIn : ℕ) (mv : Moved) : ℕ → State → List ℕ → Res State
  | _, s, [] => .ok s
  | b, s, o :: os =>
    (s.noteIn scalar ts o (total nIn fun a => (mv a b).1) (total nIn fun a => (mv a b).2)).bind
      fun s' => recordOuts scalar ts nIn mv (b + 1) s' os

/-- Second loop. -/
def recordIns (scalar : ℚ) (ts nOut : ℕ) (mv : Moved) : ℕ → State → List ℕ → Res State
  | _, s, [] => .ok s
  | a, s, i :: is =>
    (s.noteOut scalar ts i (total nOut fun b => (mv a b).1) (total nOut fun b => (mv a b).2)).bind
      fun s' => recordIns scalar ts nOut mv (a + 1) s' is

/-- `multiclass.cpp:2794-2801` `MNM_Dnode_Inout_Multiclass::evolve` with the `compute_flow` of the
FWJ node (`multiclass.cpp:2815-2836`, the same formula as for one class). -/
def inoutEvolve (scalar factor : ℚ) (ts : ℕ) (ins outs : List ℕ) (order : ℕ → List ℕ) (s : State) :
    Res State :=
  if onRightNode s ins outs then
    (supplies s outs).bind fun sups =>
      let flows := ((outs.map (demandCol scalar factor s ins)).zip sups).map fun c =>
        fwjCol c.1 c.2
      (moveAll scalar factor ts ins order 0 (s, fun _ _ => (0, 0)) (outs.zip flows)).bind fun p =>
        (recordOuts scalar ts ins.length p.2 0 p.1 outs).bind fun s1 =>
          recordIns scalar ts outs.length p.2 0 s1 ins
  else .throw "vehicle in wrong node"

/-- Virtual `evolve` of a node; `compute_flow` of the general junction always throws
(`multiclass.cpp:2867-2872`), and the factory does not make one (`multiclass.cpp:3404-3430`). -/
def nodeEvolve (scalar factor : ℚ) (ts node : ℕ) (u : ℕ → ℚ) (order : ℕ → List ℕ) (s : State) :
    Node → Res State
  | .origin outs => originEvolve scalar ts node outs u s
  | .dest ins => destEvolve scalar ts node ins s
  | .fwj ins outs => inoutEvolve scalar factor ts ins outs order s
  | .grj _ _ => .throw "not implemented"

/-! ## Receiving and the loading loop -/

/-- `od.cpp:214-239`: one vehicle of the loop of `MNM_Destination::receive`. -/
def receiveVeh (ts d : ℕ) (s : State) (v : ℕ) : Res State :=
  if (s.vehs v).dest ≠ d then .throw "invalid state"
  else
    { s with vehs := upd s.vehs v { s.vehs v with finish := ts }
             tracker := upd s.tracker v none }.removeFinished v true

/-- `od.cpp:214-242` `MNM_Destination::receive`. -/
def receive (c : Cfg) (ts : ℕ) (s : State) (d : ℕ) : Res State :=
  (Res.foldlM (receiveVeh ts d) s (s.queue (c.net.destNode d))).bind fun s' =>
    .ok { s' with queue := upd s'.queue (c.net.destNode d) [] }

/-- The random and external choices of one interval. -/
structure StepOracle where
  release : ℕ → ReleaseOracle
  mode : Release
  routing : Routing
  route : RouteOracle
  /-- rounding draws of origin nodes, shuffles of in-out nodes -/
  u : ℕ → ℕ → ℚ
  order : ℕ → ℕ → List ℕ
  link : ℕ → MLnk.Draws

/-- `multiclass.cpp:3493-3517` `update_link_attribute`, one link; an unknown link is the end of a
map. -/
def setAttr (c : Cfg) (s : State) (p : ℕ × MLnk.Args) : Res State :=
  if p.1 ∈ c.net.linkIds then
    ((s.links p.1).link.modify p.2).bind fun l =>
      .ok { s with links := upd s.links p.1 { s.links p.1 with link := l } }
  else .ub

/-- `dta.cpp:560-628` step 1. -/
def stepRelease (c : Cfg) (o : StepOracle) (ts assign : ℕ) (s : State) : Res State :=
  if c.net.assignFreq = 0 then .ub
  else if ts % c.net.assignFreq = 0 then
    if assign ≥ c.net.totalAssign then .ok s
    else Res.foldlM (fun s oid => releaseOne c oid (o.release oid) ts assign o.mode s) s
      c.net.originIds
  else .ok s

/-- `dta.cpp:638-644` step 3. -/
def stepNodes (c : Cfg) (o : StepOracle) (ts : ℕ) (s : State) : Res State :=
  Res.foldlM (fun s n => nodeEvolve c.net.scalar c.factor ts n (o.u n) (o.order n) s (c.net.node n))
    s c.net.nodeIds

/-- `dta.cpp:652-667` step 4, one link. -/
def linkStep (o : StepOracle) (s : State) (l : ℕ) : Res State :=
  ((s.links l).link.clear s.truck).bind fun x =>
    (x.evolve s.truck (fun v => (s.vehs v).next.isSome) (o.link l)).bind fun y =>
      .ok { s with links := upd s.links l { s.links l with link := y } }

/-- `dta.cpp:538-689` `load_once` (without statistics, emission, gridlock records and printing). -/
def loadOnce (c : Cfg) (o : StepOracle) (ts assign : ℕ) (s : State) : Res State :=
  (Res.foldlM (setAttr c) s (c.attrs ts)).bind fun s =>
    (stepRelease c o ts assign s).bind fun s =>
      (o.routing.update c.net o.route s).bind fun s =>
        (stepNodes c o ts s).bind fun s =>
          (Res.foldlM (linkStep o) s c.net.linkIds).bind fun s =>
            Res.foldlM (receive c ts) s c.net.destIds

/-- `dta.cpp:692-715` the body of `loading`, once per oracle given. -/
def loadMany (c : Cfg) : List StepOracle → ℕ → ℕ → State → Res (State × ℕ × ℕ)
  | [], ts, assign, s => .ok (s, ts, assign)
  | o :: os, ts, assign, s =>
    (loadOnce c o ts assign s).bind fun s =>
      loadMany c os (ts + 1) (if (ts + 1) % c.net.assignFreq = 0 then assign + 1 else assign) s

/-- `macposts/_ext/mcdta.cpp:776-859` `get_travel_stats`: cars, trucks, hours of cars, hours of
trucks; vehicles still in the map count until now. -/
def travelStats (c : Cfg) (unit : ℚ) (now : ℕ) (s : State) : ℚ × ℚ × ℚ × ℚ :=
  let hours := fun b =>
    ((s.vehMap.filter fun v => s.truck v == b).map fun v =>
      (((now : ℤ) - (s.vehs v).start : ℤ) : ℚ) * unit / 3600).sum
  ((s.finishedCar + MLnk.cars s.truck s.vehMap : ℕ) / c.net.scalar,
   (s.finishedTruck + MLnk.trucks s.truck s.vehMap : ℕ) / c.net.scalar,
   (s.timeCar * unit / 3600 + hours false) / c.net.scalar,
   (s.timeTruck * unit / 3600 + hours true) / c.net.scalar)

/-- The state before loading starts (`multiclass.cpp:4333-4400`). -/
def State.init (links : ℕ → LinkSt) : State :=
  { links := links, vehs := fun _ => ⟨0, -1, false, 0, 0, none, none, none, -1, -1⟩,
    truck := fun _ => false,
    queue := fun _ => [], numVeh := 0, enroute := 0, finished := 0, totalTime := 0, vehMap := [],
    tracker := fun _ => none, log := [], numCar := 0, numTruck := 0, enrouteCar := 0,
    enrouteTruck := 0, finishedCar := 0, finishedTruck := 0, timeCar := 0, timeTruck := 0 }

end Verif.MNet

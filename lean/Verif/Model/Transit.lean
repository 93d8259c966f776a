import Verif.Model.Net

/-!
# Model of the passengers of a multimodal network (`src/multimodal.cpp`)

Passengers, their factory, origins, destinations, walking links, bus links, physical and virtual
bus stops, buses, parking lots, the routing of passengers, and the passenger part of the loading
loop.  Links, stops, buses, origins, destinations, parking lots, paths and passengers are numbered;
a pointer is a number, a null pointer is `none`.  Passenger numbers are the IDs given by the
factory.

Cars, trucks and the movement of buses along driving links are not part of this model.  What they
contribute in an interval is arbitrary: the list of calls that the driving links make at bus stops
(`BusEv`), and the cars that arrive at the parking lots (`CarIn`).

Deques are lists, front first.  Loops that erase elements of the deque they walk through are loops
over the deque as it was at their start.  Assertions are compiled out.  The trees of cumulative
curves of transit links are not installed during loading (lines 3332-3333) and are left out.
-/

namespace Verif.Tr
open Ults Curve

/-- `m_link_type` of `MNM_Transit_Link` with `m_walking_type` of `MNM_Walking_Link` and
`m_route_ID` of `MNM_Bus_Link` (the other walking types do not occur in the readers). -/
inductive Kind where
  | normal
  | boarding
  | alighting
  | bus (route : ℤ)
deriving DecidableEq

/-- `m_link_type == MNM_TYPE_WALKING_MULTIMODAL`, and success of the cast to `MNM_Walking_Link`. -/
def Kind.walking : Kind → Bool
  | .bus _ => false
  | _ => true

/-- `m_to_node_type`. -/
inductive EndType where
  | physical
  | virtualStop
  | destination
  | other
deriving DecidableEq

/-- `multimodal.h:483-600` `MNM_Transit_Link`, `MNM_Bus_Link`, `MNM_Walking_Link`: attributes that
do not change during loading. -/
structure LinkCfg where
  kind : Kind
  maxStamp : ℤ         -- `m_max_stamp`
  toNode : ℕ           -- `m_to_node_ID`
  toType : EndType     -- `m_to_node_type`
deriving DecidableEq

/-- `multimodal.h:41-78` `MNM_Busstop_Physical`. -/
structure PStop where
  walkIn : List ℕ
  walkOut : List ℕ
  boarding : List ℕ
  alighting : List ℕ

/-- `multimodal.h:80-140` `MNM_Busstop_Virtual`. -/
structure VStop where
  route : ℤ            -- `m_route_ID`
  busIn : Option ℕ
  busOut : Option ℕ
  boarding : Option ℕ
  alighting : Option ℕ
  maxAlight : ℤ        -- passengers per interval, used without explicit buses
  maxBoard : ℤ

/-- `multimodal.h` `MNM_Destination_Multimodal`. -/
structure Dest where
  node : ℕ
  walkIn : List ℕ
  lot : Option ℕ

/-- `multimodal.h` `MNM_Origin_Multimodal`: the passenger demand in iteration order. -/
structure Origin where
  node : ℕ
  freq : ℕ
  demand : List (ℕ × (ℕ → ℚ))

/-- `multimodal.h:170-225` `MNM_Parking_Lot`. -/
structure Lot where
  node : ℕ
  walkOut : List ℕ
  avg : ℚ              -- `m_avg_parking_time`, intervals
  capacity : ℚ

/-- What does not change during loading. -/
structure Cfg where
  scalar : ℚ
  assignFreq : ℕ
  totalAssign : ℕ
  explicitBus : Bool
  working : Bool               -- `m_routing_multimodal_adaptive->m_working`
  histWait : ℤ                 -- `m_historical_bus_waiting_time` of the boarding links
  linkIds : List ℕ
  link : ℕ → LinkCfg
  originIds : List ℕ
  origin : ℕ → Origin
  destIds : List ℕ
  dest : ℕ → Dest
  pstopIds : List ℕ
  pstop : ℕ → PStop
  vstopIds : List ℕ
  vstop : ℕ → VStop
  lotIds : List ℕ
  lot : ℕ → Lot
  /-- out links of a node of the transit graph -/
  outLinks : ℕ → List ℕ
  /-- `MNM_Veh_Factory_Multimodal`: attributes given to every bus -/
  busCap : ℤ
  minDwell : ℤ
  lost : ℤ
  maxAlight : ℤ
  maxBoard : ℤ
  /-- `m_bus_route_ID` of a bus -/
  busRoute : ℕ → ℤ

/-- `multimodal.h:233-261` `MNM_Passenger`.  `path` is `m_transit_path`; a finish time of -1 means
not finished. -/
structure Pax where
  adaptive : Bool
  pnr : Bool
  wait : ℚ
  cur : Option ℕ
  next : Option ℕ
  origin : ℕ
  dest : ℕ
  path : Option ℕ
  assign : ℤ
  start : ℤ
  finish : ℤ
deriving DecidableEq

/-- The containers that hold passengers: `m_in_passenger_queue` of an origin, `m_incoming_array`,
`m_passenger_queue` and `m_finished_array` of a transit link, `m_passenger_pool` of a bus,
`m_in_passenger_queue` of a parking lot, `m_out_passenger_queue` of a destination.  `gone` is not a
container of the code: it lists the passengers handed to `remove_finished_passenger`. -/
inductive Place where
  | origin (o : ℕ)
  | incoming (l : ℕ)
  | walking (l : ℕ)
  | finished (l : ℕ)
  | bus (b : ℕ)
  | lot (k : ℕ)
  | dest (d : ℕ)
  | gone
deriving DecidableEq

/-- What changes during loading. -/
structure State where
  /-- `MNM_Passenger_Factory` -/
  num : ℕ
  enroute : ℤ
  finished : ℤ
  total : ℚ
  numPnr : ℤ
  enroutePnr : ℤ
  finishedPnr : ℤ
  map : List ℕ
  pax : ℕ → Pax
  loc : Place → List ℕ
  /-- the number stored with a passenger in `m_passenger_queue` of a link -/
  stamp : ℕ → ℕ → ℤ
  /-- `m_tracker` of the fixed passenger routing -/
  tracker : ℕ → Option (List ℕ)
  /-- `m_N_in`, `m_N_out` of a transit link -/
  nIn : ℕ → Curve
  nOut : ℕ → Curve
  /-- of a virtual stop: `m_bus_queue`, `m_passed_bus_counter`, `m_N_in_bus`, `m_N_out_bus` -/
  busQ : ℕ → List ℕ
  counter : ℕ → ℤ
  bIn : ℕ → Curve
  bOut : ℕ → Curve
  /-- `m_stopped_intervals` of a bus -/
  stopped : ℕ → ℤ
  /-- of a parking lot: `m_parked_car`, `m_occupancy`, `m_cruising_time_record` -/
  parked : ℕ → ℤ
  occupancy : ℕ → ℚ
  cruise : ℕ → Store ℤ ℚ
  /-- `m_queue_passenger_num`, `m_enroute_passenger_num` -/
  queueNum : List ℕ
  enrouteNum : List ℤ
  /-- what passengers do, see `Net.Event`; never read by the code -/
  log : List Net.Event

/-! ## Moving passengers -/

/-- `erase` from one container and `push_back` on another one. -/
def State.shift (s : State) (p : ℕ) (a b : Place) : State :=
  let L := upd s.loc a ((s.loc a).erase p)
  { s with loc := upd L b (L b ++ [p]) }

/-- `set_next_link`. -/
def State.setNext (s : State) (p : ℕ) (n : Option ℕ) : State :=
  { s with pax := upd s.pax p { s.pax p with next := n } }

/-- `m_waiting_time = w`. -/
def State.setWait (s : State) (p : ℕ) (w : ℚ) : State :=
  { s with pax := upd s.pax p { s.pax p with wait := w } }

/-- `m_N_in->add_increment (timestamp + 1, 1 / m_flow_scalar)`. -/
def State.noteIn (c : Cfg) (ts l : ℕ) (s : State) : Res State :=
  (addIncrement (s.nIn l) ((ts : ℚ) + 1, 1 / c.scalar)).bind fun k =>
    .ok { s with nIn := upd s.nIn l k }

/-- `m_N_out->add_increment (timestamp + 1, 1 / m_flow_scalar)`. -/
def State.noteOut (c : Cfg) (ts l : ℕ) (s : State) : Res State :=
  (addIncrement (s.nOut l) ((ts : ℚ) + 1, 1 / c.scalar)).bind fun k =>
    .ok { s with nOut := upd s.nOut l k }

/-- `noteIn` if the passenger enters a link. -/
def State.noteInOpt (c : Cfg) (ts : ℕ) (l : Option ℕ) (s : State) : Res State :=
  match l with
  | none => .ok s
  | some l => s.noteIn c ts l

/-- `noteOut` if the passenger leaves a link. -/
def State.noteOutOpt (c : Cfg) (ts : ℕ) (l : Option ℕ) (s : State) : Res State :=
  match l with
  | none => .ok s
  | some l => s.noteOut c ts l

/-- Record that a passenger leaves a link (if any), test `check`, record that it enters a link (if
any), and `set_current_link`. -/
def State.cross (c : Cfg) (ts p : ℕ) (src dst : Option ℕ) (check : State → Res Unit) (s : State) :
    Res State :=
  (s.noteOutOpt c ts src).bind fun s =>
    (check s).bind fun _ =>
      (s.noteInOpt c ts dst).bind fun s =>
        .ok { s with
          pax := upd s.pax p { s.pax p with cur := dst }
          log := s.log ++ [⟨ts, p, src, dst⟩] }

/-- No test. -/
def noCheck : State → Res Unit := fun _ => .ok ()

/-- The test of lines 262-271: the last value of the in-curve of an alighting link is less than
that of its out-curve. -/
def alightCheck (l : ℕ) (s : State) : Res Unit :=
  (back (s.nIn l)).bind fun a => (back (s.nOut l)).bind fun b =>
    if approxLt a.2 b.2 tol then .throw "Debug alighting link cc" else .ok ()

/-! ## Passenger factory -/

/-- `multimodal.cpp:1803-1817` `make_passenger` with the attributes set by the callers.  The
constructor (lines 1681-1698) does not set `m_waiting_time`, which has whatever value `junk` was in
the allocated memory. -/
def State.makePax (s : State) (start : ℕ) (adaptive pnr : Bool) (junk : ℚ) (origin dest : ℕ)
    (path : Option ℕ) (assign : ℤ) : State :=
  { s with
    pax := upd s.pax (s.num + 1) ⟨adaptive, pnr, junk, none, none, origin, dest, path, assign, start, -1⟩
    map := s.map ++ [s.num + 1]
    num := s.num + 1
    enroute := s.enroute + 1 }

/-- `multimodal.cpp:1830-1866` `remove_finished_passenger`, as the C++ standard defines it: with
`del` the passenger is deleted in line 1850 and read in line 1855. -/
def State.removePaxStrict (s : State) (p : ℕ) (del : Bool) : Res State :=
  if p ∈ s.map then
    if del then .ub
    else
      .ok { s with
        total := s.total + (((s.pax p).finish - (s.pax p).start : ℤ) : ℚ)
        finished := s.finished + 1
        enroute := s.enroute - 1
        finishedPnr := if (s.pax p).pnr then s.finishedPnr + 1 else s.finishedPnr
        enroutePnr := if (s.pax p).pnr then s.enroutePnr - 1 else s.enroutePnr }
  else .throw "passenger not in factory"

/-- `multimodal.cpp:1830-1866` `remove_finished_passenger` with `del`, where reading the deleted
passenger in line 1855 gives the value it had (see `removePaxStrict`). -/
def State.removePax (s : State) (p : ℕ) : Res State :=
  if p ∈ s.map then
    .ok { s with
      map := s.map.erase p
      total := s.total + (((s.pax p).finish - (s.pax p).start : ℤ) : ℚ)
      finished := s.finished + 1
      enroute := s.enroute - 1
      finishedPnr := if (s.pax p).pnr then s.finishedPnr + 1 else s.finishedPnr
      enroutePnr := if (s.pax p).pnr then s.enroutePnr - 1 else s.enroutePnr }
  else .throw "passenger not in factory"

/-! ## What is random or comes from the driving network -/

/-- A call that a driving link makes at a virtual stop `v` for a bus `b`: `receive_bus` (lines
3893, 4042, 4356), or `hold_bus` and what follows it (lines 3981-4028, 4288-4347, and the last
cell); `shuffle` is the `random_shuffle` of line 2145. -/
inductive BusEv where
  | receive (v b : ℕ)
  | visit (v b : ℕ) (shuffle : List ℕ → List ℕ)

/-- A car that arrives at a parking lot. -/
structure CarIn where
  pnr : Bool
  adaptive : Bool
  origin : ℕ
  dest : ℕ
  path : ℕ             -- `m_transit_path` of its park-and-ride path
  assign : ℤ

/-- The random and external choices of one interval. -/
structure Orc where
  u : ℕ → ℕ → ℚ                    -- rounding of the demand: origin, position in the demand
  r : ℕ → ℚ                        -- adaptive or static, per passenger
  ratio : ℚ                        -- adaptive ratio of passengers (between 0 and 1)
  junk : ℕ → ℚ                     -- initial `m_waiting_time`, per passenger
  shuffle : ℕ → List ℕ → List ℕ    -- `random_shuffle` of line 3134, per origin
  pt : Net.PathTable               -- transit paths and their portions in force
  route : Net.RouteOracle
  trees : Net.Trees                -- `m_transit_table`
  order : ℕ → List ℕ → List ℕ      -- iteration order of `m_passenger_queue` of a link
  busTt : ℕ → ℤ                    -- `int (get_link_tt (false) / m_unit_time)` of a bus link
  buses : List BusEv
  cars : ℕ → List CarIn            -- per parking lot

/-! ## Origins -/

/-- The inner loop of `multimodal.cpp:3099-3130`: `n` passengers for one destination. -/
def releasePax (c : Cfg) (oid : ℕ) (orc : Orc) (ts d : ℕ) : ℕ → State → State
  | 0, s => s
  | n + 1, s =>
    let id := s.num + 1
    let ad := if orc.ratio = 0 then false else if orc.ratio = 1 then true
      else decide (orc.r id ≤ orc.ratio)
    let s1 := s.makePax ts ad false (orc.junk id) oid d none ((ts / (c.origin oid).freq : ℕ) : ℤ)
    releasePax c oid orc ts d n
      { s1 with loc := upd s1.loc (.origin oid) (s1.loc (.origin oid) ++ [id]) }

/-- The outer loop of `multimodal.cpp:3084-3131`. -/
def releaseDests (c : Cfg) (oid : ℕ) (orc : Orc) (ts assign : ℕ) :
    ℕ → List (ℕ × (ℕ → ℚ)) → State → Res State
  | _, [], s => .ok s
  | k, (d, dem) :: rest, s =>
    (round (dem assign * c.scalar) (orc.u oid k)).bind fun n =>
      releaseDests c oid orc ts assign (k + 1) rest (releasePax c oid orc ts d n.toNat s)

/-- `multimodal.cpp:3075-3137` `release_one_interval_passenger` with a non-negative assignment
interval. -/
def releaseOne (c : Cfg) (orc : Orc) (ts assign : ℕ) (s : State) (oid : ℕ) : Res State :=
  if (c.origin oid).freq = 0 then .ub
  else
    (releaseDests c oid orc ts assign 0 (c.origin oid).demand s).bind fun s' =>
      .ok { s' with loc := upd s'.loc (.origin oid) (orc.shuffle oid (s'.loc (.origin oid))) }

/-- `multimodal.cpp:10505-10571` step 1, passengers. -/
def stepRelease (c : Cfg) (orc : Orc) (ts assign : ℕ) (s : State) : Res State :=
  if c.assignFreq = 0 then .ub
  else if ts % c.assignFreq = 0 then
    if assign ≥ c.totalAssign then .ok s
    else Res.foldlM (releaseOne c orc ts assign) s c.originIds
  else .ok s

/-- `multimodal.cpp:2562-2605` `MNM_Origin_Multimodal::evolve`, one passenger: a null or non-walking
next link is dereferenced. -/
def originPax (c : Cfg) (ts o : ℕ) (s : State) (p : ℕ) : Res State :=
  match (s.pax p).next with
  | none => .ub
  | some l =>
    if (c.link l).kind.walking then
      (s.shift p (.origin o) (.incoming l)).cross c ts p none (some l) noCheck
    else .ub

/-- `multimodal.cpp:2562-2605` `MNM_Origin_Multimodal::evolve`. -/
def originEvolve (c : Cfg) (ts : ℕ) (s : State) (o : ℕ) : Res State :=
  Res.foldlM (originPax c ts o) s (s.loc (.origin o))

/-! ## Destinations -/

/-- `multimodal.cpp:2318-2368`, one passenger at the end of link `l`. -/
def destPax (c : Cfg) (ts d l : ℕ) (s : State) (p : ℕ) : Res State :=
  match (s.pax p).next with
  | some n =>
    match (c.dest d).lot with
    | none => .throw "passenger cannot walk out middle destination"
    | some k =>
      if (c.link n).kind.walking = false ∨ (c.dest (s.pax p).dest).node = (c.dest d).node ∨
          n ∉ (c.lot k).walkOut then .throw "passenger cannot walk out middle destination"
      else (s.shift p (.finished l) (.incoming n)).cross c ts p (some l) (some n) noCheck
  | none => (s.shift p (.finished l) (.dest d)).cross c ts p (some l) none noCheck

/-- `multimodal.cpp:2305-2371` `MNM_Destination_Multimodal::evolve`. -/
def destEvolve (c : Cfg) (ts : ℕ) (s : State) (d : ℕ) : Res State :=
  Res.foldlM (fun s l => Res.foldlM (destPax c ts d l) s (s.loc (.finished l))) s (c.dest d).walkIn

/-! ## Physical bus stops -/

/-- `multimodal.cpp:104-185` and `198-312`, one passenger at the end of link `l`.  Pushing onto the
deque the loop walks through invalidates its iterator. -/
def stopPax (c : Cfg) (ts : ℕ) (st : PStop) (l : ℕ) (check : State → Res Unit) (s : State) (p : ℕ) :
    Res State :=
  match (s.pax p).next with
  | none => .ub
  | some n =>
    if (c.link n).kind.walking = false then .throw "Next link should be walking link"
    else if n ∉ st.walkOut ∧ n ∉ st.boarding then .throw "Something wrong in passenger routing"
    else if (c.link n).kind = .boarding then
      if n = l then .ub
      else (s.shift p (.finished l) (.finished n)).cross c ts p (some l) (some n) check
    else (s.shift p (.finished l) (.incoming n)).cross c ts p (some l) (some n) check

/-- `multimodal.cpp:75-316` `MNM_Busstop_Physical::evolve`. -/
def stopEvolve (c : Cfg) (ts : ℕ) (s : State) (k : ℕ) : Res State :=
  (Res.foldlM (fun s l =>
      Res.foldlM (stopPax c ts (c.pstop k) l noCheck) s (s.loc (.finished l))) s
    (c.pstop k).walkIn).bind fun s =>
    Res.foldlM (fun s l =>
      Res.foldlM (stopPax c ts (c.pstop k) l (alightCheck l)) s (s.loc (.finished l))) s
      (c.pstop k).alighting

/-! ## Walking links and bus links -/

/-- `multimodal.cpp:3688-3704`, one passenger in the incoming array of a walking link. -/
def clearPax (l : ℕ) (s : State) (p : ℕ) : Res State :=
  if (s.pax p).wait ≤ 0 then
    let s1 := (s.setWait p 0).shift p (.incoming l) (.walking l)
    .ok { s1 with stamp := upd s1.stamp l (upd (s1.stamp l) p 0) }
  else .ok (s.setWait p ((s.pax p).wait - 1))

/-- `multimodal.cpp:3683-3706` `MNM_Walking_Link::clear_incoming_array`. -/
def walkClear (l : ℕ) (s : State) : Res State := Res.foldlM (clearPax l) s (s.loc (.incoming l))

/-- `multimodal.cpp:3617-3631` `MNM_Bus_Link::clear_incoming_array`, one passenger. -/
def busClearPax (l : ℕ) (s : State) (p : ℕ) : Res State :=
  let s1 := (s.setWait p 0).shift p (.incoming l) (.walking l)
  .ok { s1 with stamp := upd s1.stamp l (upd (s1.stamp l) p 0) }

/-- `multimodal.cpp:3617-3631` `MNM_Bus_Link::clear_incoming_array`. -/
def busClear (l : ℕ) (s : State) : Res State := Res.foldlM (busClearPax l) s (s.loc (.incoming l))

/-- `multimodal.cpp:3643-3656` and `3725-3738`, one passenger on the link; `m` is `_max_stamp`. -/
def agePax (l : ℕ) (m : ℤ) (s : State) (p : ℕ) : Res State :=
  if s.stamp l p ≥ max 0 (m - 1) then .ok (s.shift p (.walking l) (.finished l))
  else .ok { s with stamp := upd s.stamp l (upd (s.stamp l) p (s.stamp l p + 1)) }

/-- `multimodal.cpp:3708-3740` and `3634-3658`: the loop over `m_passenger_queue`. -/
def age (orc : Orc) (l : ℕ) (m : ℤ) (s : State) : Res State :=
  Res.foldlM (agePax l m) s (orc.order l (s.loc (.walking l)))

/-- `_max_stamp` of `multimodal.cpp:3711-3723`. -/
def walkStamp (c : Cfg) (l : ℕ) : ℤ :=
  match (c.link l).kind with
  | .normal => (c.link l).maxStamp
  | .boarding => c.histWait
  | _ => 0

/-! ## Routing of passengers -/

/-- `multimodal.cpp:4783-4796` `get_transit_link`. -/
def getLink (c : Cfg) (l : ℕ) : Res ℕ :=
  if l ∈ c.linkIds then .ok l else .throw "transit link does not exist"

/-- `multimodal.cpp:5907-5949`: the path of a passenger (`m_transit_path` of a park-and-ride
passenger is set in the parking lot). -/
def choosePath (c : Cfg) (orc : Orc) (p : ℕ) (s : State) : Res (ℕ × State) :=
  if (s.pax p).pnr then
    match (s.pax p).path with
    | none => .ub
    | some q => .ok (q, s)
  else
    match orc.pt.pathset (c.origin (s.pax p).origin).node (c.dest (s.pax p).dest).node with
    | none => .ub
    | some ps =>
      match Net.choosePath ps (orc.route.r p) with
      | none => .throw "Wrong probability!"
      | some q => .ok (q, { s with pax := upd s.pax p { s.pax p with path := some q } })

/-- `multimodal.cpp:5903-5965` `register_passenger`. -/
def register (c : Cfg) (orc : Orc) (p : ℕ) (track : Bool) (s : State) : Res State :=
  (choosePath c orc p s).bind fun qs =>
    .ok { qs.2 with
      tracker := if track then
          (match qs.2.tracker p with
           | none => upd qs.2.tracker p (some (orc.pt.links qs.1))
           | some _ => qs.2.tracker)
        else qs.2.tracker }

/-- `multimodal.cpp:6020-6025` and the like: take the next link from the tracked list; `front` and
`pop_front` of an empty deque are undefined. -/
def nextFromTracker (c : Cfg) (p : ℕ) (s : State) : Res State :=
  match s.tracker p with
  | none => .ub
  | some [] => .ub
  | some (l :: rest) =>
    (getLink c l).bind fun l =>
      .ok { s.setNext p (some l) with tracker := upd s.tracker p (some rest) }

/-- Register a passenger that is not tracked and take the first link of its path. -/
def enroll (c : Cfg) (orc : Orc) (p : ℕ) (s : State) : Res State :=
  match s.tracker p with
  | some _ => .ok s
  | none => (register c orc p true s).bind (nextFromTracker c p)

/-- `multimodal.cpp:6009-6041`: one passenger in an origin queue, fixed routing. -/
def fixedOrigin (c : Cfg) (orc : Orc) (s : State) (p : ℕ) : Res State :=
  if (s.pax p).adaptive then
    (match (s.pax p).path with
     | none => register c orc p false s
     | some _ => .ok s)
  else enroll c orc p s

/-- `multimodal.cpp:6056-6088`: one passenger in a parking lot, fixed routing. -/
def fixedLot (c : Cfg) (orc : Orc) (s : State) (p : ℕ) : Res State :=
  if (s.pax p).adaptive then .ok s
  else
    (enroll c orc p s).bind fun s =>
      match (s.pax p).next with
      | none => .throw "Passenger has no next link"
      | some _ => .ok s

/-- `multimodal.cpp:6145-6161` and `6193-6209`: `get_current_link ()->m_link_ID ==
get_next_link ()->m_link_ID`, then the next link of the list. -/
def advance (c : Cfg) (p : ℕ) (s : State) : Res State :=
  match (s.pax p).cur, (s.pax p).next with
  | some a, some b => if a = b then nextFromTracker c p s else .ok s
  | _, _ => .ub

/-- `multimodal.cpp:6094-6222` `update_routing_one_link`, one passenger at the end of link `l`. -/
def fixedLink (c : Cfg) (l : ℕ) (s : State) (p : ℕ) : Res State :=
  if (s.pax p).adaptive then .ok s
  else if (c.link l).kind.walking then
    if (c.dest (s.pax p).dest).node = (c.link l).toNode then
      match s.tracker p with
      | none => .ub
      | some [] => .ok (s.setNext p none)
      | some (_ :: _) => .throw "Something wrong in passenger bus transit fixed routing!"
    else
      match s.tracker p with
      | none => .throw "Passenger not registered in link, impossible!"
      | some _ =>
        if (c.link l).toType = .other then
          .throw "Something wrong in passenger bus transit fixed routing!"
        else advance c p s
  else if (c.dest (s.pax p).dest).node = (c.link l).toNode then
    .throw "Something wrong in passenger bus transit fixed routing!"
  else
    match s.tracker p with
    | none => .throw "Passenger not registered in link, impossible!"
    | some _ => advance c p s

/-- The passengers at the end of one link. -/
def fixedOneLink (c : Cfg) (s : State) (l : ℕ) : Res State :=
  Res.foldlM (fixedLink c l) s (s.loc (.finished l))

/-- `multimodal.cpp:6252-6279`: one passenger on a bus at virtual stop `v`, fixed routing. -/
def fixedBus (c : Cfg) (v : ℕ) (s : State) (p : ℕ) : Res State :=
  if (s.pax p).adaptive then .ok s
  else
    match s.tracker p with
    | none => .throw "Passenger on bus not registered, impossible!"
    | some _ =>
      match (s.pax p).cur, (s.pax p).next with
      | some a, some b =>
        if a = b ∧ (c.vstop v).busIn = some a then nextFromTracker c p s else .ok s
      | _, _ => .ub

/-- `multimodal.cpp:6238-6283` `update_routing_one_busstop`. -/
def fixedOneStop (c : Cfg) (s : State) (v : ℕ) : Res State :=
  Res.foldlM (fun s b => Res.foldlM (fixedBus c v) s (s.loc (.bus b))) s (s.busQ v)

/-- `multimodal.cpp:6298-6306` `MNM_Routing_PassengerBusTransit_Fixed::update_routing`, after the
portions of the interval are in place. -/
def fixedRouting (c : Cfg) (orc : Orc) (s : State) : Res State :=
  (Res.foldlM (fun s o => Res.foldlM (fixedOrigin c orc) s (s.loc (.origin o))) s c.originIds).bind
    fun s =>
  (Res.foldlM (fun s k => Res.foldlM (fixedLot c orc) s (s.loc (.lot k))) s c.lotIds).bind fun s =>
  (Res.foldlM (fixedOneLink c) s c.linkIds).bind fun s =>
    Res.foldlM (fixedOneStop c) s c.vstopIds

/-- `multimodal.cpp:6524-6549` and `6572-6591`: the tree entry of an origin or parking lot node. -/
def adaptiveStart (c : Cfg) (orc : Orc) (node : ℕ) (s : State) (p : ℕ) : Res State :=
  if (s.pax p).adaptive then
    match orc.trees (s.pax p).dest node with
    | none => .ub
    | some l =>
      if l < 0 then .throw "Something wrong in passenger adaptive routing"
      else (getLink c l.toNat).bind fun l => .ok (s.setNext p (some l))
  else .ok s

/-- `multimodal.cpp:6644-6679`, `6743-6773`, `6845-6871`: the tree entry of a node, or a random out
link of it; then `get_transit_link`. -/
def treeNext (c : Cfg) (orc : Orc) (d node p : ℕ) : Res ℕ :=
  match orc.trees d node with
  | none => .ub
  | some k =>
    if k < 0 then
      let outs := c.outLinks node
      if outs = [] then .throw "can't do anything"
      else getLink c (outs.getD (orc.route.pick p % outs.length) 0)
    else getLink c k.toNat

/-- `multimodal.cpp:6681-6708`, `6775-6802`, `6872-6899`: can the destination be reached from the
end of the chosen link? -/
def checkFuture (c : Cfg) (orc : Orc) (d n : ℕ) : Res Unit :=
  if (c.link n).toNode = (c.dest d).node then .ok ()
  else
    match orc.trees d (c.link n).toNode with
    | none => .ub
    | some k => if k = -1 then .throw "Something wrong for the future node!" else .ok ()

/-- Set the next link after the test. -/
def adaptiveSet (c : Cfg) (orc : Orc) (p n : ℕ) (s : State) : Res State :=
  (checkFuture c orc (s.pax p).dest n).bind fun _ => .ok (s.setNext p (some n))

/-- `multimodal.cpp:6597-6815` `update_routing_passenger_one_link`, one passenger. -/
def adaptiveLink (c : Cfg) (orc : Orc) (l : ℕ) (s : State) (p : ℕ) : Res State :=
  if (s.pax p).adaptive then
    if (s.pax p).cur ≠ some l then .throw "Wrong current link!"
    else if (c.link l).kind.walking then
      if (c.dest (s.pax p).dest).node = (c.link l).toNode ∧ (c.link l).toType = .destination then
        .ok (s.setNext p none)
      else if (c.link l).kind = .boarding then
        if (c.link l).toNode ∈ c.vstopIds then
          match (c.vstop (c.link l).toNode).busOut with
          | none => .ok (s.setNext p none)
          | some n => adaptiveSet c orc p n s
        else .ub
      else
        (treeNext c orc (s.pax p).dest (c.link l).toNode p).bind fun n => adaptiveSet c orc p n s
    else if (c.dest (s.pax p).dest).node = (c.link l).toNode then
      .throw "Something wrong in passenger adaptive routing, wrong current link"
    else
      (treeNext c orc (s.pax p).dest (c.link l).toNode p).bind fun n => adaptiveSet c orc p n s
  else .ok s

/-- The passengers at the end of one link. -/
def adaptiveOneLink (c : Cfg) (orc : Orc) (s : State) (l : ℕ) : Res State :=
  Res.foldlM (adaptiveLink c orc l) s (s.loc (.finished l))

/-- `multimodal.cpp:6834-6905`: one passenger on a bus at virtual stop `v`, adaptive routing. -/
def adaptiveBus (c : Cfg) (orc : Orc) (v : ℕ) (s : State) (p : ℕ) : Res State :=
  if (s.pax p).adaptive then
    match (s.pax p).cur, (s.pax p).next with
    | some a, some b =>
      if a = b ∧ (c.vstop v).busIn = some a then
        (treeNext c orc (s.pax p).dest v p).bind fun n => adaptiveSet c orc p n s
      else .ok s
    | _, _ => .ub
  else .ok s

/-- `multimodal.cpp:6829-6908` `update_routing_passenger_one_busstop`. -/
def adaptiveOneStop (c : Cfg) (orc : Orc) (s : State) (v : ℕ) : Res State :=
  Res.foldlM (fun s b => Res.foldlM (adaptiveBus c orc v) s (s.loc (.bus b))) s (s.busQ v)

/-- `multimodal.cpp:6925-6933` `update_routing_passenger`, after the trees are computed. -/
def adaptiveRouting (c : Cfg) (orc : Orc) (s : State) : Res State :=
  (Res.foldlM (fun s o =>
      Res.foldlM (adaptiveStart c orc (c.origin o).node) s (s.loc (.origin o))) s c.originIds).bind
    fun s =>
  (Res.foldlM (fun s k =>
      Res.foldlM (adaptiveStart c orc (c.lot k).node) s (s.loc (.lot k))) s c.lotIds).bind fun s =>
  (Res.foldlM (adaptiveOneLink c orc) s c.linkIds).bind fun s =>
    Res.foldlM (adaptiveOneStop c orc) s c.vstopIds

/-- `multimodal.cpp:7349-7367` `MNM_Routing_Multimodal_Hybrid::update_routing`, passengers. -/
def routing (c : Cfg) (orc : Orc) (s : State) : Res State :=
  (fixedRouting c orc s).bind fun s => if c.working then adaptiveRouting c orc s else .ok s

/-- `multimodal.cpp:10627-10650` step 7, one walking link (bus links are skipped). -/
def walkStep (c : Cfg) (orc : Orc) (s : State) (l : ℕ) : Res State :=
  if (c.link l).kind.walking then
    (walkClear l s).bind fun s =>
      (age orc l (walkStamp c l) s).bind fun s =>
        if (c.link l).kind = .boarding then
          (fixedOneLink c s l).bind fun s => adaptiveOneLink c orc s l
        else .ok s
  else .ok s

/-! ## Bus stops without explicit buses -/

/-- `multimodal.cpp:912-1099`: the passengers at the end of the bus link `i` into the stop; `k`
passengers have alighted. -/
def rideLoop (c : Cfg) (ts : ℕ) (st : VStop) (i : ℕ) : ℤ → List ℕ → State → Res State
  | _, [], s => .ok s
  | k, p :: ps, s =>
    match (s.pax p).next with
    | none => .ub
    | some n =>
      if (c.link n).kind.walking = false then
        ((s.shift p (.finished i) (.incoming n)).cross c ts p (some i) (some n) noCheck).bind
          (rideLoop c ts st i k ps)
      else if k ≥ st.maxAlight * trunc c.scalar then .ok s
      else if n = i then .ub
      else
        ((s.shift p (.finished i) (.finished n)).cross c ts p (some i) (some n) noCheck).bind
          (rideLoop c ts st i (k + 1) ps)

/-- `multimodal.cpp:1102-1292`: the passengers on the boarding link `w`; `k` passengers have
boarded. -/
def enterLoop (c : Cfg) (ts : ℕ) (st : VStop) (w : ℕ) : ℤ → List ℕ → State → Res State
  | _, [], s => .ok s
  | k, p :: ps, s =>
    match (s.pax p).next with
    | none => .ub
    | some n =>
      if (c.link n).kind.walking = false then
        if k ≥ st.maxBoard * trunc c.scalar then .ok s
        else
          ((s.shift p (.finished w) (.incoming n)).cross c ts p (some w) (some n) noCheck).bind
            (enterLoop c ts st w (k + 1) ps)
      else if n = w then .ub
      else
        ((s.shift p (.finished w) (.finished n)).cross c ts p (some w) (some n) noCheck).bind
          (enterLoop c ts st w k ps)

/-- `multimodal.cpp:911-1099`. -/
def virtualRide (c : Cfg) (ts : ℕ) (st : VStop) (s : State) : Res State :=
  match st.busIn with
  | none => .ok s
  | some i => rideLoop c ts st i 0 (s.loc (.finished i)) s

/-- `multimodal.cpp:1101-1292`. -/
def virtualEnter (c : Cfg) (ts : ℕ) (st : VStop) (s : State) : Res State :=
  match st.boarding with
  | none => .ok s
  | some w => enterLoop c ts st w 0 (s.loc (.finished w)) s

/-- `multimodal.cpp:907-1294` `MNM_Busstop_Virtual::virtual_evolve`. -/
def virtualEvolve (c : Cfg) (ts : ℕ) (s : State) (v : ℕ) : Res State :=
  (virtualRide c ts (c.vstop v) s).bind (virtualEnter c ts (c.vstop v))

/-- `multimodal.cpp:10668-10676`, one bus link. -/
def busLinkStep (c : Cfg) (orc : Orc) (s : State) (l : ℕ) : Res State :=
  if (c.link l).kind.walking then .ok s
  else (busClear l s).bind fun s => age orc l (orc.busTt l) s

/-- `multimodal.cpp:10653-10677`. -/
def implicitStep (c : Cfg) (orc : Orc) (ts : ℕ) (s : State) : Res State :=
  if c.explicitBus then .ok s
  else
    (Res.foldlM (virtualEvolve c ts) s c.vstopIds).bind fun s =>
      Res.foldlM (busLinkStep c orc) s c.linkIds

/-! ## Buses -/

/-- `multimodal.cpp:423-447`: the passengers on board who get off at stop `v`. -/
def alightCount (c : Cfg) (v : ℕ) (s : State) : List ℕ → Res ℤ
  | [] => .ok 0
  | p :: ps =>
    match (s.pax p).next with
    | none => .ub
    | some n =>
      if (c.link n).kind.walking then
        (alightCount c v s ps).bind fun k =>
          .ok (k + if (c.link n).kind = .alighting ∧ (c.vstop v).alighting = some n then 1 else 0)
      else
        match (c.vstop v).busOut with
        | none => .ub
        | some o => if n = o then alightCount c v s ps else .throw "hold_bus, Debug"

/-- `multimodal.cpp:456-470`: does a passenger at the end of the boarding link wait for a bus of
the route? -/
def wantsRoute (c : Cfg) (r : ℤ) (s : State) (p : ℕ) : Bool :=
  match (s.pax p).next with
  | none => false
  | some n => decide ((c.link n).kind = .bus r)

/-- `multimodal.cpp:497-516`: a bus that stops at the stop is counted when it arrives. -/
def holdCount (c : Cfg) (v b : ℕ) (s : State) : Res State :=
  if s.stopped b = 0 then
    if s.counter v ≠ trunc c.scalar - 1 then .throw "m_passed_bus_counter is wrong"
    else .ok { s with counter := upd s.counter v (s.counter v + 1) }
  else if s.counter v ≠ trunc c.scalar then .throw "m_passed_bus_counter is wrong"
  else .ok s

/-- `multimodal.cpp:367-543` `hold_bus`; the second part of the result is the answer.  The moves
between the two queues of the caller are not part of the model. -/
def holdBus (c : Cfg) (v b : ℕ) (s : State) : Res (State × Bool) :=
  let k := trunc c.scalar
  if b ∉ s.busQ v then .throw "Bus not captured in the m_bus_queue of the bus stop"
  else if s.stopped b > 0 ∧ s.counter v ≠ k then .throw "Something is wrong with m_passed_bus_counter"
  else if s.counter v < k - 1 ∧ s.stopped b = 0 then
    .ok ({ s with counter := upd s.counter v (s.counter v + 1) }, false)
  else if s.counter v = k ∧ s.stopped b = 0 then .ok (s, true)
  else
    (alightCount c v s (s.loc (.bus b))).bind fun al =>
      let rem := c.busCap * k - ((s.loc (.bus b)).length : ℤ) + al
      let bo : ℕ := if rem > 0 then
          (match (c.vstop v).boarding with
           | none => 0
           | some w => (s.loc (.finished w)).countP (wantsRoute c (c.busRoute b) s))
        else 0
      let work : Prop := al > 0 ∨ (bo > 0 ∧ rem > 0)
      let dwell := if c.minDwell > 0 ∧ c.minDwell < c.lost ∧ work then c.lost else c.minDwell
      let dwell := if al = 0 ∧ rem = 0 ∧ s.stopped b = 0 then 0 else dwell
      (holdCount c v b s).bind fun s =>
        if s.stopped b < dwell ∨ work then
          .ok ({ s with stopped := upd s.stopped b (s.stopped b + 1) }, true)
        else .ok ({ s with counter := upd s.counter v 0 }, false)

/-- `multimodal.cpp:1919-2036`: alighting; `k` passengers have alighted. -/
def alightLoop (c : Cfg) (ts v b : ℕ) : ℤ → List ℕ → State → Res State
  | _, [], s => .ok s
  | k, p :: ps, s =>
    match (s.pax p).next with
    | none => .ub
    | some n =>
      if (c.link n).kind.walking ∧ (c.vstop v).alighting = some n then
        if k ≥ c.maxAlight * trunc c.scalar then .ok s
        else
          match (c.vstop v).busIn with
          | none => .ub
          | some i =>
            (((s.setWait p 0).shift p (.bus b) (.finished n)).cross c ts p (some i) (some n)
              noCheck).bind (alightLoop c ts v b (k + 1) ps)
      else alightLoop c ts v b k ps s

/-- `multimodal.cpp:2056-2141`: boarding from link `w`; `k` passengers have boarded. -/
def boardLoop (c : Cfg) (ts v b w : ℕ) (rem : ℤ) : ℤ → List ℕ → State → Res State
  | _, [], s => .ok s
  | k, p :: ps, s =>
    match (s.pax p).next with
    | none => .throw "Something wrong in passenger routing"
    | some n =>
      if (c.link n).kind = .bus (c.busRoute b) ∧ (c.vstop v).busOut = some n then
        if k ≥ rem then .ok s
        else
          ((s.shift p (.finished w) (.bus b)).cross c ts p (some w) (some n) noCheck).bind
            (boardLoop c ts v b w rem (k + 1) ps)
      else .throw "Something wrong in passenger routing"

/-- `_remaining_capacity` of `multimodal.cpp:2042-2046`. -/
def room (c : Cfg) (b : ℕ) (s : State) : ℤ :=
  min (trunc (c.busCap * c.scalar) - ((s.loc (.bus b)).length : ℤ)) (trunc (c.maxBoard * c.scalar))

/-- `multimodal.cpp:2048-2142`. -/
def board (c : Cfg) (ts v b : ℕ) (s : State) : Res State :=
  if room c b s > 0 then
    match (c.vstop v).boarding with
    | none => .ok s
    | some w => boardLoop c ts v b w (room c b s) 0 (s.loc (.finished w)) s
  else .ok s

/-- `multimodal.cpp:1900-2148` `board_and_alight`. -/
def boardAlight (c : Cfg) (ts v b : ℕ) (shuffle : List ℕ → List ℕ) (s : State) : Res State :=
  (alightLoop c ts v b 0 (s.loc (.bus b)) s).bind fun s =>
    (board c ts v b s).bind fun s =>
      .ok { s with loc := upd s.loc (.bus b) (shuffle (s.loc (.bus b))) }

/-- `multimodal.cpp:553-655`, one passenger on a bus that leaves stop `v` along bus link `o`. -/
def ridePax (c : Cfg) (ts v o : ℕ) (s : State) (p : ℕ) : Res State :=
  match (s.pax p).next, (s.pax p).cur with
  | some n, some i' =>
    if n ≠ o then .throw "Passenger in wrong bus"
    else if i' ≠ o then
      match (c.vstop v).busIn with
      | none => .ub
      | some i => s.cross c ts p (some i) (some o) noCheck
    else .ok s
  | _, _ => .ub

/-- `multimodal.cpp:550-675`. -/
def rideOn (c : Cfg) (ts v b : ℕ) (s : State) : Res State :=
  match (c.vstop v).busOut with
  | some o => Res.foldlM (ridePax c ts v o) s (s.loc (.bus b))
  | none => if s.loc (.bus b) ≠ [] then .throw "Bus is NOT empty" else .ok s

/-- `multimodal.cpp:544-705` `release_bus`. -/
def releaseBus (c : Cfg) (ts v b : ℕ) (s : State) : Res State :=
  (rideOn c ts v b s).bind fun s =>
    (addIncrement (s.bOut v) ((ts : ℚ) + 1, 1 / c.scalar)).bind fun k =>
      if b ∈ s.busQ v then
        .ok { s with bOut := upd s.bOut v k, busQ := upd s.busQ v ((s.busQ v).erase b) }
      else .throw "Bus not in m_bus_queue!"

/-- `multimodal.cpp:707-796` `receive_bus` with `update_routing_passenger` (lines 799-810). -/
def receiveBus (c : Cfg) (orc : Orc) (ts v b : ℕ) (s : State) : Res State :=
  (addIncrement (s.bIn v) ((ts : ℚ) + 1, 1 / c.scalar)).bind fun k =>
    (fixedOneStop c { s with bIn := upd s.bIn v k, busQ := upd s.busQ v (s.busQ v ++ [b]) } v).bind
      fun s => adaptiveOneStop c orc s v

/-- `multimodal.cpp:3981-4028` (and lines 4288-4347 and the last cell of a cell transmission link):
what a driving link does with a bus at stop `v`. -/
def visitBus (c : Cfg) (ts v b : ℕ) (shuffle : List ℕ → List ℕ) (s : State) : Res State :=
  (holdBus c v b s).bind fun r =>
    if r.2 then
      if r.1.stopped b > c.lost then boardAlight c ts v b shuffle r.1 else .ok r.1
    else releaseBus c ts v b { r.1 with stopped := upd r.1.stopped b 0 }

/-- One call at a stop.  The first case restricts what the driving links do: a bus comes to a stop
of its route only when it is at no stop.  (A bus is at one position of one link, at most one stop
of its route is at a position, lines 7913-7935 and 7957-7974, and the bus leaves a position only
after `release_bus` at the stop there.) -/
def busEv (c : Cfg) (orc : Orc) (ts : ℕ) (s : State) : BusEv → Res State
  | .receive v b =>
    if (v ∈ c.vstopIds ∧ (c.vstop v).route = c.busRoute b) ∧ ∀ v' ∈ c.vstopIds, b ∉ s.busQ v' then
      receiveBus c orc ts v b s
    else .throw "not possible: the bus is at a stop"
  | .visit v b sh => visitBus c ts v b sh s

/-! ## Parking lots and receiving -/

/-- `multimodal.cpp:1441-1533`: one car that arrives at parking lot `k`.  (The counter of lines
1456-1473 is taken modulo 1: every park-and-ride car brings one passenger.) -/
def parkCar (orc : Orc) (ts k : ℕ) (s : State) (car : CarIn) : State :=
  let s := { s with parked := upd s.parked k (s.parked k + 1) }
  if car.pnr then
    let id := s.num + 1
    let s1 := s.makePax ts car.adaptive true (orc.junk id) car.origin car.dest (some car.path)
      car.assign
    { s1 with
      numPnr := s1.numPnr + 1
      enroutePnr := s1.enroutePnr + 1
      loc := upd s1.loc (.lot k) (s1.loc (.lot k) ++ [id]) }
  else s

/-- `multimodal.cpp:1546-1564`: occupancy and cruising time of a parking lot. -/
def lotRecord (c : Cfg) (ts k : ℕ) (s : State) : State :=
  let occ : ℚ := s.parked k
  let time := if occ ≥ (c.lot k).capacity then 10 * (c.lot k).avg
    else (c.lot k).avg / (1 - occ / (c.lot k).capacity)
  { s with
    occupancy := upd s.occupancy k occ
    cruise := upd s.cruise k ((s.cruise k).insert ((ts : ℤ) + 1) time) }

/-- `multimodal.cpp:1420-1565` `release_one_interval_passenger` of a parking lot. -/
def lotRelease (c : Cfg) (orc : Orc) (ts k : ℕ) (s : State) : State :=
  lotRecord c ts k ((orc.cars k).foldl (parkCar orc ts k) s)

/-- `multimodal.cpp:1400-1417` `get_cruise_time`. -/
def cruiseTime (s : State) (k : ℕ) (t : ℤ) : Res ℚ :=
  match (s.cruise k).get t with
  | some x => .ok x
  | none =>
    if ((s.cruise k).length : ℤ) - 1 < t then
      match (s.cruise k).get (((s.cruise k).length : ℤ) - 1) with
      | some x => .ok x
      | none => .ub
    else .throw "record does not exist in m_cruising_time_record!"

/-- `multimodal.cpp:2476-2498`: one passenger in the queue of destination `d`;
`remove_finished` (lines 5967-5982) forgets the tracked list. -/
def receivePax (c : Cfg) (ts d : ℕ) (s : State) (p : ℕ) : Res State :=
  if (c.dest (s.pax p).dest).node ≠ (c.dest d).node then
    .throw "passenger reaches wrong destination!"
  else
    let s1 := { s with pax := upd s.pax p { s.pax p with finish := ts } }
    let s2 := s1.shift p (.dest d) .gone
    { s2 with tracker := upd s2.tracker p none }.removePax p

/-- `multimodal.cpp:2434-2500` `MNM_Destination_Multimodal::receive` (vehicles other than cars that
park are left out). -/
def receive (c : Cfg) (orc : Orc) (ts : ℕ) (s : State) (d : ℕ) : Res State :=
  let s := match (c.dest d).lot with
    | none => s
    | some k => lotRelease c orc ts k s
  Res.foldlM (receivePax c ts d) s (s.loc (.dest d))

/-- `multimodal.cpp:1575-1624`, one passenger in a parking lot. -/
def lotPax (c : Cfg) (ts k : ℕ) (s : State) (p : ℕ) : Res State :=
  match (s.pax p).next with
  | none => .throw "passenger cannot walk out parking lot"
  | some n =>
    if (c.link n).kind.walking ∧ n ∈ (c.lot k).walkOut then
      ((s.setWait p 0).shift p (.lot k) (.incoming n)).cross c ts p none (some n) noCheck
    else .throw "passenger cannot walk out parking lot"

/-- `multimodal.cpp:1567-1627` `MNM_Parking_Lot::evolve`. -/
def lotEvolve (c : Cfg) (ts : ℕ) (s : State) (k : ℕ) : Res State :=
  Res.foldlM (lotPax c ts k) s (s.loc (.lot k))

/-- `multimodal.cpp:10718-10728` step 10. -/
def lotRouting (c : Cfg) (orc : Orc) (s : State) : Res State :=
  (Res.foldlM (fun s k => Res.foldlM (fixedLot c orc) s (s.loc (.lot k))) s c.lotIds).bind fun s =>
    Res.foldlM (fun s k =>
      Res.foldlM (adaptiveStart c orc (c.lot k).node) s (s.loc (.lot k))) s c.lotIds

/-! ## Records and the loading loop -/

/-- `multimodal.cpp:10414-10431` `record_queue_passengers` (the total). -/
def recordQueue (c : Cfg) (s : State) : State :=
  { s with queueNum := s.queueNum ++
      [((c.linkIds.filter fun l => (c.link l).kind.walking).map
        fun l => (s.loc (.finished l)).length).sum] }

/-- `multimodal.cpp:10433-10447` `record_enroute_passengers`. -/
def recordEnroute (s : State) : State :=
  { s with enrouteNum := s.enrouteNum ++
      [(s.map.length : ℤ) - (s.map.countP fun p => decide ((s.pax p).finish > 0) : ℕ)] }

/-- `multimodal.cpp:10465-10678` `load_once`, passengers: steps 1, 2, 4-7 and the record of waiting
passengers. -/
def beforeBuses (c : Cfg) (orc : Orc) (ts assign : ℕ) (s : State) : Res State :=
  (stepRelease c orc ts assign s).bind fun s =>
  (routing c orc s).bind fun s =>
  (Res.foldlM (originEvolve c ts) s c.originIds).bind fun s =>
  (Res.foldlM (destEvolve c ts) s c.destIds).bind fun s =>
  (Res.foldlM (stopEvolve c ts) s c.pstopIds).bind fun s =>
  (Res.foldlM (walkStep c orc) s c.linkIds).bind fun s =>
  (implicitStep c orc ts s).bind fun s =>
    .ok (recordQueue c s)

/-- `multimodal.cpp:10700-10757` `load_once`, passengers: steps 9-12. -/
def afterBuses (c : Cfg) (orc : Orc) (ts : ℕ) (s : State) : Res State :=
  (Res.foldlM (receive c orc ts) s c.destIds).bind fun s =>
  (lotRouting c orc s).bind fun s =>
  (Res.foldlM (lotEvolve c ts) s c.lotIds).bind fun s =>
    .ok (recordEnroute s)

/-- `multimodal.cpp:10465-10757` `load_once`, passengers; in step 8 the driving links call the bus
stops. -/
def loadOnce (c : Cfg) (orc : Orc) (ts assign : ℕ) (s : State) : Res State :=
  (beforeBuses c orc ts assign s).bind fun s =>
  (Res.foldlM (busEv c orc ts) s orc.buses).bind fun s =>
    afterBuses c orc ts s

/-- `multimodal.cpp:10758-10795` the body of `loading`, once per oracle given. -/
def loadMany (c : Cfg) : List Orc → ℕ → ℕ → State → Res (State × ℕ × ℕ)
  | [], ts, assign, s => .ok (s, ts, assign)
  | o :: os, ts, assign, s =>
    (loadOnce c o ts assign s).bind fun s =>
      loadMany c os (ts + 1) (if (ts + 1) % c.assignFreq = 0 then assign + 1 else assign) s

/-- The state before loading. -/
def State.init (c : Cfg) : State :=
  { num := 0, enroute := 0, finished := 0, total := 0, numPnr := 0, enroutePnr := 0,
    finishedPnr := 0, map := [],
    pax := fun _ => ⟨false, false, 0, none, none, 0, 0, none, -1, 0, -1⟩,
    loc := fun _ => [], stamp := fun _ _ => 0, tracker := fun _ => none,
    nIn := fun _ => install, nOut := fun _ => install, busQ := fun _ => [], counter := fun _ => 0,
    bIn := fun _ => install, bOut := fun _ => install, stopped := fun _ => 0, parked := fun _ => 0,
    occupancy := fun _ => 0, cruise := fun k => [(0, (c.lot k).avg)], queueNum := [],
    enrouteNum := [], log := [] }

end Verif.Tr

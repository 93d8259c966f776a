import Verif.Model.Ults
import Verif.Model.Net

/-!
# Model of the vehicles of a multimodal loading (`src/multimodal.cpp`)

Demand of vehicles per minute (8497-8835), the vehicle factory (2156-2284), release of cars, trucks, buses and
park-and-ride cars (2608-3072), the vehicle part of `get_travel_stats` (`_ext/mmdta.cpp:1684-1862`) and the fixed routing
of the four kinds (5330-5810, `routing.cpp:789-952`, 7338-7410).

Left out: labels of vehicles, texts that are printed, parsing of the words of a demand line.
-/

namespace Verif.MmF
open Ults

/-! ## Demand -/

/-- `multimodal.cpp:8576-8591`, `8596-8611`, `8681-8694`, `8793-8806` and `multiclass.cpp:3858-3888`: the number of
minutes over which the demand of an interval is spread, the largest `k` with at least one vehicle in each; `none` if the
loop ends without one. -/
def firstFit (scalar d : ℚ) : ℕ → Option ℕ
  | 0 => none
  | k + 1 => if 1 ≤ ⌊d / ((k + 1 : ℕ) : ℚ) * scalar⌋ then some (k + 1) else firstFit scalar d k

/-- `multimodal.cpp:8566-8613`, `8672-8701`, `8784-8812` and `multiclass.cpp:3846-3893`: the minutes of one interval with
demand `d`; `split` is `init_demand_split` and `n` is `_num_of_minute`. -/
def spreadRow (split : ℤ) (n : ℕ) (scalar d : ℚ) : Res (List ℚ) :=
  if split = 0 then
    if n = 0 then .ub else .ok (d :: List.replicate (n - 1) 0)
  else if split = 1 then
    match firstFit scalar d n with
    | none => .ok (List.replicate n 0)
    | some k => .ok (List.replicate k (d / (k : ℚ)) ++ List.replicate (n - k) 0)
  else .throw "Wrong init_demand_split"

/-- The loop over the intervals of a line. -/
def minuteRow (split : ℤ) (n : ℕ) (scalar : ℚ) : List ℚ → Res (List ℚ)
  | [] => .ok []
  | d :: ds =>
    (spreadRow split n scalar d).bind fun x => (minuteRow split n scalar ds).bind fun xs => .ok (x ++ xs)

/-- `multimodal.cpp:2608-2659` `add_dest_demand_bus`, `add_dest_demand_pnr_car` and `multiclass.cpp:2982-3001`: fifteen
entries per interval are copied, whatever the size of the array is. -/
def copyRow (intervals : ℕ) (xs : List ℚ) : Res (List ℚ) :=
  if xs.length < intervals * 15 then .ub else .ok (xs.take (intervals * 15))

/-- A line of a demand file, as it is kept by the origin. -/
def readRow (split : ℤ) (n : ℕ) (scalar : ℚ) (ds : List ℚ) : Res (List ℚ) :=
  (minuteRow split n scalar ds).bind (copyRow ds.length)

/-! ## The vehicle factory -/

/-- What the counters tell apart. -/
inductive Kind where
  | car | pnr | truck | bus
deriving DecidableEq, Repr

/-- A vehicle: number, `m_class` (1: `truck`), `m_bus_route_ID`, `m_pnr`, `m_type`, origin, destination, `m_start_time`,
`m_assign_interval`, `m_capacity`, `m_waiting_time`. -/
structure Veh where
  id : ℕ
  truck : Bool
  route : ℤ
  pnr : Bool
  adaptive : Bool
  origin : ℕ
  dest : ℕ
  start : ℤ
  assign : ℤ
  capacity : ℤ
  wait : ℤ
deriving DecidableEq, Repr

/-- The case distinction of `multimodal.cpp:2211-2235` and `2243-2269`. -/
def Veh.kind (v : Veh) : Kind :=
  if v.truck then (if v.route ≠ -1 then .bus else .truck)
  else if v.pnr then .pnr else .car

/-- The factory: `m_veh_map` in the order of making, and its counters; those that exist for each kind are functions of
the kind. -/
structure Fleet where
  vehs : List Veh
  num : ℕ
  enroute : ℤ
  finished : ℤ
  time : ℤ
  numOf : Kind → ℤ
  enrouteOf : Kind → ℤ
  finishedOf : Kind → ℤ
  timeCar : ℤ
  timeTruck : ℤ
  timeBus : ℤ

/-- `multimodal.cpp:2156-2178`: a new factory. -/
def Fleet.empty : Fleet := ⟨[], 0, 0, 0, 0, fun _ => 0, fun _ => 0, fun _ => 0, 0, 0, 0⟩

/-- `multimodal.cpp:2182-2237` `make_veh_multimodal`, the counters. -/
def Fleet.make (f : Fleet) (v : Veh) : Fleet :=
  { f with
    vehs := f.vehs ++ [v]
    num := f.num + 1
    enroute := f.enroute + 1
    numOf := upd f.numOf v.kind (f.numOf v.kind + 1)
    enrouteOf := upd f.enrouteOf v.kind (f.enrouteOf v.kind + 1) }

/-- `multimodal.cpp:2239-2278` `remove_finished_veh` and `factory.cpp:41-67`: vehicle `id` has finished at `t` and is
deleted. -/
def Fleet.remove (f : Fleet) (id : ℕ) (t : ℤ) : Res Fleet :=
  match f.vehs.find? (fun v => v.id == id) with
  | none => .throw "vehicle not found"
  | some v =>
    .ok { f with
      vehs := f.vehs.filter fun w => w.id != id
      enroute := f.enroute - 1
      finished := f.finished + 1
      time := f.time + (t - v.start)
      enrouteOf := upd f.enrouteOf v.kind (f.enrouteOf v.kind - 1)
      finishedOf := upd f.finishedOf v.kind (f.finishedOf v.kind + 1)
      timeCar := if v.truck then f.timeCar else f.timeCar + (t - v.start)
      timeTruck := if v.truck && decide (v.route = -1) then f.timeTruck + (t - v.start) else f.timeTruck
      timeBus := if v.truck && decide (v.route ≠ -1) then f.timeBus + (t - v.start) else f.timeBus }

/-- The vehicles in `get_travel_stats` (`_ext/mmdta.cpp:1684-1862`): numbers of cars, park-and-ride cars, trucks and
buses, hours of cars, trucks and buses. -/
structure Stats where
  cars : ℚ
  pnrs : ℚ
  trucks : ℚ
  buses : ℚ
  hoursCar : ℚ
  hoursTruck : ℚ
  hoursBus : ℚ
deriving DecidableEq, Repr

/-- `_ext/mmdta.cpp:1714-1747`: one vehicle of the map. -/
def Stats.add (unit : ℚ) (cur : ℤ) (s : Stats) (v : Veh) : Stats :=
  let h := ((cur - v.start : ℤ) : ℚ) * unit / 3600
  if !v.truck then
    let s := if v.pnr then { s with pnrs := s.pnrs + 1 } else { s with cars := s.cars + 1 }
    { s with hoursCar := s.hoursCar + h }
  else
    let s := if v.route = -1 then { s with trucks := s.trucks + 1 } else { s with buses := s.buses + 1 }
    { s with hoursBus := s.hoursBus + h }

/-- `_ext/mmdta.cpp:1684-1862` `get_travel_stats`, vehicles only. -/
def travelStats (unit scalar : ℚ) (cur : ℤ) (f : Fleet) : Stats :=
  let s := f.vehs.foldl (Stats.add unit cur)
    ⟨f.finishedOf .car, f.finishedOf .pnr, f.finishedOf .truck, f.finishedOf .bus,
     f.timeCar * unit / 3600, f.timeTruck * unit / 3600, f.timeBus * unit / 3600⟩
  ⟨s.cars / scalar, s.pnrs / scalar, s.trucks / scalar, s.buses / scalar, s.hoursCar / scalar,
   s.hoursTruck / scalar, s.hoursBus / scalar⟩

/-! ## Release -/

/-- An origin: number, `m_flow_scalar`, `m_frequency`, `m_pickup_waiting_time`; and `m_bus_capacity` of the factory. -/
structure Org where
  id : ℕ
  scalar : ℚ
  freq : ℕ
  wait : ℤ
  capacity : ℤ

/-- The demand of an origin by destination, for buses also by route, and adaptive ratios of destinations that have
them.  The maps are lists in the order in which the loops go through them. -/
structure Demand where
  car : List (ℕ × List ℚ)
  truck : List (ℕ × List ℚ)
  bus : List (ℕ × List (ℤ × List ℚ))
  pnr : List (ℕ × List ℚ)
  ratioCar : ℕ → Option (List ℚ)
  ratioTruck : ℕ → Option (List ℚ)

/-- Draws: rounding per destination, adaptivity per vehicle, and the shuffle of the queue. -/
structure Draws where
  uCar : ℕ → ℚ
  uTruck : ℕ → ℚ
  uPnr : ℕ → ℚ
  r : ℕ → ℚ
  shuffle : List ℕ → List ℕ

/-- The factory and the queue of the origin node. -/
structure State where
  fleet : Fleet
  queue : List ℕ

/-- `multimodal.cpp:2691-2717` and its copies: adaptive or static. -/
def adaptiveWith (ratio r : ℚ) : Bool :=
  if ratio = 0 then false else if ratio = 1 then true else decide (r ≤ ratio)

/-- The inner loops of the release: `n` vehicles are made and join the queue. -/
def releaseMany (mk : ℕ → Veh) : ℕ → State → State
  | 0, s => s
  | n + 1, s =>
    releaseMany mk n ⟨s.fleet.make (mk (s.fleet.num + 1)), s.queue ++ [s.fleet.num + 1]⟩

/-- A new car, truck or park-and-ride car (`multimodal.cpp:2690-2726`, `2741-2777`, `2823-2865`). -/
def newVeh (o : Org) (dr : Draws) (ts : ℕ) (truck pnr : Bool) (ratio : ℚ) (d id : ℕ) : Veh :=
  { id := id, truck := truck, route := -1, pnr := pnr, adaptive := adaptiveWith ratio (dr.r id), origin := o.id,
    dest := d, start := ts, assign := (ts / o.freq : ℕ), capacity := 1,
    wait := if pnr && !truck then o.wait else 0 }

/-- A new bus (`multimodal.cpp:2795-2809`). -/
def newBus (o : Org) (ts d : ℕ) (ρ : ℤ) (id : ℕ) : Veh :=
  { id := id, truck := true, route := ρ, pnr := false, adaptive := false, origin := o.id, dest := d, start := ts,
    assign := (ts / o.freq : ℕ), capacity := o.capacity, wait := 0 }

/-- Entry of a demand array; behind its end anything may happen. -/
def entry (xs : List ℚ) (a : ℕ) : Res ℚ :=
  match xs[a]? with
  | none => .ub
  | some x => .ok x

/-- `multimodal.cpp:2675-2678`: the ratio of the destination, if it has its own. -/
def ratioFor (own : ℕ → Option (List ℚ)) (a : ℕ) (ratio : ℚ) (d : ℕ) : Res ℚ :=
  match own d with
  | some f => entry f a
  | none => .ok ratio

/-- The loop over the destinations of one kind (`multimodal.cpp:2671-2728`, `2730-2778`, `2812-2866` and the copies in
`release_one_interval_biclass`): a ratio found for one destination stays in force for the following ones; the last one
is returned. -/
def releaseDests (o : Org) (dr : Draws) (ts a : ℕ) (truck pnr : Bool) (u : ℕ → ℚ) (own : ℕ → Option (List ℚ)) :
    ℕ → ℚ → List (ℕ × List ℚ) → State → Res (State × ℚ)
  | _, ratio, [], s => .ok (s, ratio)
  | k, ratio, (d, dem) :: rest, s =>
    (ratioFor own a ratio d).bind fun ratio =>
    (entry dem a).bind fun x =>
    (round (x * o.scalar) (u k)).bind fun n =>
      releaseDests o dr ts a truck pnr u own (k + 1) ratio rest
        (releaseMany (newVeh o dr ts truck pnr ratio d) n.toNat s)

/-- The routes of one destination (`multimodal.cpp:2786-2810`). -/
def releaseRoutes (o : Org) (ts a d : ℕ) : List (ℤ × List ℚ) → State → Res State
  | [], s => .ok s
  | (ρ, dem) :: rest, s =>
    (entry dem a).bind fun x =>
    (toInt ⌊x * o.scalar⌋).bind fun n =>
      releaseRoutes o ts a d rest (releaseMany (newBus o ts d ρ) n.toNat s)

/-- The buses (`multimodal.cpp:2780-2811`). -/
def releaseBuses (o : Org) (ts a : ℕ) : List (ℕ × List (ℤ × List ℚ)) → State → Res State
  | [], s => .ok s
  | (d, rs) :: rest, s => (releaseRoutes o ts a d rs s).bind fun s => releaseBuses o ts a rest s

/-- One ratio for all (`release_one_interval`, 2660-2868), or one for cars and one for trucks
(`release_one_interval_biclass`, 2870-3072). -/
inductive Ratios where
  | one (r : ℚ)
  | two (car truck : ℚ)

/-- The ratio the cars begin with. -/
def Ratios.car : Ratios → ℚ
  | .one r => r
  | .two c _ => c

/-- The ratio the trucks begin with; `left` is what is left over from the cars. -/
def Ratios.truck (left : ℚ) : Ratios → ℚ
  | .one _ => left
  | .two _ t => t

/-- The ratio of park-and-ride cars; left over from the cars and from the trucks. -/
def Ratios.pnr (leftCar leftTruck : ℚ) : Ratios → ℚ
  | .one _ => leftTruck
  | .two _ _ => leftCar

/-- `multimodal.cpp:2660-2868` and `2870-3072`, in assignment interval `a` (nothing if it is negative).  Park-and-ride
cars get the ratio left over from the trucks, or from the cars. -/
def release (o : Org) (dm : Demand) (dr : Draws) (ts : ℕ) (a : ℤ) (m : Ratios) (s : State) : Res State :=
  if a < 0 then .ok s
  else if o.freq = 0 then .ub
  else
    let a := a.toNat
    (releaseDests o dr ts a false false dr.uCar dm.ratioCar 0 m.car dm.car s).bind fun p =>
    (releaseDests o dr ts a true false dr.uTruck dm.ratioTruck 0 (m.truck p.2) dm.truck p.1).bind fun q =>
    (releaseBuses o ts a dm.bus q.1).bind fun s =>
    (releaseDests o dr ts a false true dr.uPnr (fun _ => none) 0 (m.pnr p.2 q.2) dm.pnr s).bind fun z =>
      .ok { z.1 with queue := dr.shuffle z.1.queue }

/-! ## Fixed routing -/

/-- The four fixed routings of a multimodal network: `m_routing_fixed_car`, `m_routing_fixed_truck`,
`m_routing_bus_fixed`, `m_routing_car_pnr_fixed`. -/
inductive Router where
  | car | truck | bus | pnr
deriving DecidableEq, Repr

/-- The vehicles a routing is for, static or adaptive (`routing.cpp:850-853, 872-875`, `multimodal.cpp:5452-5455`,
`5694-5697, 5715-5718`). -/
def Router.handles (r : Router) (v : Veh) : Bool :=
  match r with
  | .car => !v.truck && decide (v.route = -1) && !v.pnr
  | .truck => v.truck && decide (v.route = -1) && !v.pnr
  | .bus => v.truck && decide (v.route ≠ -1) && !v.pnr
  | .pnr => !v.truck && decide (v.route = -1) && v.pnr

/-- Adaptive vehicles get a nominal path, except from the bus routing (5452-5467 has no such branch). -/
def Router.nominal (r : Router) : Bool := decide (r ≠ .bus)

/-- Where a vehicle is: in the queue of its origin, on a link, at the end of a link (`m_finished_array`), or out of the
network (at its destination, or in its parking lot). -/
inductive Place where
  | queue
  | on (l : ℤ)
  | atEnd (l : ℤ)
  | out
deriving DecidableEq, Repr

/-- A vehicle under way as routing sees it: place, `get_current_link`, `get_next_link`, `m_path`, and the entries of the
four trackers.  `trace` is a ghost: the links entered so far. -/
structure Trip where
  place : Place
  cur : Option ℤ
  next : Option ℤ
  path : Option (List ℤ)
  goal : Option ℤ            -- `m_mid_dest_node_ID` of the path, for park-and-ride
  track : Router → Option (List ℤ)
  trace : List ℤ

/-- A vehicle just released. -/
def Trip.start : Trip := ⟨.queue, none, none, none, none, fun _ => none, []⟩

/-- The network: `m_to_node` of links that exist, the node of the destination of the vehicle, what `register_veh` of each
routing finds (`routing.cpp:564-614`, `multimodal.cpp:5383-5422`, `5597-5656`: the links and, for park-and-ride, the
node of the parking lot). -/
structure Roads where
  toNode : ℤ → Option ℤ
  dnode : ℤ
  reg : Router → Res (List ℤ × ℤ)

/-- `front` and `pop_front` of the tracked links and `set_next_link` (`routing.cpp:860-863`, `multimodal.cpp:5460-5464`,
`5702-5706`). -/
def takeNext (w : Roads) (r : Router) (t : Trip) : Res Trip :=
  match t.track r with
  | none => .ub
  | some [] => .ub
  | some (l :: rest) =>
    match w.toNode l with
    | none => .throw "link does not exist"
    | some _ => .ok { t with next := some l, track := upd t.track r (some rest) }

/-- `register_veh`, with or without tracking. -/
def register (w : Roads) (r : Router) (track : Bool) (t : Trip) : Res Trip :=
  (w.reg r).bind fun p =>
    .ok { t with
      path := some p.1
      goal := if r = .pnr then some p.2 else t.goal
      track := if track then upd t.track r (some p.1) else t.track }

/-- A vehicle in the queue of an origin (`routing.cpp:850-884`, `multimodal.cpp:5446-5467`, `5689-5727`). -/
def atQueue (w : Roads) (r : Router) (v : Veh) (t : Trip) : Res Trip :=
  if r.handles v then
    if v.adaptive then
      if r.nominal && t.path.isNone then register w r false t else .ok t
    else
      match t.track r with
      | some _ => .ok t
      | none => (register w r true t).bind (takeNext w r)
  else .ok t

/-- A vehicle at the end of link `l` (`routing.cpp:900-936`, `multimodal.cpp:5479-5522`, `5741-5793`): at its destination
(at its parking lot, for park-and-ride) the tracked links must be used up; elsewhere the next one is taken once the
vehicle has entered the previous one. -/
def atExit (w : Roads) (r : Router) (v : Veh) (l : ℤ) (t : Trip) : Res Trip :=
  if r.handles v && !v.adaptive then
    match w.toNode l with
    | none => .ub
    | some n =>
      match (if r = .pnr then t.goal else some w.dnode) with
      | none => .ub
      | some g =>
        if g = n then
          match t.track r with
          | none => .ub
          | some [] => .ok { t with next := none }
          | some (_ :: _) => .throw "Something wrong in fixed routing!"
        else
          match t.track r with
          | none => .throw "Vehicle not registered in link, impossible!"
          | some tr =>
            if t.cur = t.next then
              (if tr.head? = some (-1) then .throw "wrong next link 2" else takeNext w r t)
            else .ok t
  else .ok t

/-- One routing and one vehicle. -/
def Router.one (w : Roads) (v : Veh) (t : Trip) (r : Router) : Res Trip :=
  match t.place with
  | .queue => atQueue w r v t
  | .on _ => .ok t
  | .atEnd l => atExit w r v l t
  | .out => .ok t

/-- `multimodal.cpp:7357-7375` `MNM_Routing_Multimodal_Hybrid::update_routing` for one vehicle; `ad` is what the adaptive
routing does with its vehicles (`7054-7280`: adaptive and not a bus). -/
def updateRouting (w : Roads) (v : Veh) (ad : Trip → Res Trip) (t : Trip) : Res Trip :=
  (Res.foldlM (Router.one w v) t [.car, .truck, .bus, .pnr]).bind fun t =>
    if v.adaptive && decide (v.route = -1) then ad t else .ok t

/-- What happens to the vehicle: routing, the node it is at (`enter`), and coming to the end of a link (`arrive`). -/
inductive Move where
  | route (ad : Trip → Res Trip)
  | enter
  | arrive

/-- One move; moves that cannot take place do nothing.  A node puts a vehicle into its next link and makes it the current
one (`multiclass.cpp:2273-2345`, `2556-2660`); a vehicle at the end of link `l` whose next link is still `l` waits for routing.  A
vehicle without next link at the end of a link leaves the network (`multiclass.cpp:2390-2440`, `multimodal.cpp:2434-2480`). -/
def step (w : Roads) (v : Veh) (t : Trip) : Move → Res Trip
  | .route ad => updateRouting w v ad t
  | .enter =>
    match t.place with
    | .queue =>
      match t.next with
      | none => .ok t
      | some l => .ok { t with place := .on l, cur := some l, trace := t.trace ++ [l] }
    | .atEnd m =>
      match t.next with
      | none => .ok { t with place := .out }
      | some l =>
        if l = m then .ok t
        else .ok { t with place := .on l, cur := some l, trace := t.trace ++ [l] }
    | .on _ => .ok t
    | .out => .ok t
  | .arrive =>
    match t.place with
    | .on l => .ok { t with place := .atEnd l }
    | _ => .ok t

/-- A history of the vehicle. -/
def run (w : Roads) (v : Veh) (t : Trip) (ms : List Move) : Res Trip := Res.foldlM (step w v) t ms

/-! ## Adaptive park-and-ride cars -/

/-- What adaptive routing knows: the node of the destination of each node that is one (`MNM_DMDND`) with whether it has a
parking lot, the nodes of the parking lots connected to the destination of the vehicle, its node, and the tree towards
each parking lot. -/
structure Lots where
  isDest : ℤ → Option Bool
  lots : List ℤ
  final : ℤ
  tree : ℤ → ℤ → Option ℤ

/-- `multimodal.cpp:6949-7051` `find_mid_destination_for_pnr` at node `n`: a node that is a destination is the mid
destination itself if it has a parking lot; otherwise the first parking lot after a shuffle that is not at the final
destination.  The travel times that are computed there have no effect. -/
def findMid (c : Lots) (shuffle : List ℤ → List ℤ) (n : ℤ) : Res (Option ℤ) :=
  match c.isDest n with
  | some true => .ok (some n)
  | some false => .throw "pnr vehicle already on OD connector but cannot find mid parking lot"
  | none => .ok ((shuffle c.lots).find? fun l => l != c.final)

/-- `multimodal.cpp:7054-7280` `update_routing_vehicle` for one adaptive park-and-ride car at node `n`: the next link, or
none at the parking lot.  Nodes from which a parking lot cannot be reached (`_next_link_ID < 0`) are errors here, though
cars already on their way are then sent along a random link. -/
def nextPnr (c : Lots) (shuffle : List ℤ → List ℤ) (n : ℤ) : Res (Option ℤ) :=
  (findMid c shuffle n).bind fun g =>
    match g with
    | none => .throw "PnR routing is wrong"
    | some g =>
      if g = n then .ok none
      else
        match c.tree g n with
        | none => .throw "wrong next link"
        | some l => .ok (some l)

/-- The trip of an adaptive park-and-ride car from node `n`, one shuffle for each node it comes to: the links it takes,
and whether it has come to a parking lot. -/
def drivePnr (c : Lots) (toNode : ℤ → ℤ) : List (List ℤ → List ℤ) → ℤ → Res (List ℤ × Bool)
  | [], _ => .ok ([], false)
  | sh :: rest, n =>
    (nextPnr c sh n).bind fun x =>
      match x with
      | none => .ok ([], true)
      | some l => (drivePnr c toNode rest (toNode l)).bind fun p => .ok (l :: p.1, p.2)

end Verif.MmF

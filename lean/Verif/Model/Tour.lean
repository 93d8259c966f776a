import Verif.Model.Charge
import Verif.Model.Net

/-!
# Model of tours and electrified vehicles (`src/delivery_traffic.cpp` 1-428, `src/ev_traffic.cpp` 118-371)

Origins that release vehicles with one trip and vehicles with a sequence of trips (delivery vehicles), some of them
electrified; destinations that send vehicles on to their next trip; point queues that keep vehicles waiting at origins.
What is between origins and destinations is an arbitrary environment.  Every origin has a node of its own.
-/

namespace Verif.Tour
open Ults

/-- A vehicle (`vehicle.h`, `delivery_traffic.h:5-22`, `ev_traffic.h`).  `seq` is `m_multi_od_seq`; it is set right after
a delivery vehicle is made, so it also tells whether the vehicle is a `MNM_Veh_Delivery`.  `ev` is the battery of an
electrified vehicle; the fields `adaptive`, `station`, `cur` and `next` of `Ev` are not used. -/
structure Veh where
  start : ℤ                        -- `m_start_time`
  finish : ℤ                       -- `m_finish_time`
  adaptive : Bool                  -- `m_type`
  label : ℤ
  assign : ℤ                       -- `m_assign_interval`
  origin : ℕ
  dest : ℕ
  ev : Option Chg.Ev
  seq : Option (List (ℕ × ℕ))
  index : ℕ                        -- `m_current_OD_index`
  waiting : ℤ                      -- `m_waiting_time`

/-- An origin (`od.h`, `delivery_traffic.h:53-76`, `ev_traffic.h`): demand by destination, tours with their demand, the
waiting time at pick-ups in intervals, and the share of electrified vehicles that use roadside charging. -/
structure Origin where
  freq : ℕ
  labels : List ℚ
  demand : List (ℕ × (ℕ → ℚ))
  tours : List (List (ℕ × ℕ) × (ℕ → ℚ))
  pickup : ℤ
  roadside : ℚ

/-- What does not change.  `evLabel` is `m_ev_label`; `none` for `MNM_Dta_Delivery`, where origins are
`MNM_Origin_Delivery`. -/
structure Cfg where
  scalar : ℚ
  assignFreq : ℕ
  totalAssign : ℕ
  ratio : ℚ                        -- `adaptive_ratio`, within [0, 1]
  evLabel : Option ℤ
  rangeRoadside : ℚ
  rangeOther : ℚ
  full : ℚ
  origins : List ℕ
  origin : ℕ → Origin
  dests : List ℕ

/-- Vehicles, the vehicle factory, the queues of origins and destinations.  `road` are the vehicles in between; `trips`
(pairs of origin and destination) and `seen` (destinations that received the vehicle) are what happened so far; they are
never read. -/
structure State where
  veh : ℕ → Veh
  map : List ℕ                     -- `m_veh_map`
  num : ℕ                          -- `m_num_veh`
  enroute : ℤ
  finished : ℤ
  total : ℤ                        -- `m_total_time`
  delivery : ℕ                     -- `m_veh_delivery`
  electrified : ℕ                  -- `m_veh_electrified`
  nonRoadside : ℕ                  -- `m_veh_non_roadside_charging`
  queue : ℕ → List ℕ               -- `m_in_veh_queue` of the node of the origin
  out : ℕ → List ℕ                 -- `m_out_veh_queue` of the node of the destination
  road : List ℕ
  trips : ℕ → List (ℕ × ℕ)
  seen : ℕ → List ℕ

/-- Random draws of a release, by number of the vehicle. -/
structure ReleaseOracle where
  u : ℕ → ℚ                  -- rounding of the demand, by position
  u' : ℕ → ℚ                 -- rounding of the demand for tours
  l : ℕ → ℚ                  -- label
  r : ℕ → ℚ                  -- adaptive or static
  road : ℕ → ℚ               -- roadside charging
  shuffle : List ℕ → List ℕ

/-- The vehicle of that label is electrified (`ev_traffic.cpp:250`, `319`). -/
def Cfg.isEv (c : Cfg) (label : ℤ) : Bool :=
  match c.evLabel with
  | none => false
  | some e => decide (0 ≤ e ∧ label = e)

/-- `ev_traffic.cpp:249-281` with `make_veh_electrified` (`129-148`), and `delivery_traffic.cpp:241-251`: a vehicle with
one trip. -/
def single (c : Cfg) (oid : ℕ) (orc : ReleaseOracle) (ts d id : ℕ) : Veh :=
  let o := c.origin oid
  let label := Net.generateLabel o.labels (orc.l id)
  let plain : Veh :=
    { start := ts, finish := -1, adaptive := decide (orc.r id ≤ c.ratio), label := label, assign := (ts / o.freq : ℕ),
      origin := oid, dest := d, ev := none, seq := none, index := 0, waiting := 0 }
  if c.isEv label then
    if orc.road id ≤ o.roadside then
      { plain with adaptive := true, ev := some (Chg.Ev.make c.rangeRoadside c.full true false) }
    else { plain with ev := some (Chg.Ev.make c.rangeOther c.full false false) }
  else plain

/-- `ev_traffic.cpp:318-361` with `make_veh_electrified_delivery` (`150-171`), and `delivery_traffic.cpp:269-290`: a
vehicle with the sequence `sq` of trips, the first of which leads to `d`. -/
def touring (c : Cfg) (oid : ℕ) (orc : ReleaseOracle) (ts : ℕ) (sq : List (ℕ × ℕ)) (d id : ℕ) : Veh :=
  let o := c.origin oid
  let label := Net.generateLabel o.labels (orc.l id)
  let plain : Veh :=
    { start := ts, finish := -1, adaptive := decide (orc.r id ≤ c.ratio), label := label, assign := (ts / o.freq : ℕ),
      origin := oid, dest := d, ev := none, seq := some sq, index := 0, waiting := 0 }
  if c.isEv label then
    let road := decide (orc.road id ≤ o.roadside)
    let ev := Chg.Ev.make (if road then c.rangeRoadside else c.rangeOther) c.full road true
    { plain with ev := some ev, adaptive := if road && ev.needCharging then true else plain.adaptive }
  else plain

/-- The factory (`factory.cpp:22-40`, `delivery_traffic.cpp:61-76`, `ev_traffic.cpp:129-171`) takes the vehicle, and it is
put into the queue of its origin. -/
def State.make (s : State) (v : Veh) : State :=
  let id := s.num + 1
  { s with
    veh := upd s.veh id v
    map := s.map ++ [id]
    num := id
    enroute := s.enroute + 1
    delivery := s.delivery + (if v.seq.isSome then 1 else 0)
    electrified := s.electrified + (if v.ev.isSome then 1 else 0)
    nonRoadside := s.nonRoadside + (match v.ev with | some e => if e.roadside then 0 else 1 | none => 0)
    queue := upd s.queue v.origin (s.queue v.origin ++ [id])
    trips := upd s.trips id [(v.origin, v.dest)]
    seen := upd s.seen id [] }

/-- `n` vehicles, each made by `f` from its number. -/
def makeMany (f : ℕ → Veh) : ℕ → State → State
  | 0, s => s
  | n + 1, s => makeMany f n (s.make (f (s.num + 1)))

/-- `ev_traffic.cpp:243-309`, `delivery_traffic.cpp:231-259`: the loop over destinations. -/
def releaseDests (c : Cfg) (oid : ℕ) (orc : ReleaseOracle) (ts assign : ℕ) :
    ℕ → List (ℕ × (ℕ → ℚ)) → State → Res State
  | _, [], s => .ok s
  | k, (d, dem) :: rest, s =>
    (round (dem assign * c.scalar) (orc.u k)).bind fun n =>
      releaseDests c oid orc ts assign (k + 1) rest (makeMany (single c oid orc ts d) n.toNat s)

/-- `ev_traffic.cpp:311-365`, `delivery_traffic.cpp:261-293`: the loop over tours; `at (0)` throws for an empty one. -/
def releaseTours (c : Cfg) (oid : ℕ) (orc : ReleaseOracle) (ts assign : ℕ) :
    ℕ → List (List (ℕ × ℕ) × (ℕ → ℚ)) → State → Res State
  | _, [], s => .ok s
  | k, (sq, dem) :: rest, s =>
    (round (dem assign * c.scalar) (orc.u' k)).bind fun n =>
      match sq with
      | [] => if 0 < n then .throw "out_of_range" else releaseTours c oid orc ts assign (k + 1) rest s
      | p :: _ => releaseTours c oid orc ts assign (k + 1) rest (makeMany (touring c oid orc ts sq p.2) n.toNat s)

/-- `ev_traffic.cpp:229-370` and `delivery_traffic.cpp:211-298` `release_one_interval` with a non-negative assignment
interval. -/
def releaseOne (c : Cfg) (oid : ℕ) (orc : ReleaseOracle) (ts assign : ℕ) (s : State) : Res State :=
  if (c.origin oid).freq = 0 then .ub
  else
    (releaseDests c oid orc ts assign 0 (c.origin oid).demand s).bind fun s =>
    (releaseTours c oid orc ts assign 0 (c.origin oid).tours s).bind fun s =>
      .ok { s with queue := upd s.queue oid (orc.shuffle (s.queue oid)) }

/-- `ev_traffic.cpp:202-227`: the loop body of `adjust_multi_OD_seq_veh_routing_type`; `r` are the draws. -/
def adjustVeh (c : Cfg) (r : ℕ → ℚ) (s : State) (v : ℕ) : State :=
  match (s.veh v).ev, (s.veh v).seq with
  | some e, some _ =>
    { s with veh := upd s.veh v { s.veh v with
        adaptive := if e.needCharging then true else decide (r v ≤ c.ratio) } }
  | _, _ => s

/-- `ev_traffic.cpp:202-227` `adjust_multi_OD_seq_veh_routing_type`; not called by `MNM_Dta_Delivery`. -/
def adjust (c : Cfg) (r : ℕ → ℚ) (oid : ℕ) (s : State) : State :=
  match c.evLabel with
  | none => s
  | some _ => (s.queue oid).foldl (adjustVeh c r) s

/-- `delivery_traffic.cpp:39-49` `move_to_next_od`. -/
def Veh.advance (v : Veh) (sq : List (ℕ × ℕ)) : Veh :=
  match sq[v.index + 1]? with
  | some p => { v with index := v.index + 1, origin := p.1, dest := p.2 }
  | none => v

/-- `vehicle.cpp` `finish` and `factory.cpp:41-67` `remove_finished_veh` with `del`. -/
def State.finish (s : State) (ts v : ℕ) : Res State :=
  if v ∈ s.map then
    .ok { s with
      veh := upd s.veh v { s.veh v with finish := ts }
      map := s.map.filter (· ≠ v)
      total := s.total + (ts - (s.veh v).start)
      finished := s.finished + 1
      enroute := s.enroute - 1 }
  else .throw "vehicle not found"

/-- `delivery_traffic.cpp:378-428`: the loop body of `receive`; what routing forgets is left out. -/
def receiveVeh (c : Cfg) (ts d : ℕ) (s : State) (v : ℕ) : Res State :=
  if (s.veh v).dest ≠ d then .throw "vehicle reaches wrong destination!"
  else
    let s := { s with
      out := upd s.out d ((s.out d).tail)
      seen := upd s.seen v (s.seen v ++ [d]) }
    match (s.veh v).seq with
    | none => s.finish ts v
    | some sq =>
      match sq.getLast?, sq[(s.veh v).index]? with
      | none, _ => .ub
      | _, none => .throw "out_of_range"
      | some last, some cur =>
        if last.2 ≠ cur.2 then
          let w := (s.veh v).advance sq
          .ok { s with
            veh := upd s.veh v { w with waiting := (c.origin w.origin).pickup }
            queue := upd s.queue w.origin (s.queue w.origin ++ [v])
            trips := upd s.trips v (s.trips v ++ [(w.origin, w.dest)]) }
        else s.finish ts v

/-- `delivery_traffic.cpp:366-428` `receive`. -/
def receive (c : Cfg) (ts : ℕ) (s : State) (d : ℕ) : Res State :=
  Res.foldlM (receiveVeh c ts d) s (s.out d)

/-- What happens between origins and destinations in an interval: vehicles that leave the queues of origins (origin,
vehicle), vehicles that reach the queues of destinations (vehicle, destination), and what happens to batteries and
waiting times of the vehicles on the road. -/
structure Around where
  leave : List (ℕ × ℕ)
  arrive : List (ℕ × ℕ)
  ev : ℕ → Chg.Ev → Chg.Ev
  waiting : ℕ → ℤ

/-- A vehicle leaves the queue of origin `p.1`. -/
def State.leave (s : State) (p : ℕ × ℕ) : State :=
  if p.2 ∈ s.queue p.1 then
    { s with queue := upd s.queue p.1 ((s.queue p.1).filter (· ≠ p.2)), road := s.road ++ [p.2] }
  else s

/-- A vehicle on the road reaches destination `p.2`. -/
def State.arrive (s : State) (p : ℕ × ℕ) : State :=
  if p.1 ∈ s.road then
    { s with road := s.road.filter (· ≠ p.1), out := upd s.out p.2 (s.out p.2 ++ [p.1]) }
  else s

/-- The vehicles on the road use their batteries and wait. -/
def State.use (s : State) (a : Around) : State :=
  { s with veh := fun v =>
      if v ∈ s.road then { s.veh v with ev := (s.veh v).ev.map (a.ev v), waiting := a.waiting v } else s.veh v }

/-- What happens between origins and destinations. -/
def State.around (s : State) (a : Around) : State :=
  a.arrive.foldl State.arrive ((a.leave.foldl State.leave s).use a)

/-- The draws and the environment of an interval. -/
structure StepOracle where
  release : ℕ → ReleaseOracle
  adjust : ℕ → ℚ
  around : Around

/-- `ev_traffic.cpp:2150-2177` and `dta.cpp:559-624`: an origin in step 1. -/
def stepOrigin (c : Cfg) (o : StepOracle) (ts assign : ℕ) (s : State) (oid : ℕ) : Res State :=
  let s := adjust c o.adjust oid s
  if c.assignFreq = 0 then .ub
  else if ts % c.assignFreq = 0 ∧ assign < c.totalAssign then releaseOne c oid (o.release oid) ts assign s
  else .ok s

/-- `ev_traffic.cpp:2128-2257` and `dta.cpp:538-689` `load_once`. -/
def loadOnce (c : Cfg) (o : StepOracle) (ts assign : ℕ) (s : State) : Res State :=
  (Res.foldlM (stepOrigin c o ts assign) s c.origins).bind fun s =>
    Res.foldlM (receive c ts) (s.around o.around) c.dests

/-- `dta.cpp:692-715` the body of `loading`, once per oracle given. -/
def loadMany (c : Cfg) : List StepOracle → ℕ → ℕ → State → Res State
  | [], _, _, s => .ok s
  | o :: os, ts, assign, s =>
    (loadOnce c o ts assign s).bind fun s =>
      loadMany c os (ts + 1) (if (ts + 1) % c.assignFreq = 0 then assign + 1 else assign) s

/-- Before the first interval; `v` stands for vehicles that do not exist. -/
def State.init (v : Veh) : State :=
  { veh := fun _ => v, map := [], num := 0, enroute := 0, finished := 0, total := 0, delivery := 0, electrified := 0,
    nonRoadside := 0, queue := fun _ => [], out := fun _ => [], road := [], trips := fun _ => [], seen := fun _ => [] }

/-! ## Point queues that keep vehicles waiting -/

/-- The point queue, its incoming vehicles and their waiting times.  `log` (interval, vehicle) tells who entered the
queue; it is never read. -/
structure Pq where
  supply : ℚ                       -- `get_link_supply () * m_flow_scalar`
  atOrigin : Bool                  -- `m_from_node` is a `MNM_DMOND`
  delivery : ℕ → Bool
  incoming : List ℕ
  wait : ℕ → ℤ                     -- `m_waiting_time` of the vehicles
  queue : List (ℕ × ℤ)
  log : List (ℕ × ℕ)

/-- `delivery_traffic.cpp:97-126`: the loop of `clear_incoming_array`: who stays, who enters, and the waiting times. -/
def letIn (delayed : ℕ → Bool) : ℚ → List ℕ → (ℕ → ℤ) → List ℕ × List ℕ × (ℕ → ℤ)
  | _, [], w => ([], [], w)
  | m, v :: vs, w =>
    if 0 < m then
      if delayed v && decide (0 < w v) then
        let r := letIn delayed m vs (upd w v (w v - 1))
        (v :: r.1, r.2.1, r.2.2)
      else
        let r := letIn delayed (m - 1) vs (if delayed v then upd w v 0 else w)
        (r.1, v :: r.2.1, r.2.2)
    else (v :: vs, [], w)

/-- `delivery_traffic.cpp:91-130` `MNM_Dlink_Pq_Delay::clear_incoming_array` in interval `ts`; `m_volume` is left out. -/
def Pq.clear (l : Pq) (ts : ℕ) : Pq :=
  let r := letIn (fun v => l.atOrigin && l.delivery v) l.supply l.incoming l.wait
  { l with
    incoming := r.1
    wait := r.2.2
    queue := l.queue ++ r.2.1.map fun v => (v, 0)
    log := l.log ++ r.2.1.map fun v => (ts, v) }

/-- What happens to the point queue in an interval: vehicles that come with their waiting times, and who remains in the
queue after `evolve`. -/
structure Coming where
  ins : List (ℕ × ℤ)
  rest : List (ℕ × ℤ) → List (ℕ × ℤ)

/-- Vehicles come. -/
def Pq.come (l : Pq) (ins : List (ℕ × ℤ)) : Pq :=
  { l with incoming := l.incoming ++ ins.map (·.1), wait := ins.foldl (fun w p => upd w p.1 p.2) l.wait }

/-- An interval: vehicles come, the incoming array is cleared, and some vehicles leave the queue (`evolve`). -/
def Pq.step (l : Pq) (ts : ℕ) (x : Coming) : Pq :=
  let l := (l.come x.ins).clear ts
  { l with queue := x.rest l.queue }

/-- Intervals from `ts` on. -/
def Pq.run : Pq → List Coming → ℕ → Pq
  | l, [], _ => l
  | l, x :: xs, ts => Pq.run (l.step ts x) xs (ts + 1)

end Verif.Tour

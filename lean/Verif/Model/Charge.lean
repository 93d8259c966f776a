import Verif.Model.Net

/-!
# Model of charging stations and electrified vehicles (`src/ev_traffic.cpp`)

A charging station with the links that lead to it and from it.  What the rest of the network does
is arbitrary: before an interval vehicles reach the ends of the links that lead to the station, with
any attributes.  Vehicles, links and stations are numbered; a pointer is a number, a null pointer is
`none`.  The trees of curves by path (lines 695-716) are left out.
-/

namespace Verif.Chg
open Ults Curve

/-- `ev_traffic.h:7-29` `MNM_Veh_Electrified` with the attributes of `MNM_Veh` it uses.
`electrified` is success of the cast to `MNM_Veh_Electrified`, `adaptive` is
`m_type == MNM_TYPE_ADAPTIVE`, `delivery` is success of the cast to
`MNM_Veh_Electrified_Delivery`. -/
structure Ev where
  electrified : Bool
  delivery : Bool
  adaptive : Bool
  roadside : Bool          -- `m_using_roadside_charging`
  full : ℚ                 -- `m_full_range`
  range : ℚ                -- `m_current_range`
  miles : ℚ                -- `m_miles_traveled`
  since : ℚ                -- `m_miles_traveled_after_charging`
  timer : ℤ                -- `m_charging_timer`
  station : Option ℕ       -- `m_charging_station`
  cur : Option ℕ           -- `m_current_link`
  next : Option ℕ          -- `m_next_link`
deriving DecidableEq

/-- `ev_traffic.cpp:9-21`, the constructor. -/
def Ev.make (start full : ℚ) (roadside delivery : Bool) : Ev :=
  { electrified := true, delivery := delivery, adaptive := true, roadside := roadside, full := full,
    range := start, miles := 0, since := 0, timer := -1, station := none, cur := none, next := none }

/-- `ev_traffic.cpp:27-50` and `96-116` `need_charging`. -/
def Ev.needCharging (v : Ev) : Bool :=
  if v.roadside then
    if v.delivery = false ∧ v.miles ≤ 0 then true
    else decide (v.range - v.since ≤ 1 / 10 * v.full)
  else false

/-- `ev_traffic.cpp:52-64` `charge`. -/
def Ev.charge (v : Ev) : Ev :=
  { v with range := v.full, timer := 0, since := 0, station := none }

/-- `ev_traffic.cpp:66-75` `update_miles_traveled`: the length of the link in metres, and whether it
is a point queue. -/
def Ev.drive (v : Ev) (length : ℚ) (pq : Bool) : Ev :=
  if pq then v else { v with miles := v.miles + length / 1600, since := v.since + length / 1600 }

/-- `ev_traffic.h:91-121` `MNM_Charging_Station`: attributes that do not change. -/
structure Cfg where
  id : ℕ
  scalar : ℚ               -- `m_flow_scalar`
  unit : ℤ                 -- `m_unit_time`
  slots : ℤ                -- `m_slots`
  time : ℤ                 -- `m_charging_time`
  inLinks : List ℕ
  outLinks : List ℕ

/-- The station with its links and the vehicles.  `joins` and `leaves` (interval, vehicle, slot) and
`log` (see `Net.Event`) are what happened so far; they are never read by the code. -/
structure State where
  veh : ℕ → Ev
  finished : ℕ → List ℕ    -- `m_finished_array` of the links that lead to the station
  incoming : ℕ → List ℕ    -- `m_incoming_array` of the links that lead from it
  pool : List (List ℕ)     -- `m_queue_pool`
  nIn : ℕ → Curve
  nOut : ℕ → Curve
  charged : Curve          -- `m_N_out` of the station
  record : Store ℤ ℤ       -- `m_waiting_time_record`
  joins : List (ℕ × ℕ × ℕ)
  leaves : List (ℕ × ℕ × ℕ)
  log : List Net.Event

/-- The number of queues, `ev_traffic.cpp:421`: `num_slots * int (flow_scalar)`, none if negative. -/
def Cfg.queues (c : Cfg) : ℕ := (c.slots * trunc c.scalar).toNat

/-- `ev_traffic.cpp:409-428`, the constructor. -/
def State.init (c : Cfg) (veh : ℕ → Ev) : State :=
  { veh := veh, finished := fun _ => [], incoming := fun _ => [],
    pool := List.replicate c.queues [], nIn := fun _ => install, nOut := fun _ => install,
    charged := addRecord [] (0, 0), record := [(0, 0)], joins := [], leaves := [],
    log := [] }

/-- `std::min_element` by length (lines 608-613, 659-664): the index of the first shortest queue;
the number of queues (the end iterator) if there are none. -/
def shortest : List (List ℕ) → ℕ
  | [] => 0
  | q :: qs => if ∀ r ∈ qs, q.length ≤ r.length then 0 else shortest qs + 1

/-- `ev_traffic.cpp:577-618`, one vehicle at the end of a link. -/
def join (c : Cfg) (ts : ℕ) (s : State) (p : ℕ) : Res State :=
  match (s.veh p).next with
  | none => .ub
  | some n =>
    if n ∉ c.outLinks then .throw "exit"
    else if (s.veh p).electrified = false ∨ (s.veh p).adaptive = false ∨
        (s.veh p).station ≠ some c.id then
      .throw "wrong routing for this vehicle"
    else
      match s.pool[shortest s.pool]? with
      | none => .throw "out_of_range"
      | some q =>
        .ok { s with
          pool := s.pool.set (shortest s.pool) (q ++ [p])
          joins := s.joins ++ [(ts, p, shortest s.pool)] }

/-- `ev_traffic.cpp:572-620`, one link. -/
def joinLink (c : Cfg) (ts : ℕ) (s : State) (l : ℕ) : Res State :=
  (Res.foldlM (join c ts) s (s.finished l)).bind fun s =>
    .ok { s with finished := upd s.finished l [] }

/-- `ev_traffic.cpp:672-718` `move_out_veh`. -/
def moveOut (c : Cfg) (ts : ℕ) (s : State) (p : ℕ) : Res State :=
  match (s.veh p).cur, (s.veh p).next with
  | some i, some o =>
    (addIncrement (s.nOut i) ((ts : ℚ) + 1, 1 / c.scalar)).bind fun k =>
    (addIncrement (s.nIn o) ((ts : ℚ) + 1, 1 / c.scalar)).bind fun k' =>
      .ok { s with
        incoming := upd s.incoming o (s.incoming o ++ [p])
        veh := upd s.veh p { s.veh p with cur := some o }
        nOut := upd s.nOut i k
        nIn := upd s.nIn o k'
        log := s.log ++ [⟨ts, p, some i, some o⟩] }
  | _, _ => .ub

/-- `ev_traffic.cpp:623-648`, the vehicle `p` at the front of queue `i`, with the rest of the
queue. -/
def serve (c : Cfg) (ts i p : ℕ) (rest : List ℕ) (s : State) : Res State :=
  let t := if (s.veh p).timer < 0 then 0 else (s.veh p).timer
  if t ≥ c.time then
    (moveOut c ts { s with
      veh := upd s.veh p ({ s.veh p with timer := t }.charge)
      pool := s.pool.set i rest
      leaves := s.leaves ++ [(ts, p, i)] } p).bind fun s =>
    (addIncrement s.charged ((ts : ℚ) + 1, 1 / c.scalar)).bind fun k =>
      .ok { s with charged := k }
  else .ok { s with veh := upd s.veh p { s.veh p with timer := t + 1 } }

/-- `ev_traffic.cpp:623-648`, one queue. -/
def serveSlot (c : Cfg) (ts : ℕ) (s : State) (i : ℕ) : Res State :=
  match s.pool[i]? with
  | some (p :: rest) => serve c ts i p rest s
  | _ => .ok s

/-- `ev_traffic.cpp:656-670` `get_current_estimated_waiting_time`; without queues the end iterator
is read. -/
def estimate (c : Cfg) (s : State) : Res ℤ :=
  match s.pool[shortest s.pool]? with
  | none => .ub
  | some q => .ok (q.length * c.time)

/-- `ev_traffic.cpp:557-654` `evolve`; `order` are the links that lead to the station in the order
of the shuffle. -/
def evolve (c : Cfg) (order : List ℕ) (ts : ℕ) (s : State) : Res State :=
  (Res.foldlM (joinLink c ts) s order).bind fun s =>
  (Res.foldlM (serveSlot c ts) s (List.range s.pool.length)).bind fun s =>
  (estimate c s).bind fun e =>
    .ok { s with record :=
      if s.record.any (fun x => x.1 = (ts : ℤ) + 1) then s.record else s.record ++ [((ts : ℤ) + 1, e)] }

/-- What happens around the station in an interval: vehicles that reach the ends of links (link,
vehicle, attributes), vehicles that are elsewhere change their attributes, the links that lead from
the station take some vehicles, and the shuffle of the links. -/
structure Around where
  arrive : List (ℕ × ℕ × Ev)
  take : ℕ → ℕ
  order : List ℕ

/-- What the rest of the network does before the station evolves (`clear_incoming_array` and
`evolve` of links). -/
def State.around (s : State) (a : Around) : State :=
  let s := { s with incoming := fun l => (s.incoming l).drop (a.take l) }
  a.arrive.foldl (fun s x =>
    { s with
      finished := upd s.finished x.1 (s.finished x.1 ++ [x.2.1])
      veh := upd s.veh x.2.1 { x.2.2 with cur := some x.1 } }) s

/-- Some intervals. -/
def run (c : Cfg) : List Around → ℕ → State → Res State
  | [], _, s => .ok s
  | a :: as, ts, s => (evolve c a.order ts (s.around a)).bind (run c as (ts + 1))

end Verif.Chg

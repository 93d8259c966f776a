import Verif.Model.MNet
import Verif.Model.Path

/-!
# What a loading with cars and trucks puts on record

Model of the records of `MNM_Dta` (`src/dta.cpp:732-764`, `src/multiclass.cpp:4492-4518`) and of the queries that
read them and the waiting times of links (`macposts/_ext/mcdta.cpp`).  The loading itself is that of
`Model/MNet.lean`; nothing in it reads the records.
-/

namespace Verif.Rec
open Ults Curve MNet

/-- The records: `m_enroute_veh_num`, `m_queue_veh_num`, `m_queue_veh_map`, `m_queue_veh_map_car` and
`m_queue_veh_map_truck` (`dta.h`, `multiclass.h`; newest entry last). -/
structure Books where
  enroute : List ℤ
  queueNum : List ℕ
  queue : ℕ → List ℕ
  queueCar : ℕ → List ℕ
  queueTruck : ℕ → List ℕ

/-- The records before the first interval (`dta.cpp:19-21`, `multiclass.cpp:4470-4483`). -/
def Books.empty : Books := ⟨[], [], fun _ => [], fun _ => [], fun _ => []⟩

/-- `m_link_type == MNM_TYPE_PQ_MULTICLASS`. -/
def isPq : MLnk.Link ℕ → Bool
  | .pq _ => true
  | _ => false

/-- `multiclass.cpp:4498-4515`: the loop body of `record_queue_vehicles` for one link; the first component is
`_tot_queue_size`. -/
def bookQueue (s : State) (p : ℕ × Books) (l : ℕ) : ℕ × Books :=
  let fin := (s.links l).link.finished
  (if isPq (s.links l).link then p.1 else p.1 + fin.length,
   { p.2 with
     queue := upd p.2.queue l (p.2.queue l ++ [fin.length])
     queueCar := upd p.2.queueCar l (p.2.queueCar l ++ [MLnk.cars s.truck fin])
     queueTruck := upd p.2.queueTruck l (p.2.queueTruck l ++ [MLnk.trucks s.truck fin]) })

/-- `multiclass.cpp:4492-4518` `MNM_Dta_Multiclass::record_queue_vehicles`. -/
def recordQueue (c : Cfg) (s : State) (b : Books) : Books :=
  let p := c.net.linkIds.foldl (bookQueue s) (0, b)
  { p.2 with queueNum := p.2.queueNum ++ [p.1] }

/-- `dta.cpp:538-689` `load_once` with the records: the queues after the nodes (line 648) and the vehicles under
way at the end (line 683, `dta.cpp:751-764`).  The waiting times of links are members of the links
(`MLnk.Common.addWait`). -/
def loadOnceR (c : Cfg) (o : StepOracle) (ts assign : ℕ) (p : State × Books) : Res (State × Books) :=
  (Res.foldlM (setAttr c) p.1 (c.attrs ts)).bind fun s =>
    (stepRelease c o ts assign s).bind fun s =>
      (o.routing.update c.net o.route s).bind fun s =>
        (stepNodes c o ts s).bind fun s =>
          let b := recordQueue c s p.2
          (Res.foldlM (linkStep o) s c.net.linkIds).bind fun s =>
            (Res.foldlM (receive c ts) s c.net.destIds).bind fun s =>
              .ok (s, { b with enroute := b.enroute ++ [s.enroute] })

/-- `dta.cpp:692-715` the body of `loading`, once per oracle given. -/
def loadManyR (c : Cfg) : List StepOracle → ℕ → ℕ → State × Books → Res ((State × Books) × ℕ × ℕ)
  | [], ts, assign, p => .ok (p, ts, assign)
  | o :: os, ts, assign, p =>
    (loadOnceR c o ts assign p).bind fun p =>
      loadManyR c os (ts + 1) (if (ts + 1) % c.net.assignFreq = 0 then assign + 1 else assign) p

/-! ## Queries -/

/-- `mcdta.cpp:3049-3085` `get_enroute_and_queue_veh_stats_agg`: one row per interval; `now` is
`get_cur_loading_interval ()`. -/
def enrouteStats (c : Cfg) (now : ℕ) (b : Books) : Res (List (ℚ × ℚ × ℚ)) :=
  if b.enroute.length ≠ now then .throw "enroute vehicle missed for some intervals"
  else if b.queueNum.length ≠ now then .throw "queuing vehicle missed for some intervals"
  else .ok ((List.range now).map fun i =>
    let e := b.enroute.getD i 0
    let q := (b.queueNum.getD i 0 : ℤ)
    ((e : ℚ) / c.net.scalar, (q : ℚ) / c.net.scalar, ((e - q : ℤ) : ℚ) / c.net.scalar))

/-- `mcdta.cpp:3119-3132`: one entry of `get_queue_veh_each_link`; a negative index is out of bounds. -/
def queueEntry (c : Cfg) (b : Books) (t : ℤ) (l : ℕ) : Res ℚ :=
  if l ∉ c.net.linkIds then .throw "can't find link ID"
  else if t < 0 then .ub
  else
    match (b.queue l)[t.toNat]? with
    | some q => .ok (q / c.net.scalar)
    | none => .ub

/-- `List.mapM` in `Res`, first element first. -/
def mapR {α β : Type} (f : α → Res β) : List α → Res (List β)
  | [] => .ok []
  | a :: as => (f a).bind fun b => (mapR f as).bind fun bs => .ok (b :: bs)

/-- `mcdta.cpp:3087-3135` `get_queue_veh_each_link`: one row per link, one column per interval. -/
def queueEach (c : Cfg) (now : ℕ) (b : Books) (links : List ℕ) (intervals : List ℤ) : Res (List (List ℚ)) :=
  (mapR (fun t : ℤ => if t ≥ (now : ℤ) then .throw "input start intervals exceeds the total loading intervals - 1"
      else mapR (queueEntry c b t) links) intervals).bind fun cols =>
    .ok ((List.range links.length).map fun i => cols.map fun col => col.getD i 0)

/-- `multiclass.cpp:4688-4712` `get_average_waiting_time_at_intersection`; the small number is `1e-6`. -/
def waitingTime (s : State) (l : ℕ) : Res ℚ :=
  match (s.links l).nInCar with
  | none => .throw "link car in cumulative curve is not installed"
  | some ci =>
    match (s.links l).nInTruck with
    | none => .throw "link truck in cumulative curve is not installed"
    | some ti =>
      (back ci).bind fun x => (back ti).bind fun y =>
        .ok ((s.links l).link.com.wait / (x.2 + y.2 + 1 / 1000000))

/-- `multiclass.cpp:4714-4733` and `4735-4753` `get_average_waiting_time_at_intersection_car` and `..._truck`. -/
def waitingTimeOf (x : Bool) (s : State) (l : ℕ) : Res ℚ :=
  match (if x then (s.links l).nInTruck else (s.links l).nInCar) with
  | none => .throw "link in cumulative curve is not installed"
  | some k => (back k).bind fun r => .ok ((if x then (s.links l).link.com.waitTruck else (s.links l).link.com.waitCar) / (r.2 + 1 / 1000000))

/-- `mcdta.cpp:1431-1481` `get_waiting_time_at_intersections` (`none`) and its variants for cars and trucks, for the
registered links. -/
def waitingTimes (x : Option Bool) (links : List ℕ) (s : State) : Res (List ℚ) :=
  match x with
  | none => mapR (waitingTime s) links
  | some x => mapR (waitingTimeOf x s) links

/-! ## Coverage of registered links -/

/-- `path.cpp:34-51` `is_link_in`; the set is that of the links of the path (simplified: built at every call). -/
def isLinkIn (links : List ℤ) (l : ℤ) : Bool := decide (l ∈ links)

/-- `mcdta.cpp:2369-2405` `get_registered_links_coverage_in_registered_paths`: one row per registered path. -/
def coverage (paths : List (List ℤ)) (links : List ℤ) : List (List ℤ) :=
  paths.map fun p => links.map fun l => if isLinkIn p l then 1 else 0

/-- `mcdta.cpp:2427-2442`: the loop over paths with its early exit. -/
def coverLoop (links : List ℤ) : List (List ℤ) → List Bool → List Bool
  | [], flags => flags
  | p :: ps, flags =>
    let flags' := List.zipWith (fun f l => if f then f else isLinkIn p l) flags links
    if flags'.all id then flags' else coverLoop links ps flags'

/-- `mcdta.cpp:2407-2450` `check_registered_links_in_registered_paths`, returned by
`are_registered_links_in_registered_paths` (`mcdta.cpp:2452-2470`). -/
def covered (paths : List (List ℤ)) (links : List ℤ) : List Bool :=
  coverLoop links paths (links.map fun _ => false)

end Verif.Rec

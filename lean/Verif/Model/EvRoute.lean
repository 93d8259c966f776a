import Verif.Model.Charge
import Verif.Model.Path

/-!
# Model of routing with charging stations (`src/ev_traffic.cpp` 759-1460)

`MNM_Routing_Adaptive_With_POIs`: costs of links, shortest path trees to destinations and stations, the best station of
each pair of origin and destination, and the next links of vehicles.  Stations are given by the numbers of their nodes.
Lines 1462-1525 (`update_best_POI2`) are never called.
-/

namespace Verif.EvR
open Graph Sp Path

/-- A charging station as routing sees it (`ev_traffic.h:91-121`). -/
structure Station where
  cfg : Chg.Cfg
  state : Chg.State
  price : ℚ                -- `m_price`

/-- The network: the graph, the value of time, travel times of the last interval (`m_record_interval_tt`), tolls,
success of the cast to `MNM_Dlink_Pq`, and the charging station at a node. -/
structure Inst where
  g : G
  vot : ℚ
  tt : ℤ → ℚ
  toll : ℤ → ℚ
  pq : ℤ → Bool
  station : ℤ → Option Station

/-- `ev_traffic.cpp:1018-1042`: the loop body of `update_link_cost`. -/
def linkCost (x : Inst) (l : ℤ) : Res ℚ :=
  let base := x.tt l * x.vot + x.toll l
  if x.pq l then
    (getEndpoints x.g l).bind fun e =>
      match x.station e.2 with
      | none => .ok base
      | some s =>
        (Chg.estimate s.cfg s.state).bind fun w =>
          .ok (base + (x.vot * ((w : ℚ) + s.cfg.time) * s.cfg.unit + s.price) * 10)
  else .ok base

/-- `ev_traffic.cpp:1014-1044` `update_link_cost`; `links` are the links with recorded travel times. -/
def linkCosts (x : Inst) (links : List ℤ) (old : ℤ → Option ℚ) : Res (ℤ → Option ℚ) :=
  Res.foldlM (fun c l => (linkCost x l).bind fun v => .ok (upd c l (some v))) old links

/-- A shortest path tree. -/
abbrev Tree := ℤ → Option ℤ

/-- `m_table` (by number of the destination) and `m_table_POIs` (by node of the station). -/
structure Tables where
  dest : ℕ → Option Tree
  poi : ℤ → Option Tree

/-- The map of costs as it is given to `all_to_one_FIFO`. -/
def costs (c : ℤ → Option ℚ) : ℤ → Option Cost := fun l => (c l).map fun v => (v : Cost)

/-- `ev_traffic.cpp:1093-1110`: the tree of destination `d` at node `n`. -/
def destTree (fuel : ℕ) (x : Inst) (c : ℤ → Option ℚ) (t : Tables) (d : ℕ × ℤ) : Res Tables :=
  match t.dest d.1 with
  | none => .ub
  | some out => (fifo fuel x.g d.2 (costs c) out).bind fun s => .ok { t with dest := upd t.dest d.1 (some s.out) }

/-- `ev_traffic.cpp:1111-1117`: the tree of the station at node `n`. -/
def poiTree (fuel : ℕ) (x : Inst) (c : ℤ → Option ℚ) (t : Tables) (n : ℤ) : Res Tables :=
  match t.poi n with
  | none => .ub
  | some out => (fifo fuel x.g n (costs c) out).bind fun s => .ok { t with poi := upd t.poi n (some s.out) }

/-- `path.cpp:380-394` `get_path_tt_snapshot`. -/
def snapshot (c : ℤ → Option ℚ) (ls : List ℤ) : Res ℚ :=
  Res.foldlM (fun s l =>
    match c l with
    | none => .throw "Wrong link in get_path_tt_snapshot()"
    | some v => .ok (s + v)) 0 ls

/-- `ev_traffic.cpp:1429-1436` and `1439-1446`: the cost of the way the tree says; a null pointer is dereferenced if
there is none. -/
def wayCost (fuel : ℕ) (x : Inst) (c : ℤ → Option ℚ) (tree : Option Tree) (u v : ℤ) : Res ℚ :=
  match tree with
  | none => .ub
  | some out =>
    (extractPath x.g v out fuel u).bind fun p =>
      match p with
      | none => .ub
      | some p => snapshot c p.2

/-- A pair with candidates (`m_od_candidate_poi_table`): origin and its node, destination and its node, nodes of
stations. -/
structure Pair where
  origin : ℕ
  onode : ℤ
  dest : ℕ
  dnode : ℤ
  nodes : List ℤ

/-- `ev_traffic.cpp:1426-1453`: the loop body for one candidate; `none` with infinite cost at the start. -/
def tryPoi (fuel : ℕ) (x : Inst) (c : ℤ → Option ℚ) (t : Tables) (p : Pair) (b : Option (ℤ × ℚ)) (n : ℤ) :
    Res (Option (ℤ × ℚ)) :=
  (wayCost fuel x c (t.dest p.dest) n p.dnode).bind fun a =>
  (wayCost fuel x c (t.poi n) p.onode n).bind fun a' =>
    match b with
    | none => .ok (some (n, a + a'))
    | some b => .ok (some (if b.2 > a + a' then (n, a + a') else b))

/-- `ev_traffic.cpp:1413-1456`: the best station of a pair; `nodes` are the candidates after the shuffle. -/
def bestPoi (fuel : ℕ) (x : Inst) (c : ℤ → Option ℚ) (t : Tables) (p : Pair) (nodes : List ℤ) : Res (Option ℤ) :=
  if p.nodes = [] then .ok none
  else (Res.foldlM (tryPoi fuel x c t p) none nodes).bind fun b => .ok (b.map (·.1))

/-- `ev_traffic.cpp:1399-1460` `update_best_POI`: `m_best_poi_table` (origin, destination ↦ station, which may be a null
pointer); the constructor has put all pairs in. -/
def updateBest (fuel : ℕ) (x : Inst) (c : ℤ → Option ℚ) (t : Tables) (shuffle : ℕ → ℕ → List ℤ → List ℤ)
    (pairs : List Pair) (best : ℕ → ℕ → Option (Option ℤ)) : Res (ℕ → ℕ → Option (Option ℤ)) :=
  Res.foldlM (fun best p =>
    (bestPoi fuel x c t p (shuffle p.origin p.dest p.nodes)).bind fun b =>
      .ok (upd best p.origin (upd (best p.origin) p.dest (some b)))) best pairs

/-- What routing keeps: costs, trees, best stations. -/
structure Kept where
  cost : ℤ → Option ℚ
  trees : Tables
  best : ℕ → ℕ → Option (Option ℤ)

/-- `ev_traffic.cpp:1089-1120`: the part of `update_routing` that is done at the routing frequency. -/
def update (fuel : ℕ) (x : Inst) (links : List ℤ) (dests : List (ℕ × ℤ)) (pois : List ℤ) (pairs : List Pair)
    (shuffle : ℕ → ℕ → List ℤ → List ℤ) (k : Kept) : Res Kept :=
  (linkCosts x links k.cost).bind fun c =>
  (Res.foldlM (destTree fuel x c) k.trees dests).bind fun t =>
  (Res.foldlM (poiTree fuel x c) t pois).bind fun t =>
  (updateBest fuel x c t shuffle pairs k.best).bind fun b =>
    .ok ⟨c, t, b⟩

/-- `ev_traffic.cpp:883-991` `check_od_candidate_poi_table_connectivity`, for one pair: the candidates that are kept. -/
def checkPair (fuel : ℕ) (g : G) (cost : ℤ → Option Cost) (p : Pair) : List ℤ → Res (List ℤ)
  | [] => .ok []
  | n :: ns =>
    (fifo fuel g n cost fun _ => none).bind fun s =>
      match s.out p.onode with
      | none => .ub
      | some a =>
        if a = -1 then checkPair fuel g cost p ns
        else
          (fifo fuel g p.dnode cost fun _ => none).bind fun s =>
            match s.out n with
            | none => .ub
            | some b =>
              if b = -1 then checkPair fuel g cost p ns
              else (checkPair fuel g cost p ns).bind fun r => .ok (n :: r)

/-- A vehicle: its battery (`Model/Charge.lean`; of `Ev` the fields `station`, `cur` and `next` are not used),
destination, station, current and next link. -/
structure Veh where
  ev : Chg.Ev
  dest : ℕ
  station : Option ℤ       -- `m_charging_station`
  cur : Option ℤ
  next : Option ℤ

/-- The vehicle is electrified and needs charging (`ev_traffic.cpp:1142-1145`, `1238-1241`, `1319-1322`). -/
def Veh.needs (v : Veh) : Bool := v.ev.electrified && v.ev.needCharging

/-- `ev_traffic.cpp:1046-1078` `set_shortest_path_tree` for a station. -/
def toPoi (t : Tables) (n : ℤ) : Res Tree :=
  match t.poi n with
  | none => .throw "cannot find middle node in m_table_POIs"
  | some out => .ok out

/-- `ev_traffic.cpp:1046-1078` `set_shortest_path_tree` for a destination. -/
def toDest (t : Tables) (d : ℕ) : Res Tree :=
  match t.dest d with
  | none => .throw "cannot find destination in m_table"
  | some out => .ok out

/-- `link_factory->get_link` and the end of the link; the link factory has the links of the graph. -/
def endOf (g : G) (l : ℤ) : Res ℤ :=
  match getEndpoints g l with
  | .ok e => .ok e.2
  | _ => .throw "link does not exist"

/-- `ev_traffic.cpp:1138-1209`: a vehicle in the queue of origin `o` at node `n`. -/
def routeOrigin (x : Inst) (k : Kept) (o : ℕ) (n : ℤ) (v : Veh) : Res Veh :=
  if v.ev.adaptive then
    (if v.needs then
      match k.best o v.dest with
      | some (some s) => (toPoi k.trees s).bind fun tree => .ok (tree, some s)
      | _ => (toDest k.trees v.dest).bind fun tree => .ok (tree, v.station)
    else (toDest k.trees v.dest).bind fun tree => .ok (tree, v.station)).bind fun ts =>
      match ts.1 n with
      | none => .ub
      | some l =>
        if l < 0 then .throw "wrong next link 1"
        else (endOf x.g l).bind fun _ => .ok { v with station := ts.2, next := some l }
  else .ok v

/-- `ev_traffic.cpp:1237-1279`: the tree for a vehicle at node `n`. -/
def treeAt (t : Tables) (n : ℤ) (v : Veh) : Res Tree :=
  if v.needs then
    match v.station with
    | some s => if s ≠ n then toPoi t s else toDest t v.dest
    | none => toDest t v.dest
  else toDest t v.dest

/-- `ev_traffic.cpp:1316-1368`: the tree that is checked at the node `n` after the next link; a null pointer if there is
no check, the end iterator if there is no tree. -/
def checkAt (t : Tables) (dnode : ℕ → ℤ) (n : ℤ) (v : Veh) : Res (Option Tree) :=
  let d : Res (Option Tree) :=
    if n ≠ dnode v.dest then
      match t.dest v.dest with
      | none => .ub
      | some out => .ok (some out)
    else .ok none
  if v.needs then
    match v.station with
    | some s =>
      if s ≠ n then
        match t.poi s with
        | none => .ub
        | some out => .ok (some out)
      else .ok none
    | none => d
  else d

/-- `ev_traffic.cpp:1280-1311`: the next link, or some link out of the node if the tree has none; `pick` is
`rand ()`. -/
def nextAt (g : G) (pick : ℕ) (n l : ℤ) : Res ℤ :=
  if l = -1 then
    (connections (sizeLinks g + 1) g n .out).bind fun outs =>
      match outs[pick % outs.length]? with
      | none => .throw "cannot do anything to find a next link"
      | some l => .ok l
  else .ok l

/-- `ev_traffic.cpp:1217-1391`: a vehicle at the end of link `l`; `dnode` are the nodes of destinations. -/
def routeLink (x : Inst) (k : Kept) (dnode : ℕ → ℤ) (pick : ℕ) (l : ℤ) (v : Veh) : Res Veh :=
  if v.ev.adaptive then
    if v.cur ≠ some l then .throw "wrong current link"
    else
      (endOf x.g l).bind fun n =>
        if dnode v.dest = n then .ok { v with next := none }
        else
          (treeAt k.trees n v).bind fun tree =>
            match tree n with
            | none => .ub
            | some l =>
              (nextAt x.g pick n l).bind fun l =>
                (endOf x.g l).bind fun m =>
                  (checkAt k.trees dnode m v).bind fun check =>
                    match check with
                    | none => .ok { v with next := some l }
                    | some tree =>
                      match tree m with
                      | none => .throw "Cannot find _next_node_ID"
                      | some l' =>
                        if l' = -1 then .throw "Something wrong for the future node"
                        else .ok { v with next := some l }
  else .ok v

end Verif.EvR

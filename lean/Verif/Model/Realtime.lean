import Verif.Model.Link
import Verif.Model.Path

/-!
# Model of the real-time loading: `src/realtime_dta.cpp`, `src/realtime_dta.h`, `src/vms.cpp`, `src/workzone.cpp`,
`src/marginal_cost.cpp`

Copies of the running network (`make_screenshot`), updates of path portions, message signs and their detours, averaged
travel times, gradients, the ownership of the path table, the schedule of releases of `predict_next`, the texts of
signs and closed links.  The loadings themselves are those of `Model/Link` and `Model/Net`; here their travel times
enter as arguments.  Iterations over hash maps are over lists in any order.
-/

namespace Verif.Rt
open Ults Lnk

/-! ## Copies of the network -/

/-- `vehicle.h` `MNM_Veh` as far as `make_veh` and `copy_veh` write it; links, origins and destinations by ID. -/
structure Veh where
  id : ℕ
  start : ℤ
  adaptive : Bool
  cur : Option ℤ
  next : Option ℤ
  origin : ℤ
  dest : ℤ
  path : Option ℕ
  interval : ℤ
  deriving DecidableEq

/-- `realtime_dta.h:68-86` `MNM_Dta_Screenshot`: `links` is the map of the link factory, `waiting` the vehicles in the
queues of the nodes, `tracker` the links left of each tracked vehicle (`MNM_Routing_Fixed::m_tracker`), `made` the
counter of the vehicle factory, `origins` and `dests` the IDs known to the common OD factory. -/
structure Shot where
  links : List (ℤ × Link Veh)
  waiting : List (ℤ × List Veh)
  tracker : ℕ → Option (List ℤ)
  made : ℕ
  origins : List ℤ
  dests : List ℤ

/-- A link as `build_static_network` (`realtime_dta.cpp:767-774`) makes it again from the same files: its parameters,
without vehicles and without records. -/
def blank : Link Veh → Link Veh
  | .pq l => .pq { l with queue := [], volume := 0, incoming := [], finished := [] }
  | .ctm l =>
    .ctm { l with
      cells := l.cells.map fun c => { c with volume := 0, queue := [], outVeh := 0 }
      incoming := []
      finished := [] }
  | .lq l => .lq { l with queue := [], volume := 0, incoming := [], finished := [] }
  | .ltm l =>
    .ltm { l with
      nIn2 := [], nOut2 := [], prevFinished := 0, now := 0
      queue := [], volume := 0, incoming := [], finished := [] }

/-- `factory.cpp:27-40` `make_veh` and `realtime_dta.h:101-114` `copy_veh`; a vehicle without a current or next link
makes it follow a null pointer. -/
def copyVeh (s : Shot) (n : ℕ) (v : Veh) : Res Veh :=
  match v.cur, v.next with
  | some c, some x =>
    if c ∉ s.links.map Prod.fst then .throw "Error, MNM_Link_Factory::get_link, link does not exist"
    else if x ∉ s.links.map Prod.fst then .throw "Error, MNM_Link_Factory::get_link, link does not exist"
    else if v.dest ∉ s.dests then .throw "Error, MNM_OD_Factory::get_destination, destination does not exist"
    else if v.origin ∉ s.origins then .throw "Error, MNM_OD_Factory::get_origin, origin does not exist"
    else .ok ⟨n + 1, v.start, v.adaptive, some c, some x, v.origin, v.dest, none, -1⟩
  | _, _ => .ub

/-- What the copying has written so far: the counter of the new vehicle factory and the new tracker. -/
structure Out where
  made : ℕ
  tracker : ℕ → Option (List ℤ)

/-- `realtime_dta.cpp:948-959`, one vehicle: a copy, and its links left (`routing.cpp:640-649` `add_veh_path`); a
vehicle that is not tracked makes it follow the end of a map. -/
def copyOne (s : Shot) (o : Out) (v : Veh) : Res (Veh × Out) :=
  (copyVeh s o.made v).bind fun w =>
    match s.tracker v.id with
    | none => .ub
    | some ls => .ok (w, ⟨o.made + 1, upd o.tracker w.id (some ls)⟩)

/-- `realtime_dta.cpp:948-959`, `960-970`, `980-988`: one queue. -/
def copyQueue (s : Shot) : Out → List Veh → Res (List Veh × Out)
  | o, [] => .ok ([], o)
  | o, v :: vs =>
    (copyOne s o v).bind fun r => (copyQueue s r.2 vs).bind fun q => .ok (r.1 :: q.1, q.2)

/-- `realtime_dta.cpp:977-990`: the cells of a cell transmission link. -/
def copyCells (s : Shot) : Out → List (Cell Veh) → Res (List (Cell Veh) × Out)
  | o, [] => .ok ([], o)
  | o, c :: cs =>
    (copyQueue s o c.queue).bind fun r =>
      (copyCells s r.2 cs).bind fun q => .ok ({ c with volume := 0, queue := r.1, outVeh := 0 } :: q.1, q.2)

/-- `realtime_dta.cpp:992-1007`: the queue of a point queue, with the counters. -/
def copyPairs (s : Shot) : Out → List (Veh × ℤ) → Res (List (Veh × ℤ) × Out)
  | o, [] => .ok ([], o)
  | o, v :: vs =>
    (copyOne s o v.1).bind fun r => (copyPairs s r.2 vs).bind fun q => .ok ((r.1, v.2) :: q.1, q.2)

/-- `realtime_dta.cpp:940-1008`: one link; links of other kinds get their finished and incoming vehicles only. -/
def copyLink (s : Shot) (o : Out) (l : Link Veh) : Res (Link Veh × Out) :=
  (copyQueue s o l.finished).bind fun f =>
    (copyQueue s f.2 l.incoming).bind fun i =>
      match l with
      | .ctm c =>
        (copyCells s i.2 c.cells).bind fun r =>
          .ok (.ctm { c with cells := r.1, incoming := i.1, finished := f.1 }, r.2)
      | .pq q =>
        (copyPairs s i.2 q.queue).bind fun r =>
          .ok (.pq { q with queue := r.1, volume := 0, incoming := i.1, finished := f.1 }, r.2)
      | other => .ok (((blank other).setIncoming i.1).setFinished f.1, i.2)

/-- `realtime_dta.cpp:940-1008`: all links. -/
def copyLinks (s : Shot) : Out → List (ℤ × Link Veh) → Res (List (ℤ × Link Veh) × Out)
  | o, [] => .ok ([], o)
  | o, l :: ls =>
    (copyLink s o l.2).bind fun r => (copyLinks s r.2 ls).bind fun q => .ok ((l.1, r.1) :: q.1, q.2)

/-- `realtime_dta.cpp:924-1014` `make_screenshot`; the vehicles of the nodes are not copied (line 1012). -/
def makeShot (s : Shot) : Res Shot :=
  (copyLinks s ⟨0, fun _ => none⟩ s.links).bind fun r =>
    .ok ⟨r.1, s.waiting.map fun w => (w.1, []), r.2.tracker, r.2.made, s.origins, s.dests⟩

/-! ## Path portions -/

/-- `path.h` `MNM_Path`: links, nodes, `m_p` and the four places of `m_buffer`: portions of the last interval (0),
gradient of the estimation (1), best portions (2), gradient of the optimisation (3). -/
structure Pth where
  links : List ℤ
  nodes : List ℤ
  p : ℚ
  real : ℚ
  gEst : ℚ
  best : ℚ
  gOpt : ℚ
  deriving DecidableEq

/-- One entry of the path table: origin node, destination node and the set of paths. -/
structure Od where
  o : ℤ
  d : ℤ
  paths : List Pth
  deriving DecidableEq

/-- `realtime_dta.cpp:1045-1057`: the new value of `m_p` before normalising. -/
def stepP (step g p : ℚ) : ℚ :=
  min (max (if g > 0 then p / (1 + step) else p * (1 + step)) (-10000)) 10000

/-- Writing the values of `m_p`. -/
def setP : List Pth → List ℚ → List Pth
  | P :: Ps, q :: qs => { P with p := q } :: setP Ps qs
  | Ps, _ => Ps

/-- `realtime_dta.cpp:1041-1059`: one set of paths; a step of -1 divides by zero. -/
def updateSet (grad : Pth → ℚ) (step : ℚ) (ps : List Pth) : Res (List Pth) :=
  if 1 + step = 0 then .ub
  else (Path.normalizeP (ps.map fun P => stepP step (grad P) P.p)).bind fun qs => .ok (setP ps qs)

/-- The sets of a table in turn. -/
def eachSet (f : List Pth → Res (List Pth)) : List Od → Res (List Od)
  | [] => .ok []
  | e :: es => (f e.paths).bind fun ps => (eachSet f es).bind fun r => .ok ({ e with paths := ps } :: r)

/-- `realtime_dta.cpp:1033-1063` `update_path_p`; the columns in use are those of the gradients. -/
def updatePathP (grad : Pth → ℚ) (step : ℚ) (tbl : List Od) : Res (List Od) :=
  eachSet (updateSet grad step) tbl

/-- `path.cpp:851-862` `normalize_path_table_p`. -/
def normalizeTable (tbl : List Od) : Res (List Od) :=
  eachSet (fun ps => (Path.normalizeP (ps.map Pth.p)).bind fun qs => .ok (setP ps qs)) tbl

/-- All paths of a table changed by `f`. -/
def mapPaths (f : Pth → Pth) (tbl : List Od) : List Od := tbl.map fun e => { e with paths := e.paths.map f }

/-- `realtime_dta.cpp:61-96` `init_running`, the path table. -/
def initRunning (tbl : List Od) : Res (List Od) :=
  normalizeTable (mapPaths (fun P => { P with p := 0, real := 0, gEst := 0, best := 0, gOpt := 0 }) tbl)

/-- `path.cpp:864-878` `copy_p_to_buffer` with column 0. -/
def keepReal (tbl : List Od) : List Od := mapPaths (fun P => { P with real := P.p }) tbl

/-- `path.cpp:864-878` `copy_p_to_buffer` with column 2. -/
def keepBest (tbl : List Od) : List Od := mapPaths (fun P => { P with best := P.p }) tbl

/-! ## Message signs -/

/-- `vms.h:11-29` `MNM_Link_Vms`: the links it chooses from (`m_out_link_vec`), for each of them the paths through it
(`m_link_path_map`, a path is its place in the table), the detour (-1: none yet) and the compliance ratio. -/
structure Sign where
  link : ℤ
  outs : List ℤ
  alts : List (ℤ × List (ℕ × ℕ))
  detour : ℤ
  ratio : ℚ

/-- `unordered_map::insert`. -/
def insertNew (m : List (ℤ × List (ℕ × ℕ))) (l : ℤ) : List (ℤ × List (ℕ × ℕ)) :=
  if l ∈ m.map Prod.fst then m else m ++ [(l, [])]

/-- `vms.cpp:6-38` constructor with `hook_link`: the links that leave the node in which the link of the sign starts.
`ends` and `outOf` are the queries of the graph. -/
def mkSign (ends : ℤ → Option (ℤ × ℤ)) (outOf : ℤ → List ℤ) (link : ℤ) : Res Sign :=
  match ends link with
  | none => .throw "link not found"
  | some e => .ok ⟨link, outOf e.1, (outOf e.1).foldl insertNew [], -1, 1⟩

/-- The paths of a table with their places. -/
def places (tbl : List Od) : List ((ℕ × ℕ) × Pth) :=
  tbl.zipIdx.flatMap fun e => e.1.paths.zipIdx.map fun P => ((e.2, P.2), P.1)

/-- `push_back` on the list of link `l`. -/
def push (l : ℤ) (ij : ℕ × ℕ) (alts : List (ℤ × List (ℕ × ℕ))) : List (ℤ × List (ℕ × ℕ)) :=
  alts.map fun a => if a.1 = l then (a.1, a.2 ++ [ij]) else a

/-- `vms.cpp:49-60`: one path. -/
def hookOne (outs : List ℤ) (alts : List (ℤ × List (ℕ × ℕ))) (e : (ℕ × ℕ) × Pth) : List (ℤ × List (ℕ × ℕ)) :=
  outs.foldl (fun A l => if l ∈ e.2.links then push l e.1 A else A) alts

/-- `vms.cpp:40-65` `hook_path`. -/
def hookPath (tbl : List Od) (s : Sign) : Sign :=
  { s with alts := (places tbl).foldl (hookOne s.outs) s.alts }

/-- What `get_demand_bynode` sees of a node: an origin with its demand per destination node, a destination or another
node. -/
inductive OdNode where
  | origin (demand : List (ℤ × List ℚ))
  | dest
  | other

/-- `od.cpp:246-267` `get_demand_bynode`. -/
def demandByNode (nodes : ℤ → Option OdNode) (k : ℕ) (o d : ℤ) : Res ℚ :=
  match nodes o with
  | none => .throw "Error, MNM_Node_Factory::get_node, node does not exist"
  | some (.origin dem) =>
    match nodes d with
    | none => .throw "Error, MNM_Node_Factory::get_node, node does not exist"
    | some .dest =>
      match dem.find? fun e => e.1 = d with
      | none => .ok 0
      | some e => match e.2[k]? with
        | some q => .ok q
        | none => .ub
    | some _ => .throw "failed to find origin/destination"
  | some _ => .throw "failed to find origin/destination"

/-- The path at a place; a place that is not there would be a dangling pointer. -/
def pathAt (tbl : List Od) (ij : ℕ × ℕ) : Res Pth :=
  match tbl[ij.1]? with
  | none => .ub
  | some e => match e.paths[ij.2]? with
    | none => .ub
    | some P => .ok P

/-- `vms.cpp:84-93`, `realtime_dta.cpp:503-514`: demand of the ends of a path; a path without nodes has none. -/
def pathDemand (dem : ℤ → ℤ → Res ℚ) (P : Pth) : Res ℚ :=
  match P.nodes.head?, P.nodes.getLast? with
  | some o, some d => dem o d
  | _, _ => .ub

/-- `vms.cpp:81-94`: sums of the best and the real flow of the listed paths. -/
def altFlows (dem : ℤ → ℤ → Res ℚ) (tbl : List Od) : List (ℕ × ℕ) → Res (ℚ × ℚ)
  | [] => .ok (0, 0)
  | ij :: r =>
    (pathAt tbl ij).bind fun P => (pathDemand dem P).bind fun q =>
      (altFlows dem tbl r).bind fun s => .ok (P.best * q + s.1, P.real * q + s.2)

/-- `vms.cpp:74-100`: the link with the largest difference so far; `none` is the start `-DBL_MAX`, link -1. -/
def detourLoop (dem : ℤ → ℤ → Res ℚ) (tbl : List Od) : Option (ℚ × ℤ) → List (ℤ × List (ℕ × ℕ)) →
    Res (Option (ℚ × ℤ))
  | b, [] => .ok b
  | b, a :: r =>
    (altFlows dem tbl a.2).bind fun s =>
      detourLoop dem tbl
        (match b with
          | none => some (s.1 - s.2, a.1)
          | some b => if s.1 - s.2 > b.1 then some (s.1 - s.2, a.1) else some b) r

/-- `vms.cpp:67-108` `generate_detour_link`. -/
def makeDetour (dem : ℤ → ℤ → Res ℚ) (tbl : List Od) (s : Sign) : Res Sign :=
  (detourLoop dem tbl none s.alts).bind fun b =>
    match b with
    | none => .throw "invalid state"
    | some b => if b.2 < 0 then .throw "invalid state" else .ok { s with detour := b.2 }

/-- `realtime_dta.cpp:500-517`: estimated and real flow of the last path looked at (both are assigned, not added). -/
def lastFlows (dem : ℤ → ℤ → Res ℚ) (tbl : List Od) : ℚ × ℚ → List (ℕ × ℕ) → Res (ℚ × ℚ)
  | s, [] => .ok s
  | _, ij :: r =>
    (pathAt tbl ij).bind fun P => (pathDemand dem P).bind fun q => lastFlows dem tbl (P.real * q, P.p * q) r

/-- `realtime_dta.cpp:495-518`: the links that are not the detour. -/
def lastFlowsOff (dem : ℤ → ℤ → Res ℚ) (tbl : List Od) (detour : ℤ) : ℚ × ℚ → List (ℤ × List (ℕ × ℕ)) →
    Res (ℚ × ℚ)
  | s, [] => .ok s
  | s, a :: r =>
    if a.1 ≠ detour ∧ detour > 0 then (lastFlows dem tbl s a.2).bind fun s => lastFlowsOff dem tbl detour s r
    else lastFlowsOff dem tbl detour s r

/-- `realtime_dta.cpp:520-525`: the ratio of one interval and its mixture with the old ratio. -/
def mixRatio (est real old : ℚ) : ℚ :=
  let r := max (min (divide (est - real) est) 0) 1
  old * (1 - 3 / 10) + r * (3 / 10)

/-- `realtime_dta.cpp:479-528` `update_compliance_ratio`, one sign. -/
def updateRatio (dem : ℤ → ℤ → Res ℚ) (tbl : List Od) (s : Sign) : Res Sign :=
  (lastFlowsOff dem tbl s.detour (0, 0) s.alts).bind fun f =>
    .ok { s with ratio := mixRatio f.1 f.2 s.ratio }

/-- Changing the path at a place. -/
def modPath (f : Pth → Pth) (tbl : List Od) (ij : ℕ × ℕ) : List Od :=
  tbl.modify ij.1 fun e => { e with paths := e.paths.modify ij.2 f }

/-- `realtime_dta.cpp:649-665`: the paths of one sign that do not use the detour. -/
def thinSign (tbl : List Od) (s : Sign) : List Od :=
  s.alts.foldl (fun t a =>
    if a.1 ≠ s.detour then a.2.foldl (modPath fun P => { P with p := P.p * s.ratio }) t else t) tbl

/-- `realtime_dta.cpp:649-666`: the portions `predict_next` loads with. -/
def predictP (signs : List Sign) (tbl : List Od) : Res (List Od) := normalizeTable (signs.foldl thinSign tbl)

/-! ## Travel times of links -/

/-- `realtime_dta.cpp:219-226`, `385-392`: the samples of one link, added to what `avg` held before (the loops of lines
143-150 and 329-332 clear copies of the entries); `tt` are the travel times after each interval. -/
def sampleLoop (maxInter points : ℤ) (tt : ℕ → ℚ) : ℕ → ℕ → ℚ → Res ℚ
  | 0, _, avg => .ok avg
  | n + 1, cur, avg =>
    if points = 0 ∨ maxInter.tdiv points = 0 then .ub
    else sampleLoop maxInter points tt n (cur + 1)
      (if ((cur : ℤ) + 1).tmod (maxInter.tdiv points) = 0 then avg + tt cur / points else avg)

/-- The average of one link after one gradient, `realtime_dta.cpp:118-303`, `305-453`. -/
def average (maxInter points : ℤ) (tt : ℕ → ℚ) (avg : ℚ) : Res ℚ :=
  sampleLoop maxInter points tt maxInter.toNat 0 avg

/-- `marginal_cost.h:9-13` `Vehicle_Record`. -/
structure Rec where
  link : ℤ
  start : ℤ

/-- `marginal_cost.h:15-34` `MNM_Link_Tt`. -/
structure LinkTt where
  unit : ℚ
  tt : ℤ → ℚ
  tracker : ℕ → Option Rec

/-- A vehicle in the incoming array of a link: its ID, its current link and whether `m_finish_time > 0`. -/
structure Seen where
  id : ℕ
  link : ℤ
  done : Bool

/-- `marginal_cost.cpp:99-105` `update_indiviual_tt`, with `m_update_speed` 0.5. -/
def smooth (old d : ℚ) : ℚ := old * (1 - 1 / 2) + 1 / 2 * d

/-- `marginal_cost.cpp:46-75`: one vehicle. -/
def LinkTt.see (ts : ℤ) (m : LinkTt) (v : Seen) : Res LinkTt :=
  match m.tracker v.id with
  | none => .ok { m with tracker := upd m.tracker v.id (some ⟨v.link, ts⟩) }
  | some r =>
    let m' := { m with tt := upd m.tt r.link (smooth (m.tt r.link) (((ts - r.start : ℤ) : ℚ) * m.unit)) }
    if v.done then .ok { m' with tracker := upd m.tracker v.id none }
    else if r.link ≠ v.link then .ok { m' with tracker := upd m.tracker v.id (some ⟨v.link, ts⟩) }
    else .throw "invalid state"

/-- `marginal_cost.cpp:38-79` `update_tt`: the vehicles of all incoming arrays in turn. -/
def LinkTt.update (ts : ℤ) (m : LinkTt) (vs : List Seen) : Res LinkTt := Res.foldlM (LinkTt.see ts) m vs

/-- A run: `update_tt` at each time. -/
def LinkTt.run (m : LinkTt) (h : List (ℤ × List Seen)) : Res LinkTt :=
  Res.foldlM (fun m e => m.update e.1 e.2) m h

/-! ## Gradients -/

/-- `marginal_cost.cpp:120-132` `calculate_link_mc`. -/
def linkMc (length ffs tt : ℚ) : ℚ :=
  let f := divide length ffs
  if tt < f then f else f + tt

/-- What a gradient reads of a link: length, speed, averaged travel time, flow and the difference to the measured
travel time. -/
structure LinkView where
  length : ℚ
  ffs : ℚ
  avg : ℚ
  flow : ℚ
  diff : ℚ

/-- `realtime_dta.cpp:228-238`: the difference of a link with a measured speed. -/
def ttDiff (length avg speed : ℚ) : ℚ := avg - length / speed

/-- `realtime_dta.cpp:268-292`: the gradient of one path in the estimation. -/
def estGrad (demand num : ℚ) (ls : List LinkView) : ℚ :=
  ls.foldl (fun g l => g + divide (l.diff * linkMc l.length l.ffs l.avg) (demand * num)) 0

/-- `realtime_dta.cpp:427-449`: the gradient of one path in the optimisation. -/
def optGrad (demand num : ℚ) (ls : List LinkView) : ℚ :=
  ls.foldl (fun g l => g + divide l.avg demand + divide (linkMc l.length l.ffs l.avg * l.flow) (demand * num)) 0

/-- `realtime_dta.cpp:405-450` and `1033-1063` as in `optimize_next`: gradients of the paths of one pair of nodes, then
the update; `view` are the links. -/
def optimizeSet (demand num : ℚ) (view : ℤ → LinkView) (step : ℚ) (ps : List Pth) : Res (List Pth) :=
  updateSet Pth.gOpt step (ps.map fun P => { P with gOpt := optGrad demand num (P.links.map view) })

/-! ## Who owns the path table -/

/-- The path table of `MNM_Realtime_Dta` (`alive`: not deleted yet) and the routing of the two kept copies of the
network: whether its `m_path_table` is set. -/
structure Mem where
  alive : Bool
  before : Bool
  after : Bool
  deriving DecidableEq

/-- Reading or writing paths. -/
def Mem.use (m : Mem) : Res Mem := if m.alive then .ok m else .ub

/-- `routing.cpp:387-411` destructor of the routing of a copy (`realtime_dta.cpp:758-764`): it deletes the table it
points to, after having asked whether it is empty. -/
def Mem.drop (set : Bool) (m : Mem) : Res Mem :=
  if set then (m.use).bind fun m => .ok { m with alive := false } else .ok m

/-- `routing.cpp:413-428` `init_routing`, `631-638` `set_path_table` with the table of the session: an older table is
deleted first, and here it is the same. -/
def Mem.hook (set : Bool) (m : Mem) : Res Mem :=
  if set then (m.use).bind fun m => .ok { m with alive := false } else .ok m

/-- `realtime_dta.cpp:545-580`: the rounds of `estimate_previous`, `n` left; each makes a copy, loads it with the table
(`init_routing` on a new routing), updates the portions and keeps the copy in the last round. -/
def Mem.estimate : ℕ → Mem → Res Mem
  | 0, m => .ok m
  | n + 1, m =>
    (m.hook false).bind fun m => m.use.bind fun m =>
      if n = 0 then (m.drop m.before).bind fun m => .ok { m with before := true }
      else (m.drop true).bind fun m => Mem.estimate n m

/-- `realtime_dta.cpp:582-618` `optimize_next`. -/
def Mem.optimize : ℕ → Mem → Res Mem
  | 0, m => .ok m
  | n + 1, m =>
    (m.hook false).bind fun m => m.use.bind fun m =>
      if n = 0 then (m.drop m.after).bind fun m => .ok { m with after := true }
      else (m.drop true).bind fun m => Mem.optimize n m

/-- `realtime_dta.cpp:620-735` `predict_next`: the routing of the kept copy is initialised, then the portions are used. -/
def Mem.predict (m : Mem) : Res Mem :=
  (m.hook m.before).bind fun m => Mem.use { m with before := true }

/-- `realtime_dta.cpp:455-477` `one_iteration`, with the numbers of rounds of the configuration. -/
def Mem.iteration (est opt : ℕ) (m : Mem) : Res Mem :=
  (Mem.estimate est m).bind fun m => m.use.bind fun m =>
    (Mem.optimize opt m).bind fun m => m.use.bind fun m => m.predict

/-- After the constructor and `init_running` (`realtime_dta.cpp:61-96`): new copies, whose routings have no table. -/
def Mem.start : Mem := ⟨true, false, false⟩

/-- Several calls of `one_iteration`. -/
def Mem.iterations (est opt : ℕ) : ℕ → Mem → Res Mem
  | 0, m => .ok m
  | n + 1, m => (m.iteration est opt).bind fun m => Mem.iterations est opt n m

/-! ## Releases of `predict_next` -/

/-- `realtime_dta.cpp:668-693`: the intervals of demand released, with the time, for a network with origins; `n` turns
left. -/
def releases (freq total : ℤ) : ℕ → ℤ → ℤ → Res (List (ℤ × ℤ))
  | 0, _, _ => .ok []
  | n + 1, cur, ai =>
    if freq = 0 then .ub
    else if (cur + 1).tmod freq = 0 then
      if total = 0 then .ub
      else (releases freq total n (cur + 1) (ai.tmod total + 1)).bind fun r => .ok ((cur, ai.tmod total) :: r)
    else releases freq total n (cur + 1) ai

/-- `realtime_dta.cpp:455-477`: the first interval `predict_next` is given, for `one_iteration (k)`. -/
def nextInterval (total k : ℤ) : Res ℤ := if total = 0 then .ub else .ok ((k.tmod total + 1).tmod total)

/-! ## Texts of signs -/

/-- The three texts of `vms.cpp:166-189`. -/
inductive Msg where
  | exit (link : ℤ)
  | minutes (n : ℤ)
  | care
  deriving DecidableEq

/-- What `generate_vms_instructions` reads of a link. -/
structure Road where
  length : ℚ
  ffs : ℚ
  tt : ℚ

/-- `vms.cpp:165-189`: one sign; `roads` is the link factory. -/
def message (roads : ℤ → Option Road) (s : Sign) : Res Msg :=
  match roads s.detour with
  | none => .throw "Error, MNM_Link_Factory::get_link, link does not exist"
  | some r =>
    if r.ffs < 60 * 1600 / 3600 then .ok (.exit s.detour)
    else if r.ffs = 0 then .ub
    else if r.tt > r.length / r.ffs then (toInt (r.tt / 60)).bind fun n => .ok (.minutes n)
    else .ok .care

/-- `vms.cpp:146-198` `generate_vms_instructions`: a line per sign, with its ID. -/
def messages (roads : ℤ → Option Road) : List (ℤ × Sign) → Res (List (ℤ × Msg))
  | [] => .ok []
  | s :: r => (message roads s.2).bind fun m => (messages roads r).bind fun q => .ok ((s.1, m) :: q)

/-! ## Closed links -/

/-- The parts of the network that `workzone.cpp` changes: link arrays of the nodes, links of the factory, closed
links; `ends` is the graph. -/
structure Net where
  ends : ℤ → Option (ℤ × ℤ)
  outs : ℤ → List ℤ
  ins : ℤ → List ℤ
  links : List ℤ
  closed : List ℤ

/-- `workzone.cpp:47-52`: `erase (remove (…))` with one iterator: `remove` moves the other elements to the front and
leaves the rest of the array as it was, `erase` takes one element out; nothing removed erases the end: undefined. -/
def eraseRemove (l : ℤ) (xs : List ℤ) : Res (List ℤ) :=
  let f := xs.filter (· ≠ l)
  if f.length = xs.length then .ub else .ok (f ++ xs.drop (f.length + 1))

/-- `workzone.cpp:35-58` `add_workzone_link` (the assertion of line 54 is not compiled in). -/
def close (n : Net) (l : ℤ) : Res Net :=
  if l ∉ n.links then .throw "Error, MNM_Link_Factory::get_link, link does not exist"
  else
    match n.ends l with
    | none => .throw "link not found"
    | some e =>
      (eraseRemove l (n.outs e.1)).bind fun o => (eraseRemove l (n.ins e.2)).bind fun i =>
        .ok { n with
          outs := upd n.outs e.1 o
          ins := upd n.ins e.2 i
          links := n.links.filter (· ≠ l)
          closed := n.closed ++ [l] }

/-- `workzone.cpp:20-28` `init_workzone`. -/
def closeAll (n : Net) (ls : List ℤ) : Res Net := Res.foldlM close n ls

end Verif.Rt

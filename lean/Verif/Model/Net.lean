import Verif.Model.Link

/-!
# Model of the network: vehicles, nodes, origins, destinations, routing and the loading loop

Sources: `vehicle.cpp`, `dnode.cpp`, `od.cpp`, `factory.cpp`, `routing.cpp`, `dta.cpp`.

Links, nodes, origins, destinations, paths and vehicles are numbered; a pointer is a number, a
null pointer is `none`.  Vehicle numbers are the vehicle IDs given by the factory.  What does not
change during loading is in `Cfg`, what changes is in `State`.  Everything random is in the
structures whose name ends in `Oracle`.
-/

namespace Verif.Net
open Ults Curve Lnk

/-- `vehicle.h:14` `MNM_Veh` (attributes used by the single-class loading; a finish time of -1
means not finished). -/
structure Veh where
  start : ℤ
  finish : ℤ
  adaptive : Bool          -- `m_type == MNM_TYPE_ADAPTIVE`
  origin : ℕ
  dest : ℕ
  cur : Option ℕ
  next : Option ℕ
  path : Option ℕ
  assign : ℤ
  label : ℤ
deriving DecidableEq

/-- A link with the two cumulative curves of `dlink.h` (`m_N_in`, `m_N_out`), null unless
installed. -/
structure LinkSt where
  link : Link ℕ
  nIn : Option Curve
  nOut : Option Curve

/-- An observable step of a vehicle: at interval `t` it leaves link `src` (none: an origin queue)
and enters link `dst` (none: the queue of a destination node).  Not part of the code: the log only
records what the code does and is never read by it. -/
structure Event where
  t : ℕ
  veh : ℕ
  src : Option ℕ
  dst : Option ℕ
deriving DecidableEq

/-- What changes during loading. -/
structure State where
  links : ℕ → LinkSt
  vehs : ℕ → Veh
  /-- `MNM_DMOND::m_in_veh_queue` of an origin node, `MNM_DMDND::m_out_veh_queue` of a
  destination node -/
  queue : ℕ → List ℕ
  /-- `MNM_Veh_Factory::m_num_veh`, `m_enroute`, `m_finished`, `m_total_time`, and the keys of
  `m_veh_map` -/
  numVeh : ℕ
  enroute : ℤ
  finished : ℕ
  totalTime : ℚ
  vehMap : List ℕ
  /-- `MNM_Routing_Fixed::m_tracker` -/
  tracker : ℕ → Option (List ℕ)
  /-- record of events, see `Event` -/
  log : List Event

/-- `dnode.h`: the node classes with their link arrays. -/
inductive Node where
  | origin (outs : List ℕ)
  | dest (ins : List ℕ)
  | fwj (ins outs : List ℕ)
  | grj (ins outs : List ℕ)

/-! ## Origin nodes -/

/-- The inner loop of `dnode.cpp:80-104` and `dnode.cpp:406-445`: walk along a deque, remove and
collect the first `n` vehicles that satisfy `p`. -/
def takeFirst {V : Type} (p : V → Bool) : ℕ → List V → List V × List V
  | 0, q => ([], q)
  | _ + 1, [] => ([], [])
  | n + 1, v :: q =>
    if p v then let r := takeFirst p n q; (v :: r.1, r.2)
    else let r := takeFirst p (n + 1) q; (r.1, v :: r.2)

/-- `get_next_link () == l`. -/
def State.heads (s : State) (l : ℕ) (v : ℕ) : Bool := decide ((s.vehs v).next = some l)

/-- `push_back` on the incoming array of link `l` and `set_current_link (l)` for each vehicle in
turn (`dnode.cpp:88-89`, `414-415`). -/
def State.enter (ts : ℕ) (src : Option ℕ) (l : ℕ) (s : State) (vs : List ℕ) : State :=
  { s with
    links := upd s.links l
      { s.links l with link := (s.links l).link.setIncoming ((s.links l).link.incoming ++ vs) }
    vehs := fun v => if v ∈ vs then { s.vehs v with cur := some l } else s.vehs v
    log := s.log ++ vs.map fun v => ⟨ts, v, src, some l⟩ }

/-- `m_N_in->add_increment (timestamp + 1, number / m_flow_scalar)` on an optional curve. -/
def recordOpt (scalar : ℚ) (ts : ℕ) (n : ℤ) : Option Curve → Res (Option Curve)
  | none => .ok none
  | some c => (addIncrement c ((ts : ℚ) + 1, n / scalar)).bind fun c' => .ok (some c')

/-- `dnode.cpp:57-66`: the number of vehicles an origin node sends to link `l`. -/
def originVolume (scalar : ℚ) (s : State) (q : List ℕ) (u : ℚ) (l : ℕ) : Res ℤ :=
  (s.links l).link.supply.bind fun sup =>
    if sup * scalar < (q.countP (s.heads l) : ℚ) then round (sup * scalar) u
    else .ok (q.countP (s.heads l))

/-- `dnode.cpp:69-105`, one link: record the inflow and move the vehicles. -/
def originMove (scalar : ℚ) (ts node : ℕ) (s : State) (lv : ℕ × ℤ) : Res State :=
  (if lv.2 > 0 then recordOpt scalar ts lv.2 (s.links lv.1).nIn
    else .ok (s.links lv.1).nIn).bind fun c =>
    let s1 := { s with links := upd s.links lv.1 { s.links lv.1 with nIn := c } }
    let r := takeFirst (s.heads lv.1) lv.2.toNat (s1.queue node)
    .ok (State.enter ts none lv.1 { s1 with queue := upd s1.queue node r.2 } r.1)

/-- The volumes of all links, computed before any vehicle moves; `u` supplies the draws. -/
def originVolumes (scalar : ℚ) (s : State) (q : List ℕ) (u : ℕ → ℚ) :
    ℕ → List ℕ → Res (List (ℕ × ℤ))
  | _, [] => .ok []
  | i, l :: ls =>
    (originVolume scalar s q (u i) l).bind fun n =>
      (originVolumes scalar s q u (i + 1) ls).bind fun r => .ok ((l, n) :: r)

/-- `dnode.cpp:36-108` `MNM_DMOND::evolve`.  A vehicle whose next link is not one of the out
links makes line 53 dereference the end of a map. -/
def originEvolve (scalar : ℚ) (ts node : ℕ) (outs : List ℕ) (u : ℕ → ℚ) (s : State) : Res State :=
  if (s.queue node).all (fun v => outs.any fun l => s.heads l v) then
    (originVolumes scalar s (s.queue node) u 0 outs).bind fun lvs =>
      Res.foldlM (originMove scalar ts node) s lvs
  else .ub

/-! ## Destination nodes -/

/-- `dnode.cpp:158-179`, one link. -/
def destTake (scalar : ℚ) (ts node : ℕ) (s : State) (l : ℕ) : Res State :=
  let fin := (s.links l).link.finished
  (if 0 < fin.length then recordOpt scalar ts fin.length (s.links l).nOut
    else .ok (s.links l).nOut).bind fun c =>
    if fin.all (fun v => decide ((s.vehs v).next = none)) then
      .ok { s with
        links := upd s.links l ⟨(s.links l).link.setFinished [], (s.links l).nIn, c⟩
        vehs := fun v => if v ∈ fin then { s.vehs v with cur := none } else s.vehs v
        queue := upd s.queue node (s.queue node ++ fin)
        log := s.log ++ fin.map fun v => ⟨ts, v, some l, none⟩ }
    else .throw "invalid vehicle state"

/-- `dnode.cpp:150-181` `MNM_DMDND::evolve`. -/
def destEvolve (scalar : ℚ) (ts node : ℕ) (ins : List ℕ) (s : State) : Res State :=
  Res.foldlM (destTake scalar ts node) s ins

/-! ## In-out nodes

`m_demand`, `m_veh_flow` and `m_veh_tomove` are matrices stored row by row (in link, out link).
Here they are lists of columns: one list per out link, with one entry per in link. -/

/-- `dnode.cpp:257-270`: the demand column of out link `o`. -/
def demandCol (scalar : ℚ) (s : State) (ins : List ℕ) (o : ℕ) : List ℚ :=
  ins.map fun i => ((s.links i).link.finished.countP (s.heads o) : ℚ) / scalar

/-- Supplies of the out links (`dnode.cpp:274-283`). -/
def supplies (s : State) : List ℕ → Res (List ℚ)
  | [] => .ok []
  | o :: os => (s.links o).link.supply.bind fun x => (supplies s os).bind fun r => .ok (x :: r)

/-- The test of `dnode.cpp:247-256`. -/
def onRightNode (s : State) (ins outs : List ℕ) : Bool :=
  ins.all fun i => (s.links i).link.finished.all fun v => outs.any fun o => s.heads o v

/-- `dnode.cpp:514-539` `MNM_Dnode_FWJ::compute_flow`, one column. -/
def fwjCol (d : List ℚ) (s : ℚ) : List ℚ := d.map fun x => min x (divide x d.sum * s)

/-- A double that may be infinite or not a number, as far as `MNM_Dnode_GRJ` needs it. -/
inductive Ext where
  | fin (x : ℚ)
  | pinf
  | ninf
  | nan
deriving DecidableEq

/-- `<` on doubles (false when an argument is not a number). -/
def Ext.lt : Ext → Ext → Bool
  | .fin x, .fin y => decide (x < y)
  | .fin _, .pinf => true
  | .ninf, .fin _ => true
  | .ninf, .pinf => true
  | _, _ => false

/-- Division of finite doubles. -/
def Ext.div (x y : ℚ) : Ext :=
  if y = 0 then (if x = 0 then .nan else if 0 < x then .pinf else .ninf) else .fin (x / y)

/-- `*std::max_element` on a non-empty range (undefined on an empty one). -/
def Ext.maxElement : List Ext → Res Ext
  | [] => .ub
  | x :: xs => .ok (xs.foldl (fun m y => if m.lt y then y else m) x)

/-- `std::min (a, b)`. -/
def Ext.min (a b : Ext) : Ext := if b.lt a then b else a

/-- All sub-lists of indices in the order of `dnode.cpp:634-652` `powerSet` (the mask counts up,
bit 0 first). -/
def powerSet : ℕ → List (List ℕ)
  | 0 => [[]]
  | n + 1 => powerSet n ++ (powerSet n).map fun v => v ++ [n]

/-- The inner loop of `dnode.cpp:679-708` for one subset `v` of the in links (given by index): the
quotient pushed to `_temp3`.  `da`, `ca` are `m_d_a`, `m_C_a`; `d` is the demand column. -/
def grjRatio (da ca d : List ℚ) (sup : ℚ) (v : List ℕ) : Ext :=
  let idx := List.range da.length
  let term := fun (a : List ℚ) i => a.getD i 0 * divide (d.getD i 0) sup
  let down := ((idx.filter fun i => i ∈ v).map (term ca)).sum
  let up := ((idx.filter fun i => i ∉ v).map (term da)).sum
  Ext.div (sup - up) down

/-- `_temp2`, one entry per out link (`dnode.cpp:676-710`). -/
def grjTemp2 (da ca : List ℚ) : List (List ℚ × ℚ) → Res (List Ext)
  | [] => .ok []
  | (d, sup) :: rest =>
    (Ext.maxElement (((powerSet da.length).filter (· ≠ [])).map (grjRatio da ca d sup))).bind
      fun m => (grjTemp2 da ca rest).bind fun r => .ok (m :: r)

/-- `dnode.cpp:654-720` `get_theta`. -/
def grjTheta (da ca : List ℚ) (cols : List (List ℚ × ℚ)) : Res Ext :=
  (Ext.maxElement ((da.zip ca).map fun p => .fin (divide p.1 p.2))).bind fun e1 =>
    (grjTemp2 da ca cols).bind fun t2 =>
      (Ext.maxElement t2).bind fun e2 => .ok (Ext.min e1 e2)

/-- `dnode.cpp:575-601` `MNM_Dnode_GRJ::compute_flow`.  With an infinite or undefined `_theta`
the code would compute with infinities; `Ext.min` with the finite first argument excludes all but
negative infinity, which is answered with `ub` (the later conversion of an infinite flow to `int`
is undefined). -/
def grjFlow (da ca : List ℚ) (cols : List (List ℚ × ℚ)) : Res (List (List ℚ)) :=
  if da = [] ∨ cols = [] then .ok (cols.map fun c => c.1.map fun _ => 0)
  else
    (grjTheta da ca cols).bind fun θ =>
      match θ with
      | .fin t =>
        .ok (cols.map fun c =>
          (da.zip (ca.zip c.1)).map fun p => min p.1 (t * p.2.1) * divide p.2.2 c.2)
      | _ => .ub

/-- `dnode.cpp:303-310`: rounding one column (`u i` is the draw for in link `i`). -/
def roundCol (scalar : ℚ) (u : ℕ → ℚ) : ℕ → List ℚ → Res (List ℤ)
  | _, [] => .ok []
  | i, f :: fs =>
    (round (f * scalar) (u i)).bind fun n =>
      (roundCol scalar u (i + 1) fs).bind fun r => .ok (n :: r)

/-- `dnode.cpp:313-321`: take back vehicles until the total fits.  The list is the sequence of
values of `rand ()`; running out of them means the loop is still running (`diverge`). -/
def reduceLoop (sup : ℚ) : List ℕ → List ℤ → ℤ → Res (List ℤ)
  | draws, mv, tot =>
    if (tot : ℚ) ≤ sup then .ok mv
    else
      match draws with
      | [] => .diverge
      | k :: ds =>
        if mv.length = 0 then .ub
        else
          let i := k % mv.length
          if mv.getD i 0 ≥ 1 then reduceLoop sup ds (mv.set i (mv.getD i 0 - 1)) (tot - 1)
          else reduceLoop sup ds mv tot

/-- The draws of one in-out node in one interval. -/
structure NodeOracle where
  /-- rounding draws: out link index, in link index (origin nodes use index 0 0, 1 0, …) -/
  u : ℕ → ℕ → ℚ
  /-- `rand ()` values of the loop of lines 313-321, per out link index -/
  draws : ℕ → List ℕ
  /-- the order of in link indices produced by `random_shuffle`, per out link index -/
  order : ℕ → List ℕ

/-- `dnode.cpp:288-326` `round_flow_to_vehicle`: columns of flows and supplies to columns of
vehicle numbers. -/
def roundFlow (scalar : ℚ) (o : NodeOracle) : ℕ → List (List ℚ × ℚ) → Res (List (List ℤ))
  | _, [] => .ok []
  | j, (f, sup) :: rest =>
    (roundCol scalar (o.u j) 0 f).bind fun mv =>
      (reduceLoop (sup * scalar) (o.draws j) mv mv.sum).bind fun mv' =>
        (roundFlow scalar o (j + 1) rest).bind fun r => .ok (mv' :: r)

/-- First loop of `dnode.cpp:328-378` `record_cumulative_curve` (the test is on `m_N_out`, the
record goes to `m_N_in`). -/
def recordOut (scalar : ℚ) (ts : ℕ) (s : State) (om : ℕ × List ℤ) : Res State :=
  if (s.links om.1).nOut.isSome ∧ om.2.sum > 0 then
    match (s.links om.1).nIn with
    | none => .ub
    | some c =>
      (addIncrement c ((ts : ℚ) + 1, om.2.sum / scalar)).bind fun c' =>
        .ok { s with links := upd s.links om.1 { s.links om.1 with nIn := some c' } }
  else .ok s

/-- Second loop of `dnode.cpp:328-378`; `n` is the sum of row `i`. -/
def recordIn (scalar : ℚ) (ts : ℕ) (s : State) (im : ℕ × ℤ) : Res State :=
  if (s.links im.1).nIn.isSome ∧ im.2 > 0 then
    match (s.links im.1).nOut with
    | none => .ub
    | some c =>
      (addIncrement c ((ts : ℚ) + 1, im.2 / scalar)).bind fun c' =>
        .ok { s with links := upd s.links im.1 { s.links im.1 with nOut := some c' } }
  else .ok s

/-- Row sums of the matrix of vehicle numbers. -/
def rowSums (ins : List ℕ) (mv : List (List ℤ)) : List (ℕ × ℤ) :=
  ins.zipIdx.map fun p => (p.1, (mv.map fun c => c.getD p.2 0).sum)

/-- `dnode.cpp:404-449`: move `n` vehicles from in link `i` to out link `o`.  (Miles travelled
and the trees of cumulative curves are modelled elsewhere.) -/
def moveOne (ts o i : ℕ) (n : ℤ) (s : State) : Res State :=
  let r := takeFirst (s.heads o) n.toNat (s.links i).link.finished
  if (r.1.length : ℤ) = n then
    .ok (State.enter ts (some i) o
      { s with
        links := upd s.links i { s.links i with link := (s.links i).link.setFinished r.2 } } r.1)
  else .throw "invalid state when moving vehicles"

/-- `dnode.cpp:402-450`: all in links, in the shuffled order. -/
def moveCol (ts : ℕ) (ins : List ℕ) (order : List ℕ) (s : State) (om : ℕ × List ℤ) : Res State :=
  Res.foldlM (fun s i =>
    match ins[i]? with
    | none => .ub
    | some l => moveOne ts om.1 l (om.2.getD i 0) s) s order

/-- `dnode.cpp:380-457` `move_vehicle`. -/
def moveAll (ts : ℕ) (ins : List ℕ) (o : NodeOracle) :
    ℕ → State → List (ℕ × List ℤ) → Res State
  | _, s, [] => .ok s
  | j, s, om :: rest =>
    (moveCol ts ins (o.order j) s om).bind fun s' => moveAll ts ins o (j + 1) s' rest

/-- `dnode.cpp:603-615` `prepare_outflux` (in-link demand and capacity). -/
def outflux (scalar : ℚ) (s : State) : List ℕ → Res (List ℚ × List ℚ)
  | [] => .ok ([], [])
  | i :: is =>
    (s.links i).link.supply.bind fun sup =>
      (outflux scalar s is).bind fun r =>
        let da : ℚ := ((s.links i).link.finished.length : ℚ) / scalar
        .ok (da :: r.1, max da sup :: r.2)

/-- `compute_flow` of the two node classes: demand columns with supplies to flow columns. -/
def computeFlow (scalar : ℚ) (grj : Bool) (s : State) (ins : List ℕ) (cols : List (List ℚ × ℚ)) :
    Res (List (List ℚ)) :=
  if grj then
    if ins = [] ∨ cols = [] then .ok (cols.map fun c => c.1.map fun _ => 0)
    else (outflux scalar s ins).bind fun p => grjFlow p.1 p.2 cols
  else .ok (cols.map fun c => fwjCol c.1 c.2)

/-- `dnode.cpp:479-495` `MNM_Dnode_Inout::evolve`. -/
def inoutEvolve (scalar : ℚ) (ts : ℕ) (grj : Bool) (ins outs : List ℕ) (o : NodeOracle)
    (s : State) : Res State :=
  if onRightNode s ins outs then
    (supplies s outs).bind fun sups =>
      (computeFlow scalar grj s ins ((outs.map (demandCol scalar s ins)).zip sups)).bind fun flows =>
        (roundFlow scalar o 0 (flows.zip sups)).bind fun mv =>
          (Res.foldlM (recordOut scalar ts) s (outs.zip mv)).bind fun s1 =>
            (Res.foldlM (recordIn scalar ts) s1 (rowSums ins mv)).bind fun s2 =>
              moveAll ts ins o 0 s2 (outs.zip mv)
  else .throw "vehicle on wrong node"

/-- Virtual `evolve` of a node. -/
def Node.evolve (scalar : ℚ) (ts node : ℕ) (o : NodeOracle) (s : State) : Node → Res State
  | .origin outs => originEvolve scalar ts node outs (fun i => o.u i 0) s
  | .dest ins => destEvolve scalar ts node ins s
  | .fwj ins outs => inoutEvolve scalar ts false ins outs o s
  | .grj ins outs => inoutEvolve scalar ts true ins outs o s

/-! ## Vehicle factory -/

/-- `factory.cpp:28-39` `make_veh`, with the vehicle set up by the caller
(`od.cpp:145-177`).  `vehicle.cpp:3-19` is the constructor. -/
def State.makeVeh (s : State) (start : ℤ) (adaptive : Bool) (origin dest : ℕ) (assign label : ℤ) :
    State :=
  { s with
    vehs := upd s.vehs (s.numVeh + 1)
      ⟨start, -1, adaptive, origin, dest, none, none, none, assign, label⟩
    vehMap := s.vehMap ++ [s.numVeh + 1]
    numVeh := s.numVeh + 1
    enroute := s.enroute + 1 }

/-- `factory.cpp:41-67` `remove_finished_veh`.  The assertion of line 57 is compiled out. -/
def State.removeFinished (s : State) (v : ℕ) (del : Bool) : Res State :=
  if v ∈ s.vehMap then
    .ok { s with
      vehMap := if del then s.vehMap.erase v else s.vehMap
      totalTime := s.totalTime + ((s.vehs v).finish - (s.vehs v).start : ℤ)
      finished := s.finished + 1
      enroute := s.enroute - 1 }
  else .throw "vehicle not found"

/-! ## Origins and destinations -/

/-- `od.h` `MNM_Origin`: the demand map in iteration order, optional adaptive ratios per
destination, and the label ratios. -/
structure Origin where
  node : ℕ
  freq : ℕ
  demand : List (ℕ × (ℕ → ℚ))
  adaptiveRatio : ℕ → Option (ℕ → ℚ)
  labels : List ℚ

/-- Random draws of one release of one origin; the vehicle draws are per vehicle ID. -/
structure ReleaseOracle where
  u : ℕ → ℚ                  -- rounding of the demand, per position in the demand map
  r : ℕ → ℚ                  -- adaptive or static
  l : ℕ → ℚ                  -- label
  shuffle : List ℕ → List ℕ  -- `random_shuffle`

/-- The loop of `od.cpp:81-91`. -/
def labelScan : List ℚ → ℚ → ℤ → ℤ
  | [], _, _ => -1
  | p :: ps, r, k => if !approxLt p r tol then k else labelScan ps (r - p) (k + 1)

/-- `od.cpp:67-94` `generate_label`. -/
def generateLabel (ratios : List ℚ) (r : ℚ) : ℤ :=
  if ratios.all fun p => decide (p ≤ 0) then -1 else labelScan ratios r 0

/-- The inner loop of `od.cpp:145-178`: `n` vehicles for one destination. -/
def releaseVehs (o : Origin) (oid : ℕ) (orc : ReleaseOracle) (ts : ℕ) (d : ℕ) (ratio : ℚ) :
    ℕ → State → State
  | 0, s => s
  | n + 1, s =>
    let id := s.numVeh + 1
    let ad := if ratio = 0 then false else if ratio = 1 then true else decide (orc.r id ≤ ratio)
    let s1 := s.makeVeh ts ad oid d (ts / o.freq : ℕ) (generateLabel o.labels (orc.l id))
    releaseVehs o oid orc ts d ratio n
      { s1 with queue := upd s1.queue o.node (s1.queue o.node ++ [id]) }

/-- The outer loop of `od.cpp:136-179`; the adaptive ratio found for one destination stays in
force for the following ones. -/
def releaseDests (scalar : ℚ) (o : Origin) (oid : ℕ) (orc : ReleaseOracle) (ts assign : ℕ) :
    ℕ → ℚ → List (ℕ × (ℕ → ℚ)) → State → Res State
  | _, _, [], s => .ok s
  | k, ratio, (d, dem) :: rest, s =>
    let ratio := match o.adaptiveRatio d with
      | some f => f assign
      | none => ratio
    (round (dem assign * scalar) (orc.u k)).bind fun n =>
      releaseDests scalar o oid orc ts assign (k + 1) ratio rest
        (releaseVehs o oid orc ts d ratio n.toNat s)

/-- `od.cpp:126-184` `release_one_interval` with a non-negative assignment interval. -/
def releaseOne (scalar : ℚ) (o : Origin) (oid : ℕ) (orc : ReleaseOracle) (ts assign : ℕ) (ratio : ℚ)
    (s : State) : Res State :=
  if o.freq = 0 then .ub
  else
    (releaseDests scalar o oid orc ts assign 0 ratio o.demand s).bind fun s' =>
      .ok { s' with queue := upd s'.queue o.node (orc.shuffle (s'.queue o.node)) }

/-! ## Routing -/

/-- The path table as it stands when `update_routing` is called, and the links of each path. -/
structure PathTable where
  /-- paths of an origin node and a destination node with their probabilities, in the order of
  `m_path_vec`; `none` when the table has no entry -/
  pathset : ℕ → ℕ → Option (List (ℕ × ℚ))
  links : ℕ → List ℕ

/-- Draws of one `update_routing`, per vehicle ID. -/
structure RouteOracle where
  r : ℕ → ℚ        -- path choice of `register_veh`
  pick : ℕ → ℕ     -- `rand ()` of random and adaptive routing

/-- `routing.cpp:577-593`: the choice loop of `register_veh`. -/
def choosePath : List (ℕ × ℚ) → ℚ → Option ℕ
  | [], _ => none
  | (p, w) :: rest, r => if !approxLt w r tol then some p else choosePath rest (r - w)

/-- What does not change during loading. -/
structure Cfg where
  scalar : ℚ
  assignFreq : ℕ
  totalAssign : ℕ
  linkIds : List ℕ
  nodeIds : List ℕ
  node : ℕ → Node
  /-- `m_to_node` of a link -/
  toNode : ℕ → ℕ
  /-- out links of a node as listed by the graph -/
  outLinks : ℕ → List ℕ
  originIds : List ℕ
  origin : ℕ → Origin
  destIds : List ℕ
  destNode : ℕ → ℕ

/-- `routing.cpp:564-614` `register_veh`. -/
def registerVeh (c : Cfg) (pt : PathTable) (r : ℚ) (v : ℕ) (track : Bool) (s : State) : Res State :=
  match pt.pathset (c.origin (s.vehs v).origin).node (c.destNode (s.vehs v).dest) with
  | none => .ub
  | some ps =>
    match choosePath ps r with
    | none => .throw "wrong probability"
    | some p =>
      .ok { s with
        tracker :=
          if track then
            (match s.tracker v with
             | none => upd s.tracker v (some (pt.links p))
             | some _ => s.tracker)                          -- `insert` keeps an existing entry
          else s.tracker
        vehs := upd s.vehs v { s.vehs v with path := some p } }

/-- `get_link`: an exception for an unknown link (`factory.cpp:193-202`). -/
def getLink (c : Cfg) (l : ℕ) : Res ℕ :=
  if l ∈ c.linkIds then .ok l else .throw "link does not exist"

/-- `routing.cpp:534-540` and `495-499`: take the next link from the tracked list. -/
def nextFromTracker (c : Cfg) (v : ℕ) (s : State) : Res State :=
  match s.tracker v with
  | none => .ub
  | some [] => .ub
  | some (l :: rest) =>
    (getLink c l).bind fun l =>
      .ok { s with
        vehs := upd s.vehs v { s.vehs v with next := some l }
        tracker := upd s.tracker v (some rest) }

/-- `routing.cpp:470-519`: one vehicle in an origin queue, fixed routing. -/
def fixedOrigin (c : Cfg) (pt : PathTable) (o : RouteOracle) (s : State) (v : ℕ) : Res State :=
  if (s.vehs v).adaptive then
    (match (s.vehs v).path with
     | none => registerVeh c pt (o.r v) v false s
     | some _ => .ok s)
  else
    match s.tracker v with
    | some _ => .ok s
    | none => (registerVeh c pt (o.r v) v true s).bind (nextFromTracker c v)

/-- `routing.cpp:524-558`: one vehicle at the end of link `l`, fixed routing. -/
def fixedLink (c : Cfg) (l : ℕ) (s : State) (v : ℕ) : Res State :=
  if (s.vehs v).adaptive then .ok s
  else if c.destNode (s.vehs v).dest = c.toNode l then
    match s.tracker v with
    | none => .ub
    | some [] => .ok { s with vehs := upd s.vehs v { s.vehs v with next := none } }
    | some (_ :: _) => .throw "invalid state"
  else
    match s.tracker v with
    | none => .throw "invalid state: vehicle unregistered for link"
    | some _ =>
      if (s.vehs v).cur = (s.vehs v).next then nextFromTracker c v s else .ok s

/-- The two loops shared by all routings: over the vehicles of the origin queues, then over the
vehicles at the end of the links.  The bodies change neither queues nor links. -/
def routeAll (c : Cfg) (fo : ℕ → State → ℕ → Res State) (fl : ℕ → State → ℕ → Res State)
    (s : State) : Res State :=
  (Res.foldlM (fun s oid =>
      Res.foldlM (fo (c.origin oid).node) s (s.queue (c.origin oid).node)) s c.originIds).bind
    fun s => Res.foldlM (fun s l => Res.foldlM (fl l) s (s.links l).link.finished) s c.linkIds

/-- `routing.cpp:444-561` `MNM_Routing_Fixed::update_routing`, after the path probabilities of the
interval are in place (`pt`). -/
def fixedRouting (c : Cfg) (pt : PathTable) (o : RouteOracle) (s : State) : Res State :=
  routeAll c (fun _ => fixedOrigin c pt o) (fixedLink c) s

/-- The shortest-path trees in force: destination, node, the ID of the next link (-1: none);
`none` when the tree has no entry for the node. -/
abbrev Trees := ℕ → ℕ → Option ℤ

/-- `get_link` of a tree entry. -/
def getLinkZ (c : Cfg) (l : ℤ) : Res ℕ :=
  if 0 ≤ l then getLink c l.toNat else .throw "link does not exist"

/-- `routing.cpp:247-277`: one vehicle in an origin queue, adaptive routing. -/
def adaptiveOrigin (c : Cfg) (tr : Trees) (n : ℕ) (s : State) (v : ℕ) : Res State :=
  if (s.vehs v).adaptive then
    match tr (s.vehs v).dest n with
    | none => .ub
    | some l =>
      if l < 0 then .throw "invalid state"
      else (getLinkZ c l).bind fun l =>
        .ok { s with vehs := upd s.vehs v { s.vehs v with next := some l } }
  else .ok s

/-- `routing.cpp:282-354`: one vehicle at the end of link `l`, adaptive routing. -/
def adaptiveLink (c : Cfg) (tr : Trees) (o : RouteOracle) (l : ℕ) (s : State) (v : ℕ) : Res State :=
  if (s.vehs v).adaptive then
    if (s.vehs v).cur ≠ some l then .throw "wrong current link"
    else if c.destNode (s.vehs v).dest = c.toNode l then
      .ok { s with vehs := upd s.vehs v { s.vehs v with next := none } }
    else
      match tr (s.vehs v).dest (c.toNode l) with
      | none => .ub
      | some k =>
        let outs := c.outLinks (c.toNode l)
        let k := if k = -1 ∧ outs ≠ [] then ((outs.getD (o.pick v % outs.length) 0 : ℕ) : ℤ) else k
        (getLinkZ c k).bind fun k =>
          if c.toNode k ≠ c.destNode (s.vehs v).dest ∧
              tr (s.vehs v).dest (c.toNode k) = none then .ub
          else if c.toNode k ≠ c.destNode (s.vehs v).dest ∧
              tr (s.vehs v).dest (c.toNode k) = some (-1) then .throw "invalid state"
          else .ok { s with vehs := upd s.vehs v { s.vehs v with next := some k } }
  else .ok s

/-- `routing.cpp:197-358` `MNM_Routing_Adaptive::update_routing`, after the trees are computed. -/
def adaptiveRouting (c : Cfg) (tr : Trees) (o : RouteOracle) (s : State) : Res State :=
  routeAll c (adaptiveOrigin c tr) (adaptiveLink c tr o) s

/-- `routing.cpp:49-61`: one vehicle in an origin queue, random routing. -/
def randomOrigin (c : Cfg) (o : RouteOracle) (n : ℕ) (s : State) (v : ℕ) : Res State :=
  match (c.outLinks n)[o.pick v % (c.outLinks n).length]? with
  | none => .ub
  | some l => (getLink c l).bind fun l =>
      .ok { s with vehs := upd s.vehs v { s.vehs v with next := some l } }

/-- `routing.cpp:66-92`: one vehicle at the end of a link, random routing. -/
def randomLink (c : Cfg) (o : RouteOracle) (l : ℕ) (s : State) (v : ℕ) : Res State :=
  match (c.outLinks (c.toNode l))[o.pick v % (c.outLinks (c.toNode l)).length]? with
  | none => .ok { s with vehs := upd s.vehs v { s.vehs v with next := none } }
  | some k => (getLink c k).bind fun k =>
      .ok { s with vehs := upd s.vehs v { s.vehs v with next := some k } }

/-- `routing.cpp:37-98` `MNM_Routing_Random::update_routing`. -/
def randomRouting (c : Cfg) (o : RouteOracle) (s : State) : Res State :=
  routeAll c (randomOrigin c o) (randomLink c o) s

/-- The routing classes with what they look up in this interval (`routing.h`). -/
inductive Routing where
  | random
  | adaptive (tr : Trees)
  | fixed (pt : PathTable)
  | hybrid (tr : Trees) (pt : PathTable)

/-- Virtual `update_routing`; hybrid routing runs the adaptive part, then the fixed part
(`routing.cpp:690-697`). -/
def Routing.update (c : Cfg) (o : RouteOracle) (s : State) : Routing → Res State
  | .random => randomRouting c o s
  | .adaptive tr => adaptiveRouting c tr o s
  | .fixed pt => fixedRouting c pt o s
  | .hybrid tr pt => (adaptiveRouting c tr o s).bind (fixedRouting c pt o)

/-- `routing.cpp:616-629` `remove_finished` with `del`; a no-op for routings without tracker
(there the tracker is empty). -/
def State.untrack (s : State) (v : ℕ) : State := { s with tracker := upd s.tracker v none }

/-! ## Receiving and the loading loop -/

/-- `od.cpp:214-239`: one vehicle of the loop of `MNM_Destination::receive`. -/
def receiveVeh (ts d : ℕ) (s : State) (v : ℕ) : Res State :=
  if (s.vehs v).dest ≠ d then .throw "invalid state"
  else
    ({ s with vehs := upd s.vehs v { s.vehs v with finish := ts } }.untrack v).removeFinished v true

/-- `od.cpp:214-242` `MNM_Destination::receive`: the loop pops the whole queue. -/
def receive (c : Cfg) (ts : ℕ) (s : State) (d : ℕ) : Res State :=
  (Res.foldlM (receiveVeh ts d) s (s.queue (c.destNode d))).bind fun s' =>
    .ok { s' with queue := upd s'.queue (c.destNode d) [] }

/-- The random and external choices of one interval. -/
structure StepOracle where
  release : ℕ → ReleaseOracle
  /-- the adaptive ratio given by the configuration (`dta.cpp:574-610`): 0 for fixed routing, 1
  for adaptive, the configured one for hybrid; `none` for a routing type without release
  ("No assignment!") -/
  ratio : Option ℚ
  routing : Routing
  route : RouteOracle
  node : ℕ → NodeOracle
  /-- draws of the links' `evolve` -/
  link : ℕ → ℕ → ℚ

/-- `dta.cpp:560-628` step 1. -/
def stepRelease (c : Cfg) (o : StepOracle) (ts assign : ℕ) (s : State) : Res State :=
  if c.assignFreq = 0 then .ub
  else if ts % c.assignFreq = 0 then
    if assign ≥ c.totalAssign then .ok s
    else
      match o.ratio with
      | none => .ok s
      | some ratio =>
        Res.foldlM (fun s oid =>
          releaseOne c.scalar (c.origin oid) oid (o.release oid) ts assign ratio s) s c.originIds
  else .ok s

/-- `dta.cpp:638-644` step 3. -/
def stepNodes (c : Cfg) (o : StepOracle) (ts : ℕ) (s : State) : Res State :=
  Res.foldlM (fun s n => (c.node n).evolve c.scalar ts n (o.node n) s) s c.nodeIds

/-- `dta.cpp:652-667` step 4, one link: `clear_incoming_array` and `evolve`. -/
def linkStep (o : StepOracle) (s : State) (l : ℕ) : Res State :=
  (s.links l).link.clear.bind fun x =>
    (x.evolve (fun v => (s.vehs v).next.isSome) (o.link l)).bind fun y =>
      .ok { s with links := upd s.links l { s.links l with link := y } }

/-- `dta.cpp:538-689` `load_once` (without statistics, emission, gridlock records and printing,
which do not change the state; `update_link_attribute` does nothing for single-class links,
`factory.h:66`). -/
def loadOnce (c : Cfg) (o : StepOracle) (ts assign : ℕ) (s : State) : Res State :=
  (stepRelease c o ts assign s).bind fun s =>
    (o.routing.update c o.route s).bind fun s =>
      (stepNodes c o ts s).bind fun s =>
        (Res.foldlM (linkStep o) s c.linkIds).bind fun s =>
          Res.foldlM (receive c ts) s c.destIds

/-- `dta.cpp:692-715` the body of `loading`, once per oracle given: `ts` and `assign` are
`_current_inter` and `_assign_inter`. -/
def loadMany (c : Cfg) : List StepOracle → ℕ → ℕ → State → Res (State × ℕ × ℕ)
  | [], ts, assign, s => .ok (s, ts, assign)
  | o :: os, ts, assign, s =>
    (loadOnce c o ts assign s).bind fun s =>
      loadMany c os (ts + 1) (if (ts + 1) % c.assignFreq = 0 then assign + 1 else assign) s

/-- `dta.cpp:766-781` `finished_loading` and the loop condition of `dta.cpp:700-701`: does the
loop of `loading` go on?  `totalInterval` is the configuration value. -/
def goesOn (c : Cfg) (totalInterval : ℤ) (ts assign : ℕ) (s : State) : Bool :=
  let fin : Bool :=
    if totalInterval > 0 then decide ((ts : ℤ) ≥ totalInterval)
    else !(decide (s.numVeh ≠ s.finished) || decide (ts = 0))
  !fin || decide (assign < c.totalAssign)

/-- `dta.cpp:692-738` `loading`, from interval `ts` on; `orc` gives the choices of every interval.
Running out of fuel means that the loop has not ended. -/
def loading (c : Cfg) (totalInterval : ℤ) (orc : ℕ → StepOracle) :
    ℕ → ℕ → ℕ → State → Res (State × ℕ × ℕ)
  | 0, _, _, _ => .diverge
  | fuel + 1, ts, assign, s =>
    if goesOn c totalInterval ts assign s then
      (loadOnce c (orc ts) ts assign s).bind fun s =>
        loading c totalInterval orc fuel (ts + 1)
          (if (ts + 1) % c.assignFreq = 0 then assign + 1 else assign) s
    else .ok (s, ts, assign)

/-- `macposts/_ext/dta.cpp:809-847` `get_travel_stats`: released vehicles, their vehicle-hours,
vehicles en route and finished vehicles, all in flow units; `now` is the current loading interval
and `unit` the length of an interval in seconds. -/
def travelStats (c : Cfg) (unit : ℚ) (now : ℕ) (s : State) : ℚ × ℚ × ℚ × ℚ :=
  let count : ℕ := s.finished + s.vehMap.length
  let tt : ℚ := s.totalTime * unit / 3600 +
    (s.vehMap.map fun v => (((now : ℤ) - (s.vehs v).start : ℤ) : ℚ) * unit / 3600).sum
  (count / c.scalar, tt / c.scalar, s.enroute / c.scalar, s.finished / c.scalar)

/-- The state before loading: links as made by the factory, nothing released. -/
def State.init (links : ℕ → LinkSt) : State :=
  { links := links, vehs := fun _ => ⟨0, -1, false, 0, 0, none, none, none, -1, -1⟩,
    queue := fun _ => [], numVeh := 0, enroute := 0, finished := 0, totalTime := 0, vehMap := [],
    tracker := fun _ => none, log := [] }

end Verif.Net

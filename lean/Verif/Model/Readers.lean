import Verif.Model.Io
import Verif.Model.MLink
import Verif.Model.MmFleet

/-!
# Model of the remaining file readers (`src/io.cpp`, `src/multiclass.cpp`)

Tolls, label shares, tracking settings, adaptive ratios, time-dependent link attributes, origins and destinations with
their nodes, nodes, links and demand of two-class loadings.

Simplified: `stof` does not round to single precision and has no range errors (as `Text.stod`); messages that are printed
are left out; the names of the files are left out (a missing file is `none`).  In assignments of the form
`get_link (id)->member = stof (word)` the link is looked up first; the other order only changes which exception is raised.
-/

namespace Verif.Rd
open Text

/-! ## Loops -/

/-- A loop that reads one line per step and neither trims nor skips lines: `io.cpp:437-456`, `1213-1229`,
`multiclass.cpp:4024-4044`, `4082-4102`, `4141-4166`. -/
def countLoop {σ : Type} (body : σ → Str → Res σ) : ℕ → In → σ → Res (σ × In)
  | 0, i, s => .ok (s, i)
  | n + 1, i, s => (body s (getline i).line).bind fun s' => countLoop body n (getline i) s'

/-- `while (std::getline (file, line))`: `io.cpp:487-501`, `518-530`, `682-704`, `743-804`, `multiclass.cpp:3952-3987`,
`4209-4285`. -/
def whileLoop {σ : Type} (body : σ → Str → Res σ) : ℕ → In → σ → Res σ
  | 0, _, _ => .diverge
  | fuel + 1, i, s =>
    if getlineOk i then (body s (getline i).line).bind fun s' => whileLoop body fuel (getline i) s' else .ok s

/-- `stod` of each word. -/
def stods (ws : List Str) : Res (List ℚ) :=
  Res.foldlM (fun acc w => (stod w).bind fun x => .ok (acc ++ [x])) [] ws

def noLink : String := "Error, MNM_Link_Factory::get_link, link does not exist"
def noOrigin : String := "Error, MNM_OD_Factory::get_origin, origin does not exist"
def noDest : String := "Error, MNM_OD_Factory::get_destination, destination does not exist"
def noNode : String := "Error, MNM_Node_Factory::get_node, node does not exist"

/-! ## Tolls -/

/-- `io.cpp:1218-1228`, one row of the toll file; `links` are the numbers of the links that exist. -/
def tollRow (links : List ℤ) (t : ℤ → ℚ) (line : Str) : Res (ℤ → ℚ) :=
  match split line ' ' with
  | [w0, w1] =>
    (stoi (trim w0)).bind fun id =>
      if id ∈ links then (stod (trim w1)).bind fun x => .ok (upd t id x) else .throw noLink
  | _ => .throw "failed to build link toll"

/-- `io.cpp:1186-1238` `build_link_toll`; `num` is `num_of_tolled_link`, `t` are the tolls before (`m_toll`). -/
def buildToll (num : ℤ) (links : List ℤ) (t : ℤ → ℚ) : Option Str → Res (ℤ → ℚ)
  | none => .ok t
  | some content =>
    if num ≤ 0 then .ok t
    else (countLoop (tollRow links) num.toNat (getline (In.open content)) t).bind fun r => .ok r.1

/-- The tolls of a link of a two-class loading: `m_toll`, `m_toll_car`, `m_toll_truck`. -/
structure Toll where
  all : ℚ
  car : ℚ
  truck : ℚ
deriving DecidableEq

/-- `multiclass.cpp:4146-4165`, one row. -/
def tollRow2 (links : List ℤ) (t : ℤ → Toll) (line : Str) : Res (ℤ → Toll) :=
  match split line ' ' with
  | [w0, w1, w2] =>
    (stoi (trim w0)).bind fun id =>
      if id ∈ links then
        (stod (trim w1)).bind fun x => (stod (trim w2)).bind fun y => .ok (upd t id ⟨x, x, y⟩)
      else .throw noLink
  | _ => .throw "failed to parse line"

/-- `multiclass.cpp:4114-4173` `build_link_toll_multiclass`. -/
def buildToll2 (num : ℤ) (links : List ℤ) (t : ℤ → Toll) : Option Str → Res (ℤ → Toll)
  | none => .ok t
  | some content =>
    if num ≤ 0 then .ok t
    else (countLoop (tollRow2 links) num.toNat (getline (In.open content)) t).bind fun r => .ok r.1

/-! ## Label shares -/

/-- `io.cpp:441-455`, `multiclass.cpp:4028-4043`, `4086-4101`: one row; `k` is the number of labels, `s` the shares of each
origin.  A row with another number of words is skipped. -/
def labelRow (k : ℕ) (origins : List ℤ) (s : ℤ → List ℚ) (line : Str) : Res (ℤ → List ℚ) :=
  match split line ' ' with
  | w0 :: ws =>
    if ws.length = k then
      (stoi w0).bind fun o =>
        if o ∈ origins then (stods ws).bind fun xs => .ok (upd s o (s o ++ xs)) else .throw noOrigin
    else .ok s
  | [] => .ok s

/-- `io.cpp:410-465` `read_origin_vehicle_label_ratio`, `multiclass.cpp:3998-4053` `read_origin_car_label_ratio`,
`4055-4111` `read_origin_truck_label_ratio`; `num` is `num_of_O`, `k` the number of labels. -/
def readLabels (num k : ℤ) (origins : List ℤ) (s : ℤ → List ℚ) : Option Str → Res (ℤ → List ℚ)
  | none => .ok s
  | some content =>
    if k ≤ 0 then .ok s
    else (countLoop (labelRow k.toNat origins) num.toNat (getline (In.open content)) s).bind fun r => .ok r.1

/-! ## Tracking settings -/

/-- `io.cpp:489-500`, one row of the pairs to be tracked. -/
def trackPairRow (s : List (ℤ × ℤ)) (line : Str) : Res (List (ℤ × ℤ)) :=
  match split line ' ' with
  | [w0, w1] => (stoi w0).bind fun o => (stoi w1).bind fun d => .ok (s ++ [(o, d)])
  | _ => .throw "Wrong OD tracking file"

/-- `io.cpp:520-529`, one row of the intervals to be tracked. -/
def trackIntervalRow (s : List ℤ) (line : Str) : Res (List ℤ) :=
  match split line ' ' with
  | [w0] => (stoi w0).bind fun k => .ok (s ++ [k])
  | _ => .throw "Wrong interval tracking file"

/-- The first line is skipped, all others are read (`io.cpp:485-501`, `516-530`, `681-704`, `741-804`,
`multiclass.cpp:3951-3987`, `4207-4285`). -/
def readAll {σ : Type} (body : σ → Str → Res σ) (fuel : ℕ) (s : σ) : Option Str → Res σ
  | none => .ok s
  | some content => whileLoop body fuel (getline (In.open content)) s

/-- `io.cpp:467-536` `read_vehicle_tracking_setting`. -/
def readTracking (fuel : ℕ) (pairs intervals : Option Str) : Res (List (ℤ × ℤ) × List ℤ) :=
  (readAll trackPairRow fuel [] pairs).bind fun ps =>
    (readAll trackIntervalRow fuel [] intervals).bind fun ks => .ok (ps, ks)

/-! ## Adaptive ratios -/

/-- `io.cpp:684-703`, one row, with `od.cpp:55-65` `add_dest_adaptive_ratio`: an origin keeps the first ratios of each
destination. -/
def ratioRow (maxInterval : ℕ) (origins dests : List ℤ) (s : Store (ℤ × ℤ) (List ℚ)) (line : Str) :
    Res (Store (ℤ × ℤ) (List ℚ)) :=
  match split (trim line) ' ' with
  | w0 :: w1 :: ws =>
    if maxInterval ≤ ws.length then
      (stoi w0).bind fun o => (stoi w1).bind fun d => (stods (ws.take maxInterval)).bind fun v =>
        if o ∈ origins then
          if d ∈ dests then .ok (s.insert (o, d) v) else .throw noDest
        else .throw noOrigin
    else .throw "failed to build time-dependent adaptive ratio"
  | _ => .throw "failed to build time-dependent adaptive ratio"

/-- `io.cpp:657-713` `build_td_adaptive_ratio`. -/
def buildRatios (fuel maxInterval : ℕ) (origins dests : List ℤ) (file : Option Str) : Res (Store (ℤ × ℤ) (List ℚ)) :=
  readAll (ratioRow maxInterval origins dests) fuel [] file

/-- `multiclass.cpp:3963-3974`: the ratio of an interval for each of its `n` minutes. -/
def perMinute (n : ℕ) (xs : List ℚ) : List ℚ := xs.flatMap fun x => List.replicate n x

/-- `multiclass.cpp:3938-3940`: `_num_of_minute`; the division by zero for a unit time of more than 60 is undefined. -/
def numMinutes (assignFrq unit : ℕ) : Res ℕ := if unit = 0 ∨ 60 / unit = 0 then .ub else .ok (assignFrq / (60 / unit))

/-- `multiclass.cpp:3954-3986`, one row, with `3003-3023` `add_dest_adaptive_ratio_multiclass` (fifteen entries per
interval are copied): ratios of cars and of trucks by minute. -/
def ratioRow2 (maxInterval n : ℕ) (origins dests : List ℤ) (s : Store (ℤ × ℤ) (List ℚ × List ℚ)) (line : Str) :
    Res (Store (ℤ × ℤ) (List ℚ × List ℚ)) :=
  match split (trim line) ' ' with
  | w0 :: w1 :: ws =>
    if ws.length = maxInterval * 2 then
      (stoi w0).bind fun o => (stoi w1).bind fun d =>
      (stods (ws.take maxInterval)).bind fun v => (stods (ws.drop maxInterval)).bind fun w =>
        if o ∈ origins then
          if d ∈ dests then
            (MmF.copyRow maxInterval (perMinute n v)).bind fun v' => (MmF.copyRow maxInterval (perMinute n w)).bind fun w' =>
              .ok (s.insert (o, d) (v', w'))
          else .throw noDest
        else .throw noOrigin
    else .throw "failed to build time-dependent adaptive ratio multiclass"
  | _ => .throw "failed to build time-dependent adaptive ratio multiclass"

/-- `multiclass.cpp:3917-3996` `build_td_adaptive_ratio`. -/
def buildRatios2 (fuel maxInterval assignFrq unit : ℕ) (origins dests : List ℤ) (file : Option Str) :
    Res (Store (ℤ × ℤ) (List ℚ × List ℚ)) :=
  (numMinutes assignFrq unit).bind fun n => readAll (ratioRow2 maxInterval n origins dests) fuel [] file

/-! ## Time-dependent link attributes -/

/-- `factory.h` `td_link_attribute_row`. -/
structure Attr where
  type : Str
  length : ℚ
  ffs : ℚ
  cap : ℚ
  hold : ℚ
  lanes : ℤ
  toll : ℚ
deriving DecidableEq

/-- `io.cpp:749-802`, one row: thirteen words, of which the first nine are used.  The table maps interval and link to the
last row. -/
def attrRow (s : ℤ → ℤ → Option Attr) (line : Str) : Res (ℤ → ℤ → Option Attr) :=
  match split line ' ' with
  | [w0, w1, w2, w3, w4, w5, w6, w7, w8, _, _, _, _] =>
    (stoi w0).bind fun k => (stoi w1).bind fun l =>
    (stod w3).bind fun length => (stod w4).bind fun ffs => (stod w5).bind fun cap => (stod w6).bind fun hold =>
    (stoi w7).bind fun lanes => (stoi w8).bind fun toll =>
      .ok (upd s k (upd (s k) l
        (some ⟨trim w2, length * 1600, ffs * 1600 / 3600, cap / 3600, hold / 1600, lanes, toll⟩)))
  | _ => .throw "failed to parse line"

/-- `io.cpp:715-816` `build_link_td_attribute`. -/
def buildAttrs (fuel : ℕ) (file : Option Str) : Res (ℤ → ℤ → Option Attr) := readAll attrRow fuel (fun _ _ => none) file

/-- `multiclass.h` `td_link_attribute_row_biclass`. -/
structure Attr2 where
  type : Str
  length : ℚ
  ffsCar : ℚ
  capCar : ℚ
  holdCar : ℚ
  lanes : ℤ
  ffsTruck : ℚ
  capTruck : ℚ
  holdTruck : ℚ
  factor : ℚ
  toll : ℚ
deriving DecidableEq

/-- `multiclass.cpp:4214-4283`, one row. -/
def attrRow2 (s : ℤ → ℤ → Option Attr2) (line : Str) : Res (ℤ → ℤ → Option Attr2) :=
  match split line ' ' with
  | [w0, w1, w2, w3, w4, w5, w6, w7, w8, w9, w10, w11, w12] =>
    (stoi w0).bind fun k => (stoi w1).bind fun l =>
    (stod w3).bind fun length => (stod w4).bind fun ffs => (stod w5).bind fun cap => (stod w6).bind fun hold =>
    (stoi w7).bind fun lanes => (stod w8).bind fun ffsT => (stod w9).bind fun capT => (stod w10).bind fun holdT =>
    (stod w11).bind fun factor => (stoi w12).bind fun toll =>
      .ok (upd s k (upd (s k) l
        (some ⟨trim w2, length * 1600, ffs * 1600 / 3600, cap / 3600, hold / 1600, lanes,
          ffsT * 1600 / 3600, capT / 3600, holdT / 1600, factor, toll⟩)))
  | _ => .throw "failed to parse line"

/-- `multiclass.cpp:4176-4300` `build_link_td_attribute`. -/
def buildAttrs2 (fuel : ℕ) (file : Option Str) : Res (ℤ → ℤ → Option Attr2) :=
  readAll attrRow2 fuel (fun _ _ => none) file

/-! ## Origins and destinations with their nodes -/

/-- Origins (or destinations) and nodes after reading: `node` is the node of each number that is in the factory,
`at` what a node was hooked to last.  `none` in `at` stands for an object that is not in the factory. -/
structure Places where
  node : Store ℤ ℤ
  at' : ℤ → Option (Option ℤ)

/-- `io.cpp:217-234` (`want` = origin), `247-262` (`want` = destination): one row.  `make_origin` keeps the object that has
the number already, and the node is hooked to the new one.  Using a node of another kind as an origin (destination) is
undefined. -/
def placeRow (want : Io.NodeKind) (kind : Store ℤ Io.NodeKind) (s : Places) (line : Str) : Res Places :=
  match split line ' ' with
  | [w0, w1] =>
    (stoi w0).bind fun id => (stoi w1).bind fun n =>
      match kind.get n with
      | none => .throw noNode
      | some k =>
        if k = want then
          .ok ⟨s.node.insert id n, upd s.at' n (some (if (s.node.get id).isSome then none else some id))⟩
        else .ub
  | _ => .ok s

/-- `io.cpp:183-263` `build_od_factory` with nodes; `no`, `nd` are `num_of_O` and `num_of_D`. -/
def buildPlaces (fuel : ℕ) (no nd : ℤ) (kind : Store ℤ Io.NodeKind) : Option Str → Res (Places × Places)
  | none => .ok (⟨[], fun _ => none⟩, ⟨[], fun _ => none⟩)
  | some content =>
    (readLoop (placeRow .origin kind) fuel no.toNat (In.open content) ⟨[], fun _ => none⟩).bind fun r =>
      (readLoop (placeRow .dest kind) fuel nd.toNat r.2 ⟨[], fun _ => none⟩).bind fun q => .ok (r.1, q.1)

/-! ## Two-class networks -/

/-- `multiclass.cpp:3608-3638` with `make_node_multiclass` (3401-3427), one row: kind and conversion factor of each node. -/
def nodeRow2 (s : Store ℤ (Io.NodeKind × ℚ)) (line : Str) : Res (Store ℤ (Io.NodeKind × ℚ)) :=
  match split line ' ' with
  | [w0, w1, w2] =>
    (stoi w0).bind fun id =>
      let ty := trim w1
      (stod w2).bind fun factor =>
        if ty = "FWJ".toList then .ok (s.insert id (.fwj, factor))
        else if ty = "DMOND".toList then .ok (s.insert id (.origin, factor))
        else if ty = "DMDND".toList then .ok (s.insert id (.dest, factor))
        else .throw "unknown node type"
  | _ => .throw "failed to parse line"

/-- `multiclass.cpp:3578-3645` `build_node_factory_multiclass`. -/
def buildNodes2 (fuel : ℕ) (n : ℤ) : Option Str → Res (Store ℤ (Io.NodeKind × ℚ))
  | none => .ok []
  | some content => (readLoop nodeRow2 fuel n.toNat (In.open content) []).bind fun r => .ok r.1

/-- `multiclass.cpp:3705-3783` with `make_link_multiclass` (3447-3490), one row. -/
def linkRow2 (unit scalar : ℚ) (s : Store ℤ (MLnk.Link ℕ)) (line : Str) : Res (Store ℤ (MLnk.Link ℕ)) :=
  match split line ' ' with
  | [w0, w1, w2, w3, w4, w5, w6, w7, w8, w9, w10] =>
    (stoi w0).bind fun id =>
      let ty := trim w1
      (stod w2).bind fun length => (stod w3).bind fun ffs => (stod w4).bind fun cap => (stod w5).bind fun hold =>
      (stoi w6).bind fun lanes => (stod w7).bind fun ffsT => (stod w8).bind fun capT => (stod w9).bind fun holdT =>
      (stod w10).bind fun factor =>
        let a : MLnk.Args :=
          ⟨lanes, length * 1600, hold / 1600, holdT / 1600, cap / 3600, capT / 3600, ffs * 1600 / 3600,
            ffsT * 1600 / 3600, unit, factor, scalar⟩
        let mk (k : MLnk.Kind) : Res (Store ℤ (MLnk.Link ℕ)) :=
          (MLnk.mkLink k a).bind fun l => .ok (s.insert id l)
        if ty = "PQ".toList then mk .pq
        else if ty = "LQ".toList then mk .lq
        else if ty = "CTM".toList then mk .ctm
        else .throw "unknown link type"
  | _ => .throw "failed to parse line"

/-- `multiclass.cpp:3647-3787` `build_link_factory_multiclass`. -/
def buildLinks2 (fuel : ℕ) (n : ℤ) (unit scalar : ℚ) : Option Str → Res (Store ℤ (MLnk.Link ℕ))
  | none => .ok []
  | some content => (readLoop (linkRow2 unit scalar) fuel n.toNat (In.open content) []).bind fun r => .ok r.1

/-- `multiclass.cpp:3832-3909`, one row of a two-class demand file, with `2982-3001` `add_dest_demand_multiclass`. -/
def demandRow2 (maxInterval n : ℕ) (split' : ℤ) (scalar : ℚ) (origins dests : List ℤ)
    (s : Store (ℤ × ℤ) (List ℚ × List ℚ)) (line : Str) : Res (Store (ℤ × ℤ) (List ℚ × List ℚ)) :=
  match split line ' ' with
  | w0 :: w1 :: ws =>
    if ws.length = maxInterval * 2 then
      (stoi w0).bind fun o => (stoi w1).bind fun d =>
      (stods (ws.take maxInterval)).bind fun v => (stods (ws.drop maxInterval)).bind fun w =>
      (MmF.minuteRow split' n scalar v).bind fun v' => (MmF.minuteRow split' n scalar w).bind fun w' =>
        if o ∈ origins then
          if d ∈ dests then
            (MmF.copyRow maxInterval v').bind fun v'' => (MmF.copyRow maxInterval w').bind fun w'' =>
              .ok (s.insert (o, d) (v'', w''))
          else .throw noDest
        else .throw noOrigin
    else .throw "failed to build demand"
  | _ => .throw "failed to build demand"

/-- `multiclass.cpp:3790-3914` `build_demand_multiclass`. -/
def buildDemand2 (fuel : ℕ) (num : ℤ) (maxInterval assignFrq unit : ℕ) (split' : ℤ) (scalar : ℚ) (origins dests : List ℤ)
    (file : Option Str) : Res (Store (ℤ × ℤ) (List ℚ × List ℚ)) :=
  (numMinutes assignFrq unit).bind fun n =>
    match file with
    | none => .ok []
    | some content =>
      (readLoop (demandRow2 maxInterval n split' scalar origins dests) fuel num.toNat (In.open content) []).bind fun r =>
        .ok r.1

end Verif.Rd

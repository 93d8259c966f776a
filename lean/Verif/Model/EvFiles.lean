import Verif.Model.Readers
import Verif.Model.Ults

/-!
# Model of the files of charging stations (`src/ev_traffic.cpp`)

`add_charging_station_node`, `make_charging_station`, `load_candidate_poi_table`, `save_candidate_poi_table`, `get_POIs` and
`construct_full_od_candidate_poi_table`.  Origins and destinations are known by their numbers, stations by those of their
nodes.  `Assert` and `printf` do nothing; `stof` is `Text.stod` (no rounding to single precision).
-/

namespace Verif.EvF
open Text Rd

/-! ## Stations -/

/-- What `ev_traffic.cpp:731-753` `make_charging_station` gives to the station; times in intervals. -/
structure Cs where
  scalar : ℚ
  unit : ℤ
  slots : ℤ
  charge : ℤ
  wait : ℤ
  price : ℚ
deriving DecidableEq

/-- `m_node_map` in iteration order: number and, for a charging station, what it is made of. -/
abbrev Nodes := List (ℤ × Option Cs)

/-- `m_node_map.find (ID)`. -/
def Nodes.get (m : Nodes) (id : ℤ) : Option (Option Cs) := (m.find? fun n => n.1 == id).map (·.2)

/-- `ev_traffic.cpp:731-753` `make_charging_station`. -/
def makeStation (m : Nodes) (id : ℤ) (c : Cs) : Res Nodes :=
  if m = [] then .throw "MNM_Node_Factory_With_EV::make_charging_station, must add node first"
  else if m.get id ≠ none then
    .throw "MNM_Node_Factory_With_EV::make_charging_station, charging station ID must be different from any existing node ID"
  else .ok (m ++ [(id, some c)])

/-- `int (x / unit)` (`ev_traffic.cpp:1711-1714`); a division by 0 gives no value of type `int`. -/
def intervals (x : ℚ) (unit : ℤ) : Res ℤ := if unit = 0 then .ub else Ults.toInt (x / unit)

/-- `ev_traffic.cpp:1705-1728`, one line. -/
def stationRow (scalar : ℚ) (unit : ℤ) (m : Nodes) (line : Str) : Res Nodes :=
  match split line ' ' with
  | [w0, w1, w2, w3, w4] =>
    (stoi (trim w0)).bind fun id => (stoi (trim w1)).bind fun slots =>
      (stod (trim w2)).bind fun a => (intervals a unit).bind fun charge =>
        (stod (trim w3)).bind fun b => (intervals b unit).bind fun wait =>
          (stod (trim w4)).bind fun price => makeStation m id ⟨scalar, unit, slots, charge, wait, price⟩
  | _ => .throw "Something wrong in MNM_IO_With_EV::add_charging_station_node"

/-- `ev_traffic.cpp:1669-1738` `add_charging_station_node`; `num` is `num_of_charging_station`. -/
def addStations (scalar : ℚ) (unit num : ℤ) (m : Nodes) : Option Str → Res Nodes
  | none => .ok m
  | some content =>
    if num ≤ 0 then .ok m
    else (countLoop (stationRow scalar unit) num.toNat (getline (In.open content)) m).bind fun r => .ok r.1

/-! ## Candidates -/

/-- `OD_Candidate_POI_Table`: the candidates of a pair of origin and destination (`none` among them is the null pointer);
`empty` is `empty ()`. -/
structure Tab where
  table : ℤ → ℤ → Option (List (Option ℤ))
  empty : Bool

/-- The pair gets an entry if it has none. -/
def Tab.enter (t : Tab) (o d : ℤ) : Tab :=
  ⟨fun o' d' => if o' = o ∧ d' = d then some ((t.table o d).getD []) else t.table o' d', false⟩

/-- `dynamic_cast<MNM_Charging_Station *> (get_node (id))`. -/
def station (m : Nodes) (id : ℤ) : Res (Option ℤ) :=
  match m.get id with
  | none => .throw noNode
  | some none => .ok none
  | some (some _) => .ok (some id)

/-- `ev_traffic.cpp:1799-1817`: each candidate is added unless it is there. -/
def addCands (m : Nodes) (v : List (Option ℤ)) (ws : List Str) : Res (List (Option ℤ)) :=
  Res.foldlM (fun v w => (stoi (trim w)).bind fun id => (station m id).bind fun c =>
    .ok (if c ∈ v then v else v ++ [c])) v ws

/-- `ev_traffic.cpp:1776-1824`, one line. -/
def candRow (os ds : List ℤ) (m : Nodes) (t : Tab) (line : Str) : Res Tab :=
  match split line ' ' with
  | w0 :: w1 :: ws =>
    (stoi (trim w0)).bind fun o => (stoi (trim w1)).bind fun d =>
      if o ∉ os then .throw noOrigin
      else if d ∉ ds then .throw noDest
      else
        (addCands m (((t.enter o d).table o d).getD []) ws).bind fun v =>
          .ok ⟨fun o' d' => if o' = o ∧ d' = d then some v else t.table o' d', false⟩
  | _ => .throw "Something wrong in MNM_IO_With_EV::build_candidate_charging_station"

/-- `ev_traffic.cpp:1744-1833` `load_candidate_poi_table`. -/
def loadCands (fuel : ℕ) (os ds : List ℤ) (m : Nodes) (file : Option Str) : Res Tab :=
  readAll (candRow os ds m) fuel ⟨fun _ _ => none, true⟩ file

/-- `ev_traffic.cpp:831-845` `get_POIs`. -/
def pois (m : Nodes) : List ℤ := (m.filter fun n => n.2.isSome).map (·.1)

/-- `ev_traffic.cpp:847-880` `construct_full_od_candidate_poi_table`; `os` and `ds` in iteration order. -/
def fullCands (os ds : List ℤ) (m : Nodes) (t : Tab) : Tab :=
  os.foldl (fun t o => ds.foldl (fun t d =>
    ⟨fun o' d' => if o' = o ∧ d' = d then some (((t.enter o d).table o d).getD [] ++ (pois m).map some) else t.table o' d', false⟩) t) t

/-- `ev_traffic.cpp:2011-2013` and `772-776`: the candidates that routing starts with. -/
def candidates (fuel : ℕ) (os ds : List ℤ) (m : Nodes) (file : Option Str) : Res Tab :=
  (loadCands fuel os ds m file).bind fun t => .ok (if t.empty then fullCands os ds m t else t)

/-- `ev_traffic.cpp:1850`. -/
def candHeader : Str := "# (O_ID, D_ID): cs1, cs2, ...\n".toList

/-- `ev_traffic.cpp:1856-1863`: a blank after each number, the last one taken away again. -/
def candLine (o d : ℤ) (v : List ℤ) : Str :=
  (toStr o ++ [' '] ++ toStr d ++ [' '] ++ v.flatMap fun n => toStr n ++ [' ']).dropLast ++ ['\n']

/-- `ev_traffic.cpp:1835-1869` `save_candidate_poi_table`: the content of the file; the table in iteration order. -/
def saveCands (t : List (ℤ × List (ℤ × List ℤ))) : Str :=
  candHeader ++ t.flatMap fun o => o.2.flatMap fun d => candLine o.1 d.1 d.2

end Verif.EvF

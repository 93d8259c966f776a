import Verif.Model.Text
import Verif.Model.Link
import Verif.Model.Graph
import Verif.Model.Path

/-! # Model of the file readers of `io.cpp` and of the path table files

A file is its content; a missing file is `none`. -/

namespace Verif.Io
open Text Graph

/-- `enum.h` node types. -/
inductive NodeKind where
  | fwj | grj | origin | dest
deriving DecidableEq

/-- `io.cpp:38-74` with `factory.cpp:77-103` `make_node`: one row of the node file.  The node map
keeps the first node of each number. -/
def nodeRow (s : Store ℤ NodeKind) (line : Str) : Res (Store ℤ NodeKind) :=
  match split line ' ' with
  | w0 :: w1 :: _ =>
    (stoi w0).bind fun id =>
      let ty := trim w1
      if ty = "FWJ".toList then .ok (s.insert id .fwj)
      else if ty = "GRJ".toList then .ok (s.insert id .grj)
      else if ty = "DMOND".toList then .ok (s.insert id .origin)
      else if ty = "DMDND".toList then .ok (s.insert id .dest)
      else .throw "unknown node type"
  | _ => .throw "failed to parse line"

/-- `io.cpp:6-79` `build_node_factory` (a file that does not open is not read). -/
def buildNodes (fuel : ℕ) (n : ℤ) : Option Str → Res (Store ℤ NodeKind)
  | none => .ok []
  | some content => (readLoop nodeRow fuel n.toNat (In.open content) []).bind fun r => .ok r.1

/-- `io.cpp:119-176`, one row of the link file, with `factory.cpp:150-197` `make_link`. -/
def linkRow (unit scalar : ℚ) (s : Store ℤ (Lnk.Link ℕ)) (line : Str) : Res (Store ℤ (Lnk.Link ℕ)) :=
  match split line ' ' with
  | w0 :: w1 :: w2 :: w3 :: w4 :: w5 :: w6 :: _ =>
    (stoi w0).bind fun id =>
      let ty := trim w1
      (stod w2).bind fun length => (stod w3).bind fun ffs => (stod w4).bind fun cap =>
      (stod w5).bind fun hold => (stoi w6).bind fun lanes =>
        let a : Lnk.LinkArgs :=
          ⟨hold / 1600, cap / 3600, lanes, length * 1600, ffs * 1600 / 3600, unit, scalar⟩
        let mk (k : Lnk.LinkKind) : Res (Store ℤ (Lnk.Link ℕ)) :=
          (Lnk.mkLink k a).bind fun l => .ok (s.insert id l)
        if ty = "PQ".toList then mk .pq
        else if ty = "CTM".toList then mk .ctm
        else if ty = "LQ".toList then mk .lq
        else if ty = "LTM".toList then mk .ltm
        else .throw "unknown link type"
  | _ => .throw "failed to parse line"

/-- `io.cpp:81-181` `build_link_factory`. -/
def buildLinks (fuel : ℕ) (n : ℤ) (unit scalar : ℚ) : Option Str → Res (Store ℤ (Lnk.Link ℕ))
  | none => .ok []
  | some content =>
    (readLoop (linkRow unit scalar) fuel n.toNat (In.open content) []).bind fun r => .ok r.1

/-- A call of `add_node` whose exception is swallowed (`io.cpp:571-588`). -/
def tryAddNode (g : G) (id : ℤ) : G := (addNode g id).stateOr g

/-- `io.cpp:564-590`, one row of the graph file; a row without exactly three words is skipped. -/
def graphRow (g : G) (line : Str) : Res G :=
  match split line ' ' with
  | [w0, w1, w2] =>
    (stoi w0).bind fun l => (stoi w1).bind fun f => (stoi w2).bind fun t =>
      addLink (tryAddNode (tryAddNode g f) t) f t l
  | _ => .ok g

/-- `io.cpp:538-594` `build_graph`.  The stream of a file that does not open is not good. -/
def buildGraph (fuel : ℕ) (n : ℤ) (file : Option Str) : Res G :=
  let i : In := match file with
    | none => ⟨[], false, []⟩
    | some c => In.open c
  (readLoop graphRow fuel n.toNat i Graph.empty).bind fun r => .ok r.1

/-- `io.cpp:630-649`: a row of the demand file.  `factory` are the numbers of the origins and
destinations that exist; the demand map of an origin keeps the first vector of each destination
(`od.cpp:43-53`). -/
def demandRow (maxInterval : ℕ) (origins dests : List ℤ) (s : Store (ℤ × ℤ) (List ℚ)) (line : Str) :
    Res (Store (ℤ × ℤ) (List ℚ)) :=
  match split line ' ' with
  | w0 :: w1 :: ws =>
    if maxInterval ≤ ws.length then
      (stoi w0).bind fun o => (stoi w1).bind fun d =>
      (Res.foldlM (fun acc w => (stod w).bind fun x => .ok (acc ++ [x])) [] (ws.take maxInterval)).bind fun v =>
        if o ∈ origins then
          if d ∈ dests then .ok (s.insert (o, d) v)
          else .throw "Error, MNM_OD_Factory::get_destination, destination does not exist"
        else .throw "Error, MNM_OD_Factory::get_origin, origin does not exist"
    else .throw "failed to build demand"
  | _ => .throw "failed to build demand"

/-- `io.cpp:596-655` `build_demand`. -/
def buildDemand (fuel : ℕ) (n : ℤ) (maxInterval : ℕ) (origins dests : List ℤ) :
    Option Str → Res (Store (ℤ × ℤ) (List ℚ))
  | none => .ok []
  | some content =>
    (readLoop (demandRow maxInterval origins dests) fuel n.toNat (In.open content) []).bind fun r =>
      .ok r.1

/-! ## Path tables -/

/-- `path.h` `MNM_Path` as far as it is saved: `m_path_ID`, `m_node_vec`, `m_link_vec`. -/
structure PathRec where
  id : ℕ
  nodes : List ℤ
  links : List ℤ
deriving DecidableEq

/-- A `Path_Table` in iteration order: for each origin node, for each destination node, its paths. -/
abbrev PTable := List (ℤ × List (ℤ × List PathRec))

/-- `path.cpp:95-106` `node_vec_to_string` (`pop_back` on an empty string is undefined). -/
def nodeVecToString (ns : List ℤ) : Res Str :=
  match ns.flatMap fun n => toStr n ++ [' '] with
  | [] => .ub
  | c :: s => .ok ((c :: s).dropLast ++ ['\n'])

/-- The paths of a table in the order in which they are written. -/
def PTable.paths (t : PTable) : List PathRec := t.flatMap fun o => o.2.flatMap fun d => d.2

/-- `path.cpp:703-774` `save_path_table` without buffer and costs: the content of the file. -/
def savePathTable (t : PTable) : Res Str :=
  Res.foldlM (fun acc p => (nodeVecToString p.nodes).bind fun s => .ok (acc ++ s)) [] t.paths

/-- `io.cpp:913-924`: the first outgoing connection of a node that leads to `dst`; the variable
`_link_ID` (not initialised at first: `none`) keeps its value when there is none. -/
def findLink (fuel : ℕ) (g : G) (old : Option ℤ) (frm dst : ℤ) : Res (Option ℤ) :=
  (connections fuel g frm .out).bind fun cs =>
    match cs.find? fun c => match getEndpoints g c with | .ok e => e.2 == dst | _ => false with
    | some c => .ok (some c)
    | none => .ok old

/-- `io.cpp:909-926`: the links of a node sequence; pushing the uninitialised variable is undefined. -/
def findLinks (fuel : ℕ) (g : G) : Option ℤ → List ℤ → Res (List ℤ × Option ℤ)
  | old, u :: v :: ns =>
    (findLink fuel g old u v).bind fun l =>
      match l with
      | none => .ub
      | some k => (findLinks fuel g (some k) (v :: ns)).bind fun r => .ok (k :: r.1, r.2)
  | old, _ => .ok ([], old)

/-- `stoi` of each word. -/
def stois (ws : List Str) : Res (List ℤ) :=
  Res.foldlM (fun acc w => (stoi w).bind fun n => .ok (acc ++ [n])) [] ws

/-- What `load_path_table` keeps while reading: the table, the path counter, `_link_ID`. -/
structure LoadSt where
  table : ℤ → ℤ → Option (List PathRec)
  counter : ℕ
  last : Option ℤ

/-- `io.cpp:881-943`, one row (without buffer). -/
def pathRow (fuel : ℕ) (g : G) (s : LoadSt) (line : Str) : Res LoadSt :=
  match split line ' ' with
  | w0 :: w1 :: ws =>
    (stoi w0).bind fun o => (stoi ((w1 :: ws).getLast (by simp))).bind fun d =>
      (stois (w0 :: w1 :: ws)).bind fun ns =>
        (findLinks fuel g s.last ns).bind fun r =>
          .ok ⟨fun o' d' => if o' = o ∧ d' = d then
              some ((s.table o d).getD [] ++ [⟨s.counter, ns, r.1⟩]) else s.table o' d',
            s.counter + 1, r.2⟩
  | _ => .ok s

/-- `io.cpp:818-961` `load_path_table` without buffer; `none` for the null pointer. -/
def loadPathTable (fuel : ℕ) (g : G) (num : ℤ) (file : Option Str) :
    Res (Option (ℤ → ℤ → Option (List PathRec))) :=
  if num ≤ 0 then .ok none
  else match file with
    | none => .throw "failed to open path table file"
    | some content =>
      (readLoop (pathRow fuel g) fuel num.toNat (In.open content) ⟨fun _ _ => none, 0, none⟩).bind
        fun r => .ok (some r.1.table)

end Verif.Io

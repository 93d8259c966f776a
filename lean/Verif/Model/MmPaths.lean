import Verif.Model.Io

/-!
# Model of the files of transit paths and of park-and-ride paths, `multimodal.cpp`

Buffers (portions of paths) are left out.  `IAssert` and `printf` do nothing.
-/

namespace Verif.MmPt
open Text Graph Io

/-- A path table in iteration order: for each origin node, for each destination node, its paths. -/
abbrev Tab (P : Type) := List (ℤ × List (ℤ × List P))

/-- `multimodal.h` `MNM_PnR_Path` as far as it is saved: `m_path_ID`, `m_mid_parking_lot_ID`, `m_mid_dest_node_ID`
and the node and link sequences of `m_driving_path` and `m_transit_path`. -/
structure PnrRec where
  id : ℕ
  lot : ℤ
  mid : ℤ
  driveNodes : List ℤ
  driveLinks : List ℤ
  rideNodes : List ℤ
  rideLinks : List ℤ
deriving DecidableEq

/-! ## Writing -/

/-- The rows of a table in the order in which they are written: origin, destination and path. -/
def rowsOfTab {P : Type} (t : Tab P) : List (ℤ × ℤ × P) := t.flatMap fun o => o.2.flatMap fun d => d.2.map fun p => (o.1, d.1, p)

/-- `multimodal.cpp:14703-14704`. -/
def busHeader : Str := "#OriginNodeID DestNodeID <transit link IDs in MultiGraph>\n".toList

/-- `multimodal.cpp:14714-14716`; `link_vec_to_string` (`path.cpp:108-119`) is written as `node_vec_to_string` is. -/
def busLine (r : ℤ × ℤ × PathRec) : Res Str :=
  (nodeVecToString r.2.2.links).bind fun s => .ok (toStr r.1 ++ [' '] ++ toStr r.2.1 ++ [' '] ++ s)

/-- `multimodal.cpp:14673-14731` `save_bustransit_path_table` without buffer: the content of the file. -/
def saveBus (t : Tab PathRec) : Res Str :=
  Res.foldlM (fun acc r => (busLine r).bind fun s => .ok (acc ++ s)) busHeader (rowsOfTab t)

/-- `multimodal.cpp:14762-14763`. -/
def pnrHeader : Str :=
  "#OriginNodeID DestNodeID MidParkinglotID MidDestNodeID <driving node IDs> <transit link IDs in MultiGraph>\n".toList

/-- `multimodal.cpp:14775-14783`: the newline after the nodes is taken away again. -/
def pnrLine (r : ℤ × ℤ × PnrRec) : Res Str :=
  (nodeVecToString r.2.2.driveNodes).bind fun a =>
    (nodeVecToString r.2.2.rideLinks).bind fun b =>
      .ok ((toStr r.1 ++ [' '] ++ toStr r.2.1 ++ [' '] ++ toStr r.2.2.lot ++ [' '] ++ toStr r.2.2.mid ++ [' '] ++ a).dropLast ++
        ([' '] ++ b))

/-- `multimodal.cpp:14733-14798` `save_pnr_path_table` without buffer: the content of the file. -/
def savePnr (t : Tab PnrRec) : Res Str :=
  Res.foldlM (fun acc r => (pnrLine r).bind fun s => .ok (acc ++ s)) pnrHeader (rowsOfTab t)

/-! ## Reading -/

/-- `multimodal.cpp:9361-9371`, `9185-9195`: exactly `n` lines are read, each is trimmed in place. -/
def lineLoop {σ : Type} (body : σ → Str → Res σ) : ℕ → In → σ → Res σ
  | 0, _, s => .ok s
  | n + 1, i, s =>
    let i1 := getline i
    let l := trim i1.line
    (body s l).bind fun s' => lineLoop body n { i1 with line := l } s'

/-- The table made so far and the path counter. -/
structure St (P : Type) where
  table : ℤ → ℤ → Option (List P)
  counter : ℕ

/-- The path set of the pair is made if there is none, and the path is added at its end. -/
def St.push {P : Type} (s : St P) (o d : ℤ) (p : P) : St P :=
  ⟨fun o' d' => if o' = o ∧ d' = d then some ((s.table o d).getD [] ++ [p]) else s.table o' d', s.counter + 1⟩

/-- `multimodal.cpp:9402-9412`, `9264-9274`: the nodes of a link sequence; a link that does not exist is an error. -/
def nodesOf (g : G) : List ℤ → Res (List ℤ)
  | [] => .ok []
  | [l] => (getEndpoints g l).bind fun e => .ok [e.1, e.2]
  | l :: k :: ls => (getEndpoints g l).bind fun e => (nodesOf g (k :: ls)).bind fun r => .ok (e.1 :: r)

/-- `multimodal.cpp:9372-9436`, one line. -/
def busRow (g : G) (s : St PathRec) (line : Str) : Res (St PathRec) :=
  match split line ' ' with
  | w0 :: w1 :: w2 :: ws =>
    (stoi w0).bind fun o => (stoi w1).bind fun d => (stois (w2 :: ws)).bind fun ls =>
      (nodesOf g ls).bind fun ns => .ok (s.push o d ⟨s.counter, ns, ls⟩)
  | _ => .ok s

/-- `multimodal.cpp:9317-9450` `load_bustransit_path_table` without numbers and buffers; `none` for the null pointer. -/
def loadBus (g : G) (num : ℤ) (file : Option Str) : Res (Option (ℤ → ℤ → Option (List PathRec))) :=
  if num ≤ 0 then .ok none
  else match file with
    | none => .throw "Can't open bus transit path table file"
    | some content =>
      (lineLoop (busRow g) num.toNat (getline (In.open content)) ⟨fun _ _ => none, 0⟩).bind fun s => .ok (some s.table)

/-- What the reader of park-and-ride paths keeps: the table, `_link_ID` (at first not initialised: `none`) and
`_transit_ind` (at first the largest number: `none`). -/
structure PnrSt where
  st : St PnrRec
  last : Option ℤ
  ind : Option ℕ

/-- `multimodal.cpp:9223-9232`: the nodes up to the destination in the middle, and the number of the word after it;
`j` is the number of the word. -/
def readDrive (mid : ℤ) : ℕ → List Str → Res (List ℤ × Option ℕ)
  | _, [] => .ok ([], none)
  | j, w :: ws =>
    (stoi w).bind fun n =>
      if n = mid then .ok ([n], some (j + 1)) else (readDrive mid (j + 1) ws).bind fun r => .ok (n :: r.1, r.2)

/-- `multimodal.cpp:9257-9263`: the links from word `ind` on. -/
def readRide (ind : Option ℕ) (ws : List Str) : Res (List ℤ) :=
  match ind with
  | none => .ok []
  | some j => stois (ws.drop j)

/-- `multimodal.cpp:9196-9301`, one line. -/
def pnrRow (fuel : ℕ) (dg tg : G) (s : PnrSt) (line : Str) : Res PnrSt :=
  match split line ' ' with
  | w0 :: w1 :: w2 :: w3 :: w4 :: w5 :: w6 :: ws =>
    (stoi w0).bind fun o => (stoi w1).bind fun d => (stoi w2).bind fun lot => (stoi w3).bind fun mid =>
      (readDrive mid 4 (w4 :: w5 :: w6 :: ws)).bind fun r =>
        let ind := r.2.or s.ind
        (findLinks fuel dg s.last r.1).bind fun q =>
          (readRide ind (w0 :: w1 :: w2 :: w3 :: w4 :: w5 :: w6 :: ws)).bind fun ls =>
            (nodesOf tg ls).bind fun ns =>
              .ok ⟨s.st.push o d ⟨s.st.counter, lot, mid, r.1, q.1, ns, ls⟩, ls.getLast?.or q.2, ind⟩
  | _ => .ok s

/-- `multimodal.cpp:9135-9315` `load_pnr_path_table` without numbers and buffers; `none` for the null pointer. -/
def loadPnr (fuel : ℕ) (dg tg : G) (num : ℤ) (file : Option Str) : Res (Option (ℤ → ℤ → Option (List PnrRec))) :=
  if num ≤ 0 then .ok none
  else match file with
    | none => .throw "Can't open pnr path table file"
    | some content =>
      (lineLoop (pnrRow fuel dg tg) num.toNat (getline (In.open content)) ⟨⟨fun _ _ => none, 0⟩, none, none⟩).bind fun s =>
        .ok (some s.st.table)

end Verif.MmPt

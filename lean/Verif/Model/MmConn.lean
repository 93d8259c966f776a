import Verif.Model.ShortestPath
import Verif.Model.Text

/-!
# Model of the connectivity by mode (`src/multimodal.cpp`, `macposts/_ext/mmdta.cpp`)

`find_connected_pnr_parkinglot_for_destination`, `check_bus_transit_connectivity`, `check_od_mode_connectivity`,
`save_od_mode_connectivity`, `load_od_mode_connectivity`, `get_od_mode_connectivity` and
`generate_init_mode_demand_file`.  Maps without order are functions; where the code iterates over one, the order is an
argument.  Printing is left out.
-/

namespace Verif.MmConn
open Graph Sp Text

/-- The driving graph, the transit graph (of bus and walking links), the nodes of origins and destinations, and the nodes
of the parking lots (`m_dest_node`), in the orders of their maps. -/
structure Net where
  drive : G
  transit : G
  origins : List ℤ
  dests : List ℤ
  lots : List ℤ

/-- `multimodal.cpp:9791-9796`, `15300-15305`: every link costs 1. -/
def one (g : G) : ℤ → Option Cost := fun l => if l ∈ linkIds g then some 1 else none

/-- `find (node)->second` in a tree. -/
def look (t : ℤ → Option ℤ) (u : ℤ) : Res ℤ :=
  match t u with
  | none => .ub
  | some l => .ok l

/-- `multimodal.cpp:9803-9822`: the parking lots connected with the destination at node `d`. -/
def lotsOf (fuel : ℕ) (x : Net) (d : ℤ) : Res (List ℤ) :=
  if d ∈ nodeIds x.transit then
    (fifo fuel x.transit d (one x.transit) fun _ => none).bind fun s =>
      Res.foldlM (fun acc p =>
        if p ≠ d ∧ p ∈ nodeIds x.transit then
          (look s.out p).bind fun l => .ok (if 0 < l then acc ++ [p] else acc)
        else .ok acc) [] x.lots
  else .ok []

/-- `multimodal.cpp:9782-9826` `find_connected_pnr_parkinglot_for_destination`: what is found is appended to
`m_connected_pnr_parkinglot_vec` of the destinations. -/
def findLots (fuel : ℕ) (x : Net) (v : ℤ → List ℤ) : Res (ℤ → List ℤ) :=
  Res.foldlM (fun v d => (lotsOf fuel x d).bind fun ls => .ok (upd v d (v d ++ ls))) v x.dests

/-- `multimodal.cpp:9851-9888`: the loop over origins for the destination at node `d` with tree `t`; `bus` and `pnr` tell
which pairs have entries in `m_demand_passenger_bus` and `m_demand_pnr_car`. -/
def checkOrigins (x : Net) (bus pnr : ℤ → ℤ → Bool) (lots : ℤ → List ℤ) (d : ℤ) (t : ℤ → Option ℤ) : List ℤ → Res Bool
  | [] => .ok true
  | o :: os =>
    (if bus o d then
      if o ∈ nodeIds x.transit then (look t o).bind fun l => .ok (decide (l ≠ -1)) else .ok false
    else .ok true).bind fun b =>
      if !b then .ok false
      else if pnr o d && (lots d).isEmpty then .ok false
      else checkOrigins x bus pnr lots d t os

/-- `multimodal.cpp:9842-9892`: the loop over destinations; those that are not in the transit graph are passed over. -/
def checkDests (fuel : ℕ) (x : Net) (bus pnr : ℤ → ℤ → Bool) (lots : ℤ → List ℤ) : List ℤ → Res Bool
  | [] => .ok true
  | d :: ds =>
    if d ∈ nodeIds x.transit then
      (fifo fuel x.transit d (one x.transit) fun _ => none).bind fun s =>
        (checkOrigins x bus pnr lots d s.out x.origins).bind fun b =>
          if b then checkDests fuel x bus pnr lots ds else .ok false
    else checkDests fuel x bus pnr lots ds

/-- `multimodal.cpp:9828-9896` `check_bus_transit_connectivity`. -/
def checkTransit (fuel : ℕ) (x : Net) (bus pnr : ℤ → ℤ → Bool) (lots : ℤ → List ℤ) : Res Bool :=
  checkDests fuel x bus pnr lots x.dests

/-! ## Connectivity by mode -/

/-- `MMDue_mode`. -/
inductive Mode
  | driving
  | transit
  | pnr
  deriving DecidableEq

/-- The flags of a pair, by mode. -/
abbrev Flags := Mode → Option Bool

/-- `m_od_mode_connectivity`. -/
abbrev Conn := ℤ → ℤ → Option Flags

/-- `multimodal.cpp:15433-15455`: the loop over parking lots; the tree is not cleared in between. -/
def pnrLoop (fuel : ℕ) (x : Net) (o : ℤ) : List ℤ → (ℤ → Option ℤ) → Res (Bool × (ℤ → Option ℤ))
  | [], t => .ok (false, t)
  | p :: ps, t =>
    (fifo fuel x.drive p (one x.drive) t).bind fun s =>
      (look s.out o).bind fun l => if 0 < l then .ok (true, s.out) else pnrLoop fuel x o ps s.out

/-- The three flags of a pair, `multimodal.cpp:15390-15456`, with the trees of driving and transit to `d` and the tree
left from the last parking lot. -/
def pairFlags (fuel : ℕ) (x : Net) (modes : List Mode) (lots : ℤ → List ℤ) (td tb : ℤ → Option ℤ) (o d : ℤ)
    (t : ℤ → Option ℤ) : Res ((Mode → Bool) × (ℤ → Option ℤ)) :=
  (if .driving ∈ modes then (look td o).bind fun l => .ok (decide (0 < l)) else .ok false).bind fun a =>
  (if .transit ∈ modes ∧ d ∈ nodeIds x.transit ∧ o ∈ nodeIds x.transit then
    (look tb o).bind fun l => .ok (decide (0 < l)) else .ok false).bind fun b =>
  (if .pnr ∈ modes ∧ d ∈ nodeIds x.transit ∧ lots d ≠ [] then pnrLoop fuel x o (lots d) t
    else .ok (false, t)).bind fun c =>
  .ok (fun m => match m with | .driving => a | .transit => b | .pnr => c.1, c.2)

/-- `multimodal.cpp:15350-15389` and the assignments of `true`: modes without flag get `false`, then the modes found are
set. -/
def setFlags (modes : List Mode) (f : Mode → Bool) (old : Option Flags) : Flags := fun m =>
  let prev := (old.bind fun g => g m)
  if m ∈ modes then some (prev.getD false || f m) else prev

/-- `multimodal.cpp:15338-15464`: the loop body for the pair `o`, `d`. -/
def connectPair (fuel : ℕ) (x : Net) (modes : List Mode) (demand : ℤ → ℤ → Bool) (lots : ℤ → List ℤ)
    (td tb : ℤ → Option ℤ) (d : ℤ) (s : Conn × (ℤ → Option ℤ)) (o : ℤ) : Res (Conn × (ℤ → Option ℤ)) :=
  if demand o d then
    (pairFlags fuel x modes lots td tb o d s.2).bind fun r =>
      if r.1 .driving || r.1 .transit || r.1 .pnr then
        .ok (upd s.1 o (upd (s.1 o) d (some (setFlags modes r.1 (s.1 o d)))), r.2)
      else .throw "No mode available for OD"
  else .ok s

/-- `multimodal.cpp:15320-15465`: the loop body for the destination at node `d`. -/
def connectDest (fuel : ℕ) (x : Net) (modes : List Mode) (demand : ℤ → ℤ → Bool) (lots : ℤ → List ℤ) (c : Conn) (d : ℤ) :
    Res Conn :=
  (fifo fuel x.drive d (one x.drive) fun _ => none).bind fun sd =>
  (if d ∈ nodeIds x.transit then
    (fifo fuel x.transit d (one x.transit) fun _ => none).bind fun s => .ok s.out
    else .ok fun _ => none).bind fun tb =>
  (Res.foldlM (connectPair fuel x modes demand lots sd.out tb d) (c, fun _ => none) x.origins).bind fun s => .ok s.1

/-- `multimodal.cpp:15293-15471`: the part of `check_od_mode_connectivity` that looks at the network. -/
def connect (fuel : ℕ) (x : Net) (modes : List Mode) (demand : ℤ → ℤ → Bool) (lots : ℤ → List ℤ) : Res Conn :=
  Res.foldlM (connectDest fuel x modes demand lots) (fun _ _ => none) x.dests

/-- `multimodal.cpp:15630, 15663` in `MNM_MM_Due::initialize`, without file of the connectivity. -/
def connectivity (fuel : ℕ) (x : Net) (modes : List Mode) (demand : ℤ → ℤ → Bool) : Res Conn :=
  (findLots fuel x fun _ => []).bind fun lots => connect fuel x modes demand lots

/-! ## The file -/

/-- A map of pairs in the order of iteration: origins with their destinations and flags. -/
abbrev Rows := List (ℤ × List (ℤ × Flags))

/-- A flag as it is written, `std::to_string ((int) ...)`; without entry the end iterator is read. -/
def flagText (f : Option Bool) : Res Str :=
  match f with
  | none => .ub
  | some b => .ok (toStr (if b then 1 else 0))

/-- `multimodal.cpp:15500-15507`: the line of a pair. -/
def rowText (o d : ℤ) (f : Flags) : Res Str :=
  (flagText (f .driving)).bind fun a =>
  (flagText (f .transit)).bind fun b =>
  (flagText (f .pnr)).bind fun c =>
  .ok (toStr o ++ ' ' :: (toStr d ++ ' ' :: (a ++ ' ' :: (b ++ ' ' :: (c ++ ['\n'])))))

/-- `multimodal.cpp:15493`. -/
def header : Str := "#OriginNodeID DestNodeID Driving BusTransit PnR\n".toList

/-- `multimodal.cpp:15477-15513` `save_od_mode_connectivity`: the text of the file. -/
def save (rows : Rows) : Res Str :=
  Res.foldlM (fun acc r => Res.foldlM (fun acc e => (rowText r.1 e.1 e.2).bind fun t => .ok (acc ++ t)) acc r.2)
    header rows

/-- `find (mode)->second = true` if the word reads 1, `multimodal.cpp:15580-15603`. -/
def readFlag (w : Str) (m : Mode) (f : Flags) : Res Flags :=
  (stoi w).bind fun n =>
    if n = 1 then
      match f m with
      | none => .ub
      | some _ => .ok (upd f m (some true))
    else .ok f

/-- `multimodal.cpp:15535-15610`: a line of the file. -/
def readRow (modes : List Mode) (c : Conn) (l : Str) : Res Conn :=
  match split (trim l) ' ' with
  | [w0, w1, w2, w3, w4] =>
    (stoi w0).bind fun o => (stoi w1).bind fun d =>
      let f : Flags := setFlags modes (fun _ => false) (c o d)
      (readFlag w2 .driving f).bind fun f => (readFlag w3 .transit f).bind fun f =>
        (readFlag w4 .pnr f).bind fun f => .ok (upd c o (upd (c o) d (some f)))
  | _ => .throw "number of modes is not correct"

/-- The loop over `n` lines. -/
def readRows (modes : List Mode) : ℕ → In → Conn → Res Conn
  | 0, _, c => .ok c
  | n + 1, i, c => (readRow modes c (getline i).line).bind fun c => readRows modes n (getline i) c

/-- `multimodal.cpp:15515-15620` `load_od_mode_connectivity` for a file that can be opened; `n` is `OD_pair_passenger`. -/
def load (modes : List Mode) (n : ℕ) (content : Str) : Res Conn :=
  readRows modes n (getline (In.open content)) fun _ _ => none

/-- `multimodal.cpp:15284-15475` `check_od_mode_connectivity`: with a file (`some`) that gives pairs, those; otherwise the
network is looked at and the file is written.  `order` gives a map in the order of its iteration (which cannot be seen
from a function).  The result is the map and the file. -/
def checkConn (fuel : ℕ) (x : Net) (modes : List Mode) (demand : ℤ → ℤ → Bool) (lots : ℤ → List ℤ) (n : ℕ)
    (file : Option Str) (order : Conn → Rows) : Res (Conn × Option Str) :=
  (match file with
    | none => Res.ok (fun _ _ => none : Conn)
    | some t => load modes n t).bind fun c =>
  if order c ≠ [] then .ok (c, file)
  else
    (connect fuel x modes demand lots).bind fun c => (save (order c)).bind fun t => .ok (c, some t)

/-! ## What is made of the flags -/

/-- An array of integers whose elements may not have been written (`none`); writing behind its end is undefined. -/
def put (a : List (Option ℤ)) (i : ℕ) (v : ℤ) : Res (List (Option ℤ)) :=
  if i < a.length then .ok (a.set i (some v)) else .ub

/-- `mmdta.cpp:4887-4907`: the flags of a pair in row `i`; the order of the modes does not matter. -/
def putFlags (f : Flags) (i : ℕ) (a : List (Option ℤ)) : Res (List (Option ℤ)) :=
  Res.foldlM (fun a (m : Mode × ℕ) =>
    match f m.1 with
    | none => .ok a
    | some b => put a (i * 5 + m.2) (if b then 1 else 0)) a [(.driving, 2), (.transit, 3), (.pnr, 4)]

/-- `mmdta.cpp:4867-4914` `get_od_mode_connectivity`: the array, row by row; `n` is `OD_pair_passenger`. -/
def table (n : ℕ) (rows : Rows) : Res (List (Option ℤ)) :=
  (Res.foldlM (fun (s : ℕ × List (Option ℤ)) r =>
    (put s.2 (s.1 * 5) r.1).bind fun a =>
      Res.foldlM (fun (s : ℕ × List (Option ℤ)) e =>
        (put s.2 (s.1 * 5 + 1) e.1).bind fun a => (putFlags e.2 s.1 a).bind fun a => .ok (s.1 + 1, a))
        (s.1, a) r.2) (0, List.replicate (n * 5) none) rows).bind fun s => .ok s.2

/-- `multimodal.cpp:14442-14455`: the line of demand of a pair: `n` times `1 `, without the last blank. -/
def demandText (oid did : ℤ) (n : ℕ) : Str :=
  (toStr oid ++ ' ' :: (toStr did ++ ' ' :: (List.replicate n ['1', ' ']).flatten)).dropLast ++ ['\n']

/-- `multimodal.cpp:14369-14513` `generate_init_mode_demand_file`: the text of the file for mode `m` (`none` if the mode
is not configured); `oid` and `did` give the IDs of origins and destinations at nodes, `n` is `m_total_assign_inter`.
The order of the modes of a pair does not matter, as they go to different files. -/
def demandFile (modes : List Mode) (oid did : ℤ → ℤ) (n : ℕ) (rows : Rows) (m : Mode) : Option Str :=
  if m ∈ modes then
    some ((match m with
      | .driving => "#Origin_ID Destination_ID <car demand by interval> <truck demand by interval>\n".toList
      | .transit => "#Origin_ID Destination_ID <passenger demand by interval>\n".toList
      | .pnr => "#OriginID DestID <passenger demand by interval>\n".toList) ++
      rows.flatMap fun r => r.2.flatMap fun e =>
        if e.2 m = some true then demandText (oid r.1) (did e.1) (if m = .driving then n * 2 else n) else [])
  else none

end Verif.MmConn

import Verif.Model.ShortestPath
import Verif.Model.Text

/-! # Model of the class `Tdsp` (`_ext/tdsp.cpp`): tables of costs and travel times, the tree and the
extracted path; time-dependent shortest paths with turn costs -/

namespace Verif.Tdsp
open Graph Sp Text

/-! ## Tables -/

/-- An array given from Python: number of dimensions, shape, the leading columns (numbers of links, as
doubles) and the columns behind them, one for each interval. -/
structure Arr (α : Type) where
  ndim : ℕ
  rows : ℤ
  cols : ℤ
  key : ℕ → ℕ → ℚ
  val : ℕ → ℕ → α

/-- A table in memory: link (or pair of links) ↦ vector with an entry for each interval.  Simplified:
a vector is a function of the interval; only the entries of the `M` intervals exist. -/
abbrev Table (κ α : Type) := κ → Option (ℕ → α)

/-- `tdsp.cpp:203-219`: one row. -/
def linkRow {α : Type} (a : Arr α) (s : Table ℤ α) (i : ℕ) : Res (Table ℤ α) :=
  (Ults.toInt (a.key i 0)).bind fun l => .ok (upd s l (some (a.val i)))

/-- `tdsp.cpp:181-223` `read_td_link_cost` (a number of rows below 0 cannot be the number of rows of an
array). -/
def readLinks {α : Type} (n : ℤ) (M : ℕ) (old : Table ℤ α) (a : Arr α) : Res (Table ℤ α) :=
  if a.ndim ≠ 2 then .throw "input dimension must be 2"
  else if a.rows ≠ n ∨ a.cols ≠ M + 1 then .throw "input length mismatch"
  else Res.foldlM (linkRow a) old (List.range n.toNat)

/-- `tdsp.cpp:246-275`: one row; the first column is not read. -/
def turnRow {α : Type} (a : Arr α) (s : Table (ℤ × ℤ) α) (i : ℕ) : Res (Table (ℤ × ℤ) α) :=
  (Ults.toInt (a.key i 1)).bind fun l => (Ults.toInt (a.key i 2)).bind fun k =>
    .ok (upd s (l, k) (some (a.val i)))

/-- `tdsp.cpp:225-279` `read_td_node_cost`. -/
def readTurns {α : Type} (n : ℤ) (M : ℕ) (old : Table (ℤ × ℤ) α) (a : Arr α) : Res (Table (ℤ × ℤ) α) :=
  if a.ndim ≠ 2 then .throw "input dimension must be 2"
  else if a.rows ≠ n ∨ a.cols ≠ M + 3 then .throw "input length mismatch"
  else Res.foldlM (turnRow a) old (List.range n.toNat)

/-- The numbers of a row of the text file. -/
def rowNums (ws : List Str) : Res (List ℚ) :=
  Res.foldlM (fun acc w => (stod (trim w)).bind fun x => .ok (acc ++ [x])) [] ws

/-- `io.cpp:1286-1311`: one row of the file of links. -/
def linkLine (M : ℕ) (s : Table ℤ ℚ) (line : Str) : Res (Table ℤ ℚ) :=
  match split line ' ' with
  | w0 :: ws =>
    if ws.length = M then
      (stoi (trim w0)).bind fun l => (rowNums ws).bind fun xs => .ok (upd s l (some fun j => xs.getD j 0))
    else .throw "failed to read line"
  | _ => .throw "failed to read line"

/-- `io.cpp:1356-1395`: one row of the file of turns; the first word is not read. -/
def turnLine (M : ℕ) (s : Table (ℤ × ℤ) ℚ) (line : Str) : Res (Table (ℤ × ℤ) ℚ) :=
  match split line ' ' with
  | _ :: w1 :: w2 :: ws =>
    if ws.length = M then
      (stoi (trim w1)).bind fun l => (stoi (trim w2)).bind fun k => (rowNums ws).bind fun xs =>
        .ok (upd s (l, k) (some fun j => xs.getD j 0))
    else .throw "failed to read line"
  | _ => .throw "failed to read line"

/-- `io.cpp:1284-1312, 1354-1396`: the loop over the rows; every row is read with `getline`. -/
def lineLoop {σ : Type} (row : σ → Str → Res σ) : ℕ → In → σ → Res σ
  | 0, _, s => .ok s
  | n + 1, i, s => (row s (getline i).line).bind fun s' => lineLoop row n (getline i) s'

/-- `io.cpp:1264-1270, 1327-1336`: the vectors in memory are set to zero. -/
def zeroed {κ : Type} (s : Table κ ℚ) : Table κ ℚ := fun k => (s k).map fun _ _ => 0

/-- `io.cpp:1258-1319, 1321-1400` `read_td_link_cost` and `read_td_node_cost`: the header is read before
the rows.  A file that does not open is an error.  Simplified as in `Text.strtod`. -/
def readText {κ : Type} (row : Table κ ℚ → Str → Res (Table κ ℚ)) (n : ℕ) (old : Table κ ℚ) :
    Option Str → Res (Table κ ℚ)
  | none => .throw "failed to open file"
  | some content => lineLoop row n (getline (In.open content)) (zeroed old)

/-! ## Turn costs -/

/-- `shortest_path.cpp:733-773`: the body of the loop over the links at interval `t`. -/
def turnRelax (M : ℕ) (g : G) (dest : ℤ) (cost : Table ℤ Cost) (tc : Table (ℤ × ℤ) Cost) (tt : Table ℤ ℚ)
    (td : Table (ℤ × ℤ) ℚ) (t : ℕ) (s : Tree) (l : ℤ) : Res Tree :=
  (getEndpoints g l).bind fun e =>
    match cost l, tt l with
    | some c, some x =>
      if c t = ⊤ then .ok s
      else
        let via : Res (Cost × ℚ) :=
          if e.2 ≠ dest then
            (roundTime M t (x t) prec).bind fun t' =>
              if s.tree e.2 t' ≠ -1 then
                match tc (l, s.tree e.2 t') with
                | none => .ok (c t, x t)
                | some n =>
                  match td (l, s.tree e.2 t') with
                  | none => .ub
                  | some d => .ok (c t + n t', x t + d t')
              else .ok (c t, x t)
          else .ok (c t, x t)
        via.bind fun p =>
          (roundTime M t p.2 prec).bind fun t'' =>
            if p.1 + s.dist e.2 t'' < s.dist e.1 t then
              .ok ⟨upd s.dist e.1 (upd (s.dist e.1) t (p.1 + s.dist e.2 t'')),
                upd s.tree e.1 (upd (s.tree e.1) t l)⟩
            else .ok s
    | _, _ => .ub

/-- `shortest_path.cpp:712-774`: the loop over `t`, from `t - 1` down to 0. -/
def turnTreeLoop (links : List ℤ) (M : ℕ) (g : G) (dest : ℤ) (cost : Table ℤ Cost)
    (tc : Table (ℤ × ℤ) Cost) (tt : Table ℤ ℚ) (td : Table (ℤ × ℤ) ℚ) : ℕ → Tree → Res Tree
  | 0, s => .ok s
  | t + 1, s =>
    (Res.foldlM (turnRelax M g dest cost tc tt td t) s links).bind fun s' =>
      turnTreeLoop links M g dest cost tc tt td t s'

/-- `shortest_path.cpp:681-777` `update_tree` with node costs. -/
def updateTurn (fuel : ℕ) (links : List ℤ) (M : ℕ) (g : G) (dest : ℤ) (cost : Table ℤ Cost)
    (tc : Table (ℤ × ℤ) Cost) (tt : Table ℤ ℚ) (td : Table (ℤ × ℤ) ℚ) : Res Tree :=
  if M = 0 then .ub
  else
    (fifoTurn fuel g dest (fun l => (cost l).map fun c => c (M - 1))
      (fun a b => (tc (a, b)).map fun c => c (M - 1)) fun _ => some (-1)).bind fun s =>
      turnTreeLoop links M g dest cost tc tt td (M - 1)
        { dist := fun v t =>
            if t = M - 1 then (s.dist v).getD ⊤ else if v = dest then 0 else ⊤
          tree := fun v t => if t = M - 1 then (s.out v).getD (-1) else -1 }

/-- `shortest_path.cpp:848-872`: the delay of the turn from the previous link `prev` into `l`, and the
interval after it.  There is none at the node `src` where the path starts. -/
def delay (M : ℕ) (td : Table (ℤ × ℤ) ℚ) (src v : ℤ) (prev : Option ℤ) (l : ℤ) (t : ℕ) : Res (ℚ × ℕ) :=
  match prev with
  | none => .ok (0, t)
  | some k =>
    if v ≠ src then
      match td (k, l) with
      | none => .ok (0, t)
      | some d =>
        if -2147483648 ≤ ⌈d t⌉ ∧ ⌈d t⌉ + t ≤ 2147483647 then
          if (t : ℤ) + ⌈d t⌉ < 0 then .ub
          else .ok (d t, if (t : ℤ) + ⌈d t⌉ < M then ((t : ℤ) + ⌈d t⌉).toNat else M - 1)
        else .ub
    else .ok (0, t)

/-- `shortest_path.cpp:835-879`: the loop of `get_tdsp` with node costs. -/
def turnLoop (M : ℕ) (g : G) (dest : ℤ) (s : Tree) (tt : Table ℤ ℚ) (td : Table (ℤ × ℤ) ℚ) (src : ℤ) :
    ℕ → Option ℤ → ℤ → ℕ → Res (List ℤ × List ℤ × Option ℚ)
  | 0, _, _, _ => .diverge
  | fuel + 1, prev, v, t =>
    if v = dest then .ok ([dest], [], some 0)
    else
      let l := s.tree v t
      if l = -1 then .ok ([v], [], none)
      else
        (delay M td src v prev l t).bind fun p =>
          match tt l with
          | none => .ub
          | some x =>
            (roundTime M p.2 (x p.2) prec).bind fun t' =>
              (getEndpoints g l).bind fun e =>
                (turnLoop M g dest s tt td src fuel (some l) e.2 t').bind fun r =>
                  .ok (v :: r.1, l :: r.2.1, r.2.2.map (p.1 + x p.2 + ·))

/-- `shortest_path.cpp:822-880` `get_tdsp` with node costs. -/
def getTurn (fuel M : ℕ) (g : G) (dest : ℤ) (s : Tree) (tt : Table ℤ ℚ) (td : Table (ℤ × ℤ) ℚ)
    (src time : ℤ) : Res (List ℤ × List ℤ × Option ℚ) :=
  if time < 0 ∧ src ≠ dest then .ub
  else turnLoop M g dest s tt td src fuel none src (if time < M then time.toNat else M - 1)

/-! ## The object -/

/-- `tdsp.cpp:20-50` the members of `Tdsp`. -/
structure Obj where
  g : G
  M : ℕ
  nLink : ℤ
  nTurn : ℤ
  tt : Table ℤ ℚ
  cost : Table ℤ Cost
  ttTurn : Table (ℤ × ℤ) ℚ
  costTurn : Table (ℤ × ℤ) Cost
  tree : Option (ℤ × Tree)

/-- `tdsp.cpp:117-131` `initialize` (the graph is that of the files; `M ≥ 0`). -/
def create (g : G) (M : ℕ) (nLink nTurn : ℤ) : Obj :=
  ⟨g, M, nLink, nTurn, fun _ => none, fun _ => none, fun _ => none, fun _ => none, none⟩

/-- `tdsp.cpp:160-179` `read_td_cost_py`. -/
def readPy (o : Obj) (linkTt : Arr ℚ) (linkCost : Arr Cost) (turnTt : Arr ℚ) (turnCost : Arr Cost) :
    Res Obj :=
  (readLinks o.nLink o.M o.tt linkTt).bind fun tt =>
    (readLinks o.nLink o.M o.cost linkCost).bind fun cost =>
      if o.nTurn ≠ -1 then
        (readTurns o.nTurn o.M o.ttTurn turnTt).bind fun ttTurn =>
          (readTurns o.nTurn o.M o.costTurn turnCost).bind fun costTurn =>
            .ok { o with tt := tt, cost := cost, ttTurn := ttTurn, costTurn := costTurn }
      else .ok { o with tt := tt, cost := cost }

/-- `tdsp.cpp:281-305` `build_tdsp_tree`; `links` is the order of `graph.links ()`. -/
def build (fuel : ℕ) (links : List ℤ) (o : Obj) (dest : ℤ) : Res Obj :=
  (if o.nTurn ≠ -1 then updateTurn fuel links o.M o.g dest o.cost o.costTurn o.tt o.ttTurn
   else updateTree fuel links o.M o.g dest o.cost o.tt).bind fun s => .ok { o with tree := some (dest, s) }

/-- A row of the result. -/
structure Row where
  node : ℤ
  link : ℤ
  cost : Cost
  tt : ℚ
deriving DecidableEq

/-- `tdsp.cpp:347-371`: the rows behind the first one; the last node has no link. -/
def restRows : List ℤ → List ℤ → List Row
  | [], _ => []
  | v :: vs, [] => ⟨v, -1, ((-1 : ℚ) : Cost), -1⟩ :: restRows vs []
  | v :: vs, l :: ls => ⟨v, l, ((-1 : ℚ) : Cost), -1⟩ :: restRows vs ls

/-- The first row, with cost and travel time. -/
def mkRows (c : Cost) (tt : ℚ) : List ℤ → List ℤ → List Row
  | [], _ => []
  | v :: vs, [] => ⟨v, -1, c, tt⟩ :: restRows vs []
  | v :: vs, l :: ls => ⟨v, l, c, tt⟩ :: restRows vs ls

/-- `tdsp.cpp:307-374` `extract_tdsp`.  Without a tree, for an unknown origin (a null pointer) or a
negative time stamp the behaviour is undefined. -/
def extract (fuel : ℕ) (o : Obj) (origin time : ℤ) : Res (List Row) :=
  match o.tree with
  | none => .ub
  | some (dest, s) =>
    if origin ∉ nodeIds o.g ∨ time < 0 then .ub
    else
      let c := s.dist origin (if time < o.M then time.toNat else o.M - 1)
      (if o.nTurn ≠ -1 then getTurn fuel o.M o.g dest s o.tt o.ttTurn origin time
       else getTdsp fuel o.M o.g dest s o.tt origin time).bind fun r =>
        .ok (mkRows c (r.2.2.getD (-1)) r.1 r.2.1)

end Verif.Tdsp

import Verif.Model.Graph
import Verif.Model.Ults
import Mathlib.Algebra.Order.Monoid.Unbundled.WithTop

/-!
# Model of `src/shortest_path.cpp` and of `MNM::extract_path`

A distance is a rational or infinity (`WithTop ℚ`); a cost map gives a distance, and looking up a
missing key dereferences the end iterator (undefined behaviour).  The maps from node to value are
functions to `Option`.  The graph is the pointer-level one of `Verif.Model.Graph`.
-/

namespace Verif.Sp
open Graph

/-- A `double` that is never negative infinity nor NaN. -/
abbrev Cost := WithTop ℚ

/-- `graph.connections (node, Direction::Incoming)` with enough fuel for the graph. -/
def incoming (g : G) (n : ℤ) : Res (List ℤ) := connections (sizeLinks g + 1) g n .inc

/-! ## Label correcting with a deque -/

/-- Local variables of `all_to_one_FIFO`: `_dist`, `output_map`, `m_Q`, `m_Q_support`. -/
structure Lab where
  dist : ℤ → Option Cost
  out : ℤ → Option ℤ
  q : List ℤ
  sup : ℤ → Option Bool

/-- `shortest_path.cpp:156-185` (and `452-487`): initialisation for destination `dest`; `out` is the
map passed by the caller. -/
def labInit (g : G) (dest : ℤ) (out : ℤ → Option ℤ) : Lab where
  dist v := if v = dest then some 0 else if v ∈ nodeIds g then some ⊤ else none
  out v := if v ≠ dest ∧ v ∈ nodeIds g then some (-1) else out v
  q := [dest]
  sup v := if v = dest then some true else if v ∈ nodeIds g then some false else none

/-- `shortest_path.cpp:197-214`: the body of the loop over the links; `push` is `push_back` for the
FIFO and `push_front` for the LIFO variant, `td` is `_tmp_dist`. -/
def relax (push : List ℤ → ℤ → List ℤ) (g : G) (cost : ℤ → Option Cost) (td : Cost) (s : Lab) (l : ℤ) :
    Res Lab :=
  (getEndpoints g l).bind fun e =>
    match cost l, s.dist e.1 with
    | some c, some d =>
      if td + c < d then
        match s.out e.1, s.sup e.1 with
        | some _, some b =>
          .ok ⟨upd s.dist e.1 (some (td + c)), upd s.out e.1 (some l),
            if b then s.q else push s.q e.1, upd s.sup e.1 (some true)⟩
        | _, _ => .ub
      else .ok s
    | _, _ => .ub

/-- `push_back`. -/
def pushBack (q : List ℤ) (v : ℤ) : List ℤ := q ++ [v]

/-- `push_front`. -/
def pushFront (q : List ℤ) (v : ℤ) : List ℤ := v :: q

/-- `shortest_path.cpp:188-216`: the `while` loop of `all_to_one_FIFO`. -/
def fifoLoop (g : G) (cost : ℤ → Option Cost) : ℕ → Lab → Res Lab
  | 0, _ => .diverge
  | fuel + 1, s =>
    match s.q with
    | [] => .ok s
    | v :: q =>
      (incoming g v).bind fun ls =>
        match s.dist v with
        | none => .ub
        | some td =>
          (Res.foldlM (relax pushBack g cost td)
            { s with
              q := q
              sup := upd s.sup v (some false) } ls).bind
            fun s' => fifoLoop g cost fuel s'

/-- `shortest_path.cpp:150-222` `all_to_one_FIFO`; also `224-285`, the same code on one column of
arrays of distances and next links.  The result carries the distances, which the first variant
discards. -/
def fifo (fuel : ℕ) (g : G) (dest : ℤ) (cost : ℤ → Option Cost) (out : ℤ → Option ℤ) : Res Lab :=
  fifoLoop g cost fuel (labInit g dest out)

/-- `shortest_path.cpp:490-513`: the loop of `all_to_one_LIFO`, which goes over all links of the
graph (`links` is their iteration order). -/
def lifoLoop (links : List ℤ) (g : G) (cost : ℤ → Option Cost) : ℕ → Lab → Res Lab
  | 0, _ => .diverge
  | fuel + 1, s =>
    match s.q with
    | [] => .ok s
    | v :: q =>
      match s.dist v with
      | none => .ub
      | some td =>
        (Res.foldlM (relax pushFront g cost td)
          { s with
            q := q
            sup := upd s.sup v (some false) } links).bind
          fun s' => lifoLoop links g cost fuel s'

/-- `shortest_path.cpp:452-520` `all_to_one_LIFO`. -/
def lifo (fuel : ℕ) (links : List ℤ) (g : G) (dest : ℤ) (cost : ℤ → Option Cost) (out : ℤ → Option ℤ) :
    Res Lab :=
  lifoLoop links g cost fuel (labInit g dest out)

/-! ## Dijkstra -/

/-- Local variables of `all_to_one_Dijkstra`: `dist_to_dest`, `output_map` and the entries of the
priority queue, in no particular order. -/
structure Dij where
  dist : ℤ → Option Cost
  out : ℤ → Option ℤ
  q : List (ℤ × Cost)

/-- `shortest_path.cpp:27-51`: initialisation; `insert` keeps an entry the caller's map already
has. -/
def dijInit (g : G) (dest : ℤ) (out : ℤ → Option ℤ) : Dij where
  dist v := if v = dest then some 0 else if v ∈ nodeIds g then some ⊤ else none
  out v := if v ≠ dest ∧ v ∈ nodeIds g ∧ out v = none then some (-1) else out v
  q := [(dest, 0)]

/-- `shortest_path.cpp:73-84`: the loop body (`operator[]` inserts zero for a missing key). -/
def dijRelax (g : G) (cost : ℤ → Option Cost) (td : Cost) (s : Dij) (l : ℤ) : Res Dij :=
  (getEndpoints g l).bind fun e =>
    match cost l with
    | some c =>
      if td + c < (s.dist e.1).getD 0 then
        .ok ⟨upd s.dist e.1 (some (td + c)), upd s.out e.1 (some l), s.q ++ [(e.1, td + c)]⟩
      else .ok ⟨upd s.dist e.1 (some ((s.dist e.1).getD 0)), s.out, s.q⟩
    | none => .ub

/-- `shortest_path.cpp:66-87`: the loop.  `pick n q` is the position of `m_Q.top ()` in the `n`-th
iteration from the end; the comparison of `LessThanByCost` is not a strict order, so the standard
does not say which entry that is. -/
def dijLoop (pick : ℕ → List (ℤ × Cost) → ℕ) (g : G) (cost : ℤ → Option Cost) : ℕ → Dij → Res Dij
  | 0, _ => .diverge
  | fuel + 1, s =>
    match s.q with
    | [] => .ok s
    | x :: q =>
      let k := pick fuel (x :: q) % (x :: q).length
      let v := ((x :: q).getD k x).1
      (incoming g v).bind fun ls =>
        (Res.foldlM (dijRelax g cost ((s.dist v).getD 0))
          { s with
            q := (x :: q).eraseIdx k } ls).bind
          fun s' => dijLoop pick g cost fuel s'

/-- `shortest_path.cpp:8-89` `all_to_one_Dijkstra`; also `91-148`, the same code on arrays (which
does reset the next links). -/
def dijkstra (pick : ℕ → List (ℤ × Cost) → ℕ) (fuel : ℕ) (g : G) (dest : ℤ) (cost : ℤ → Option Cost)
    (out : ℤ → Option ℤ) : Res Dij :=
  dijLoop pick g cost fuel (dijInit g dest out)

/-! ## Extracting a path -/

/-- `path.cpp:345-378` `extract_path`: nodes and links of the path, or a null pointer. -/
def extractPath (g : G) (dest : ℤ) (out : ℤ → Option ℤ) : ℕ → ℤ → Res (Option (List ℤ × List ℤ))
  | 0, _ => .diverge
  | fuel + 1, v =>
    if v = dest then .ok (some ([v], []))
    else
      match out v with
      | none => .ok none
      | some l =>
        if l = -1 then .ok none
        else
          (getEndpoints g l).bind fun e =>
            (extractPath g dest out fuel e.2).bind fun r =>
              .ok (r.map fun p => (v :: p.1, l :: p.2))

/-! ## Turn costs -/

/-- `shortest_path.cpp:327-362`: the loop body of `all_to_one_FIFO` with node costs; `v` is
`_tmp_ID` and `turn` the node cost map. -/
def relaxTurn (g : G) (dest v : ℤ) (cost : ℤ → Option Cost) (turn : ℤ → ℤ → Option Cost) (td : Cost)
    (s : Lab) (l : ℤ) : Res Lab :=
  (getEndpoints g l).bind fun e =>
    match cost l, s.dist e.1 with
    | some c, some d =>
      let alt : Res Cost :=
        if v ≠ dest then
          match s.out v with
          | none => .ub
          | some o =>
            if o ≠ -1 then
              match turn l o with
              | none => .ok (td + c)
              | some x => .ok (td + c + x)
            else .ok (td + c)
        else .ok (td + c)
      alt.bind fun a =>
        if a < d then
          match s.out e.1, s.sup e.1 with
          | some _, some b =>
            .ok ⟨upd s.dist e.1 (some a), upd s.out e.1 (some l),
              if b then s.q else pushBack s.q e.1, upd s.sup e.1 (some true)⟩
          | _, _ => .ub
        else .ok s
    | _, _ => .ub

/-- `shortest_path.cpp:326-363`: the `while` loop. -/
def fifoTurnLoop (g : G) (dest : ℤ) (cost : ℤ → Option Cost) (turn : ℤ → ℤ → Option Cost) :
    ℕ → Lab → Res Lab
  | 0, _ => .diverge
  | fuel + 1, s =>
    match s.q with
    | [] => .ok s
    | v :: q =>
      (incoming g v).bind fun ls =>
        match s.dist v with
        | none => .ub
        | some td =>
          (Res.foldlM (relaxTurn g dest v cost turn td)
            { s with
              q := q
              sup := upd s.sup v (some false) } ls).bind
            fun s' => fifoTurnLoop g dest cost turn fuel s'

/-- `shortest_path.cpp:287-369` `all_to_one_FIFO` with node costs. -/
def fifoTurn (fuel : ℕ) (g : G) (dest : ℤ) (cost : ℤ → Option Cost) (turn : ℤ → ℤ → Option Cost)
    (out : ℤ → Option ℤ) : Res Lab :=
  fifoTurnLoop g dest cost turn fuel (labInit g dest out)

/-! ## Time-dependent shortest paths -/

/-- `shortest_path.h:108-114` the members of `MNM_TDSP_Tree`: node, interval ↦ distance, next link. -/
structure Tree where
  dist : ℤ → ℕ → Cost
  tree : ℤ → ℕ → ℤ

/-- `shortest_path.cpp:921-935` `round_time` for `m_max_interval = M` and a start inside the horizon;
`p` is the precision.  A sum outside the range of `int` is undefined. -/
def roundTime (M : ℕ) (t : ℕ) (tt p : ℚ) : Res ℕ :=
  (Ults.roundUpTime tt p).bind fun n =>
    if (t : ℤ) + n > 2147483647 then .ub
    else if (t : ℤ) + n ≥ (M : ℤ) - 1 then .ok (M - 1)
    else .ok ((t : ℤ) + n).toNat

/-- `1e-4`. -/
def prec : ℚ := 1 / 10000

/-- `shortest_path.cpp:652-676`: the body of the loop over the links at interval `t`. -/
def treeRelax (M : ℕ) (g : G) (cost : ℤ → Option (ℕ → Cost)) (tt : ℤ → Option (ℕ → ℚ)) (t : ℕ)
    (s : Tree) (l : ℤ) : Res Tree :=
  (getEndpoints g l).bind fun e =>
    match cost l, tt l with
    | some c, some x =>
      if c t = ⊤ then .ok s
      else
        (roundTime M t (x t) prec).bind fun t' =>
          if c t + s.dist e.2 t' < s.dist e.1 t then
            .ok ⟨upd s.dist e.1 (upd (s.dist e.1) t (c t + s.dist e.2 t')),
              upd s.tree e.1 (upd (s.tree e.1) t l)⟩
          else .ok s
    | _, _ => .ub

/-- `shortest_path.cpp:635-678`: the loop over `t`, from `t - 1` down to 0. -/
def treeLoop (links : List ℤ) (M : ℕ) (g : G) (cost : ℤ → Option (ℕ → Cost)) (tt : ℤ → Option (ℕ → ℚ)) :
    ℕ → Tree → Res Tree
  | 0, s => .ok s
  | t + 1, s =>
    (Res.foldlM (treeRelax M g cost tt t) s links).bind fun s' => treeLoop links M g cost tt t s'

/-- `shortest_path.cpp:598-678` `update_tree` without node costs.  `links` is the iteration order of
`graph.links ()`.  With no interval at all the arrays are indexed with -1. -/
def updateTree (fuel : ℕ) (links : List ℤ) (M : ℕ) (g : G) (dest : ℤ) (cost : ℤ → Option (ℕ → Cost))
    (tt : ℤ → Option (ℕ → ℚ)) : Res Tree :=
  if M = 0 then .ub
  else
    (fifo fuel g dest (fun l => (cost l).map fun c => c (M - 1)) fun _ => some (-1)).bind fun s =>
      treeLoop links M g cost tt (M - 1)
        { dist := fun v t =>
            if t = M - 1 then (s.dist v).getD ⊤ else if v = dest then 0 else ⊤
          tree := fun v t => if t = M - 1 then (s.out v).getD (-1) else -1 }

/-- `shortest_path.cpp:798-820`: the loop of `get_tdsp` without node costs; node and link lists and
the travel time.  A next link of -1 ends it with the nodes and links so far and the value -1. -/
def tdspLoop (M : ℕ) (g : G) (dest : ℤ) (s : Tree) (tt : ℤ → Option (ℕ → ℚ)) :
    ℕ → ℤ → ℕ → Res (List ℤ × List ℤ × Option ℚ)
  | 0, _, _ => .diverge
  | fuel + 1, v, t =>
    if v = dest then .ok ([dest], [], some 0)
    else
      let l := s.tree v t
      if l = -1 then .ok ([v], [], none)
      else
        match tt l with
        | none => .ub
        | some x =>
          (roundTime M t (x t) prec).bind fun t' =>
            (getEndpoints g l).bind fun e =>
              (tdspLoop M g dest s tt fuel e.2 t').bind fun r =>
                .ok (v :: r.1, l :: r.2.1, r.2.2.map (x t + ·))

/-- `shortest_path.cpp:787-820` `get_tdsp` without node costs (a negative departure time indexes
outside the arrays). -/
def getTdsp (fuel M : ℕ) (g : G) (dest : ℤ) (s : Tree) (tt : ℤ → Option (ℕ → ℚ)) (src time : ℤ) :
    Res (List ℤ × List ℤ × Option ℚ) :=
  if time < 0 ∧ src ≠ dest then .ub
  else tdspLoop M g dest s tt fuel src (if time < M then time.toNat else M - 1)

/-- `shortest_path.cpp:535-555` `is_FIFO`. -/
def isFifo (links : List ℤ) (cost : ℤ → ℕ → ℚ) (M : ℕ) (unit : ℚ) : Bool :=
  links.all fun l => (List.range (M - 1)).all fun i => !decide (cost l i > unit + cost l (i + 1))

end Verif.Sp

import Verif.Model.ShortestPath

/-!
# Model of `src/path.cpp`: choice probabilities, cycle elimination, path-set generation

A path is its node sequence and its link sequence.
-/

namespace Verif.Path
open Graph Sp

/-! ## Choice probabilities -/

/-- `path.cpp:301-341` `MNM_Pathset::normalize_p` on the values `m_p` of the paths of a set. -/
def normalizeP (ps : List ℚ) : Res (List ℚ) :=
  if ps.any (fun p => decide (p < 0)) then .throw "invalid probability"
  else
    let minP := ps.foldl (fun m p => if p < m then p else m) 0
    if (ps.map (· - minP)).sum = 0 then .ok (ps.map fun _ => 1 / (ps.length : ℚ))
    else .ok (ps.map (· / ps.sum))

/-! ## Cycle elimination -/

/-- `path.cpp:217-223`: position of the last occurrence, found from the back. -/
def lastPos (nodes : List ℤ) (u : ℤ) : ℕ := nodes.length - 1 - nodes.reverse.idxOf u

/-- `path.cpp:207-233`: the loop over the positions from `i` on, `m` of them; the two vectors of flags
are functions of the position. -/
def markLoop (nodes : List ℤ) : ℕ → ℕ → (ℕ → Bool) × (ℕ → Bool) → (ℕ → Bool) × (ℕ → Bool)
  | 0, _, f => f
  | m + 1, i, f =>
    if !f.1 i then markLoop nodes m (i + 1) f
    else
      let j := lastPos nodes (nodes.getD i 0)
      if i + 1 ≤ j then
        markLoop nodes m (i + 1)
          (fun k => if i + 1 ≤ k ∧ k < j + 1 then false else f.1 k,
           fun k => if i + 1 ≤ k + 1 ∧ k + 1 < j + 1 then false else f.2 k)
      else markLoop nodes m (i + 1) f

/-- `path.cpp:194-273` `MNM_Path::eliminate_cycles`.  For an empty node list the loop bound wraps
around, and with fewer links than steps the copy reads outside the link list: undefined.  (The
rebuild, which the code skips when nothing was marked, then copies the path.) -/
def eliminateCycles (nodes links : List ℤ) : Res (List ℤ × List ℤ) :=
  if nodes = [] ∨ links.length + 1 < nodes.length then .ub
  else
    let f := markLoop nodes (nodes.length - 1) 0 (fun _ => true, fun _ => true)
    if (List.range nodes.length).all f.1 then .ok (nodes, links)
    else
      .ok (((List.range nodes.length).filter f.1).map (fun i => nodes.getD i 0),
        ((List.range (nodes.length - 1)).filter f.2).map (fun i => links.getD i 0))

/-! ## Path-set generation -/

/-- A stored path: `m_node_vec` and `m_link_vec`. -/
abbrev P := List ℤ × List ℤ

/-- `path.cpp:290-299` `is_in` with `operator==` of `path.h:40-51`: the same links. -/
def isIn (ps : List P) (p : P) : Bool := ps.any fun q => decide (q.2 = p.2)

/-- Input of the generation: the node of each origin with the destinations it has demand for (in the
iteration order of `m_origin_map`), ID and node of each destination (in the order of
`m_destination_map`), and per link travel time, toll and length. -/
structure Inst where
  g : G
  origins : List (ℤ × (ℕ → Bool))
  dests : List (ℕ × ℤ)
  tt : ℤ → ℚ
  toll : ℤ → ℚ
  len : ℤ → ℚ
  vot : ℚ
  mid : ℚ
  heavy : ℚ
  minLen : ℚ

/-- `Path_Table`. -/
abbrev Table := ℤ → ℤ → Option (List P)

/-- `path.cpp:498-522`: a path set for every pair with demand; of several origins at one node only
the first gets into the table (`insert`). -/
def initTable (x : Inst) : Table := fun o d =>
  match x.origins.find? fun p => decide (p.1 = o) with
  | none => none
  | some p => if x.dests.any fun e => decide (e.2 = d) && p.2 e.1 then some [] else none

/-- `path.cpp:540-547, 587-588`: free-flow costs (of the links of the graph). -/
def freeCost (x : Inst) : ℤ → Option Cost := fun l =>
  if l ∈ linkIds x.g then some ((x.vot * x.tt l + x.toll l : ℚ) : Cost) else none

/-- `get_path_length`. -/
def pathLen (x : Inst) (p : P) : ℚ := (p.2.map x.len).sum

/-- Append to a path set (`m_path_vec.push_back`); `find` of a missing pair is undefined. -/
def push (t : Table) (o d : ℤ) (p : P) : Res Table :=
  match t o d with
  | none => .ub
  | some ps => .ok (upd t o (upd (t o) d (some (ps ++ [p]))))

/-- `path.cpp:557-585`: the first path of the pair `o`, `d` (the message also names the pair). -/
def firstPath (fuel : ℕ) (x : Inst) (d : ℕ × ℤ) (out : ℤ → Option ℤ) (t : Table) (o : ℤ × (ℕ → Bool)) :
    Res Table :=
  if !o.2 d.1 then .ok t
  else
    (extractPath x.g d.2 out fuel o.1).bind fun r =>
      match r with
      | none => .throw "no path between origin and destination"
      | some p => if pathLen x p > x.minLen then push t o.1 d.2 p else .ok t

/-- `path.cpp:549-586`. -/
def firstPaths (fuel : ℕ) (x : Inst) : Res Table :=
  (Res.foldlM (fun (s : Table × (ℤ → Option ℤ)) d =>
    (fifo fuel x.g d.2 (freeCost x) s.2).bind fun r =>
      (Res.foldlM (firstPath fuel x d r.out) s.1 x.origins).bind fun t => .ok (t, r.out))
    (initTable x, fun _ => none) x.dests).bind fun s => .ok s.1

/-- `path.cpp:597-615`: links on stored paths become dearer by the factor `k`; `used` is what the
earlier iterations have marked. -/
def scaledCost (x : Inst) (k : ℚ) (used : ℤ → Bool) : ℤ → Option Cost := fun l =>
  if l ∈ linkIds x.g then
    (if used l then some ((x.vot * x.tt l * k + x.toll l : ℚ) : Cost) else freeCost x l)
  else none

/-- Is a link on a stored path?  (Over all pairs of the table.) -/
def onPath (x : Inst) (t : Table) (l : ℤ) : Bool :=
  x.origins.any fun o => x.dests.any fun d =>
    match t o.1 d.2 with
    | none => false
    | some ps => ps.any fun p => decide (l ∈ p.2)

/-- `path.cpp:640-662` (and `663-685`): store an alternative path unless it is null, known or too
short; `is_in` of a missing pair is undefined. -/
def storeNew (x : Inst) (t : Table) (o d : ℤ) (r : Option P) : Res Table :=
  match r with
  | none => .ok t
  | some p =>
    match t o d with
    | none => .ub
    | some ps =>
      if isIn ps p then .ok t
      else if pathLen x p > x.minLen then push t o d p
      else .ok t

/-- `path.cpp:627-686`: the alternatives for one pair. -/
def altPath (fuel : ℕ) (x : Inst) (d : ℕ × ℤ) (outM outH : ℤ → Option ℤ) (t : Table)
    (o : ℤ × (ℕ → Bool)) : Res Table :=
  if !o.2 d.1 then .ok t
  else
    (extractPath x.g d.2 outM fuel o.1).bind fun rm =>
      (extractPath x.g d.2 outH fuel o.1).bind fun rh =>
        (storeNew x t o.1 d.2 rm).bind fun t => storeNew x t o.1 d.2 rh

/-- State of the iterations: table, marked links, the two trees. -/
structure GenSt where
  t : Table
  used : ℤ → Bool
  mid : ℤ → Option ℤ
  heavy : ℤ → Option ℤ

/-- `path.cpp:596-689`: one iteration. -/
def genIter (fuel : ℕ) (x : Inst) (s : GenSt) : Res GenSt :=
  let used := fun l => s.used l || onPath x s.t l
  Res.foldlM (fun (s : GenSt) d =>
    (fifo fuel x.g d.2 (scaledCost x x.mid used) s.mid).bind fun rm =>
      (fifo fuel x.g d.2 (scaledCost x x.heavy used) s.heavy).bind fun rh =>
        (Res.foldlM (altPath fuel x d rm.out rh.out) s.t x.origins).bind fun t =>
          .ok { s with
            t := t
            mid := rm.out
            heavy := rh.out })
    { s with
      used := used } x.dests

/-- The `while` loop. -/
def genIters (fuel : ℕ) (x : Inst) : ℕ → GenSt → Res GenSt
  | 0, s => .ok s
  | n + 1, s => (genIter fuel x s).bind fun s => genIters fuel x n s

/-- `path.cpp:486-701` `build_pathset` (buffers are not modelled). -/
def buildPathset (fuel : ℕ) (x : Inst) (maxIter : ℕ) : Res Table :=
  (firstPaths fuel x).bind fun t =>
    (genIters fuel x maxIter ⟨t, fun _ => false, fun _ => none, fun _ => none⟩).bind fun s => .ok s.t

end Verif.Path

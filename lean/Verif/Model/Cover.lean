import Verif.Model.Path
import Verif.Model.Record

/-!
# Model of the generation of paths for uncovered links (`macposts/_ext/dta.cpp`, `macposts/_ext/mcdta.cpp`)

`generate_paths_to_cover_registered_links` of both network models and `generate_paths_to_cover_links` of the model with
two classes.  A path is its node and its link sequence.  Saving the path table (`Model/Tables.lean`) and the buffers of
paths are left out.
-/

namespace Verif.Cover
open Graph Sp Path

/-- What the generation reads of the network: the graph, the types of nodes (`MNM_DMOND`, `MNM_DMDND`), the node of
each origin with the nodes of the destinations in its demand (`m_demand`, `m_demand_car`), and the free-flow travel
times of links. -/
structure Inst where
  g : G
  isOrigin : ℤ → Bool
  isDest : ℤ → Bool
  origins : List (ℤ × List ℤ)
  tt : ℤ → ℚ

/-- Orders that are not determined by the code: iteration of the graph when it is reversed, and the shuffles of origins
and destinations for link `i` and iteration `k`. -/
structure Orc where
  nodes : List ℤ
  links : List ℤ
  origins : ℕ → ℕ → List (ℤ × List ℤ) → List (ℤ × List ℤ)
  dests : ℕ → ℕ → ℤ → List ℤ → List ℤ

/-- `mcdta.cpp:2492-2500`: `_cost_map`. -/
def cost (x : Inst) : ℤ → Option Cost := fun l => if l ∈ linkIds x.g then some ((x.tt l : ℚ) : Cost) else none

/-- `mcdta.cpp:2524-2558`: `_shortest_path_tree` and `_shortest_path_tree_reversed` for a link from `f` to `t`; `none`
is an empty map. -/
def trees (fuel : ℕ) (x : Inst) (rg : G) (f t : ℤ) : Res (Option (ℤ → Option ℤ) × Option (ℤ → Option ℤ)) :=
  (if x.isOrigin f then .ok none
    else (fifo fuel x.g f (cost x) fun _ => none).bind fun s => .ok (some s.out)).bind fun a =>
  (if x.isDest t then .ok none
    else (fifo fuel rg t (cost x) fun _ => none).bind fun s => .ok (some s.out)).bind fun b =>
  .ok (a, b)

/-- `find (..)->second` of a tree; the end iterator is dereferenced if there is no entry. -/
def entry (tree : Option (ℤ → Option ℤ)) (v : ℤ) : Res ℤ :=
  match tree with
  | none => .ub
  | some out =>
    match out v with
    | none => .ub
    | some l => .ok l

/-- `mcdta.cpp:2591-2608`: the loop over destinations for the origin at `o`. -/
def pickDest (a b : Option (ℤ → Option ℤ)) (o : ℤ) : List ℤ → Res (Option ℤ)
  | [] => .ok none
  | d :: ds =>
    (entry a o).bind fun x =>
      if x ≠ -1 then
        (entry b d).bind fun y => if y ≠ -1 then .ok (some d) else pickDest a b o ds
      else pickDest a b o ds

/-- `mcdta.cpp:2573-2613`: the loop over origins. -/
def pick (dests : ℤ → List ℤ → List ℤ) (a b : Option (ℤ → Option ℤ)) : List (ℤ × List ℤ) → Res (Option (ℤ × ℤ))
  | [] => .ok none
  | o :: os =>
    if o.2 = [] then pick dests a b os
    else
      (pickDest a b o.1 (dests o.1 o.2)).bind fun r =>
        match r with
        | some d => .ok (some (o.1, d))
        | none => pick dests a b os

/-- `mcdta.cpp:2623-2635`: one half of the path; a null pointer is dereferenced if there is no path. -/
def half (fuel : ℕ) (g : G) (tree : Option (ℤ → Option ℤ)) (u v : ℤ) : Res P :=
  match tree with
  | none => .ok ([v], [])
  | some out =>
    (extractPath g v out fuel u).bind fun r =>
      match r with
      | none => .ub
      | some p => .ok p

/-- `mcdta.cpp:2564-2649`: origin, destination and path for link `l`, given the trees for a link from `f` to `t`. -/
def findPath (fuel : ℕ) (x : Inst) (rg : G) (os : List (ℤ × List ℤ)) (dests : ℤ → List ℤ → List ℤ)
    (ab : Option (ℤ → Option ℤ) × Option (ℤ → Option ℤ)) (f t l : ℤ) : Res (Option (ℤ × ℤ × P)) :=
  (pick dests ab.1 ab.2 os).bind fun r =>
    match r with
    | none => .ok none
    | some (o, d) =>
      (half fuel x.g ab.1 o f).bind fun p =>
        (half fuel rg ab.2 d t).bind fun q =>
          .ok (some (o, d, (p.1 ++ q.1.reverse, p.2 ++ l :: q.2.reverse)))

/-- The path table, the registered paths and the flags or counters of links. -/
structure St (α : Type) where
  table : Table
  paths : List P
  marks : List α

/-- `mcdta.cpp:2515-2686`: the loop body for the registered link `l` at position `i`.  (The loop ends early when all
links are covered; then no later link would change anything.) -/
def coverOne (fuel : ℕ) (x : Inst) (orc : Orc) (rg : G) (links : List ℤ) (s : St Bool) (il : ℕ × ℤ) :
    Res (St Bool) :=
  if s.marks.getD il.1 true then .ok s
  else
    (getEndpoints x.g il.2).bind fun e =>
      (trees fuel x rg e.1 e.2).bind fun ab =>
        (findPath fuel x rg (orc.origins il.1 0 x.origins) (orc.dests il.1 0) ab e.1 e.2 il.2).bind fun r =>
          match r with
          | none => .ok s
          | some (o, d, p) =>
            (push s.table o d p).bind fun t =>
              .ok ⟨t, s.paths ++ [p], List.zipWith (fun m l => if m then m else Rec.isLinkIn p.2 l)
                (s.marks.set il.1 true) links⟩

/-- `mcdta.cpp:2467-2713` and `dta.cpp:1363-1605` `generate_paths_to_cover_registered_links`; `strict` is true for the
model with one class, which throws when links remain uncovered (the path table has been changed then, but is not
saved; the state is given up here).  The first component of the result tells whether the table was updated. -/
def coverRegistered (strict : Bool) (fuel : ℕ) (x : Inst) (orc : Orc) (links : List ℤ) (table : Table)
    (paths : List P) : Res (Bool × St Bool) :=
  let flags := Rec.covered (paths.map (·.2)) links
  if flags.all id then .ok (false, ⟨table, paths, flags⟩)
  else
    (reverseGraph x.g orc.nodes orc.links).bind fun rg =>
      (Res.foldlM (coverOne fuel x orc rg links) ⟨table, paths, flags⟩ (List.range links.length |>.zip links)).bind
        fun s =>
          if strict && !s.marks.all id then .throw "failed when generate paths to cover registered links"
          else .ok (true, s)

/-- `mcdta.cpp:2803-2917`: iteration `k` for the link `l` at position `i`. -/
def coverAgain (fuel : ℕ) (x : Inst) (orc : Orc) (rg : G) (links : List ℤ) (i : ℕ) (l : ℤ) (e : ℤ × ℤ)
    (ab : Option (ℤ → Option ℤ) × Option (ℤ → Option ℤ)) (s : St ℕ) (k : ℕ) : Res (St ℕ) :=
  (findPath fuel x rg (orc.origins i k x.origins) (orc.dests i k) ab e.1 e.2 l).bind fun r =>
    match r with
    | none => .ok s
    | some (o, d, p) =>
      match s.table o d with
      | none => .ub
      | some ps =>
        if isIn ps p then .ok s
        else
          (push s.table o d p).bind fun t =>
            .ok ⟨t, s.paths ++ [p], (s.marks.zip links).mapIdx fun j ml =>
              if j = i ∨ Rec.isLinkIn p.2 ml.2 then ml.1 + 1 else ml.1⟩

/-- `mcdta.cpp:2762-2918`: the loop body for the link `l` at position `i`; the trees are those of the registered link at
this position. -/
def coverMany (fuel : ℕ) (x : Inst) (orc : Orc) (rg : G) (registered links : List ℤ) (maxIter : ℕ) (s : St ℕ)
    (il : ℕ × ℤ) : Res (St ℕ) :=
  match registered[il.1]? with
  | none => .ub
  | some r =>
    (getEndpoints x.g r).bind fun e =>
      (trees fuel x rg e.1 e.2).bind fun ab =>
        Res.foldlM (coverAgain fuel x orc rg links il.1 il.2 e ab) s (List.range maxIter)

/-- `mcdta.cpp:2715-2934` `generate_paths_to_cover_links`. -/
def coverLinks (fuel : ℕ) (x : Inst) (orc : Orc) (registered links : List ℤ) (maxIter : ℕ) (table : Table)
    (paths : List P) : Res (St ℕ) :=
  (reverseGraph x.g orc.nodes orc.links).bind fun rg =>
    Res.foldlM (coverMany fuel x orc rg registered links maxIter) ⟨table, paths, links.map fun _ => 0⟩
      (List.range links.length |>.zip links)

end Verif.Cover

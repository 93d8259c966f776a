import Verif.Model.Cover

/-!
# Model of the coverage of registered bus and walking links (`macposts/_ext/mmdta.cpp`)

`check_registered_links_in_registered_paths_driving`, `..._bus`, `..._walking` (with the functions
`are_registered_links_in_registered_paths_*` that return their results) and
`generate_paths_to_cover_registered_links_bus_walking`.  A path is its node and its link sequence.  Saving the path
tables, buffers of paths and printing are left out.
-/

namespace Verif.MmCover
open Graph Sp Path Cover

/-- A park-and-ride path: `m_driving_path` and `m_transit_path`. -/
structure Pnr where
  drive : P
  transit : P
  deriving DecidableEq

/-- `multimodal.cpp:5284-5289` `MNM_PnR_Path::is_link_in` asks both paths: the links it looks through. -/
def Pnr.links (q : Pnr) : List ℤ := q.drive.2 ++ q.transit.2

/-- `mmdta.cpp:2144-2209` `check_registered_links_in_registered_paths_driving`: the same loop as for two classes, over the
driving paths. -/
def checkDriving (paths : List P) (links : List ℤ) : List Bool := Rec.covered (paths.map (·.2)) links

/-- `mmdta.cpp:2211-2275` `check_registered_links_in_registered_paths_bus` and `2277-2343` `..._walking`: the bus transit
paths, then, if a link is left, the park-and-ride paths. -/
def check (paths : List P) (pnrs : List Pnr) (links : List ℤ) : List Bool :=
  let flags := Rec.coverLoop links (paths.map (·.2)) (links.map fun _ => false)
  if flags.any (!·) then Rec.coverLoop links (pnrs.map Pnr.links) flags else flags

/-- What the generation reads of the network: the driving graph `m_graph`, the graph `m_bus_transit_graph`, the node of
each origin with the destinations in `m_demand_passenger_bus`, the same with the destinations in `m_demand_pnr_car` and
the nodes of their `m_connected_pnr_parkinglot_vec`, and `m_fftt` of the transit links. -/
structure Inst where
  drive : G
  transit : G
  bus : List (ℤ × List ℤ)
  pnr : List (ℤ × List (ℤ × List ℤ))
  fftt : ℤ → ℚ

/-- `_cost_map`, `mmdta.cpp:2708-2713`. -/
def cost (x : Inst) : ℤ → Option Cost := fun l => if l ∈ linkIds x.transit then some ((x.fftt l : ℚ) : Cost) else none

/-- Orders that are not determined by the code: iteration of the graph when it is reversed; for the loop over bus links
(`true`) or walking links and link `i`, the shuffles. -/
structure Orc where
  nodes : List ℤ
  links : List ℤ
  bus : Bool → ℕ → List (ℤ × List ℤ) → List (ℤ × List ℤ)
  busDests : Bool → ℕ → ℤ → List ℤ → List ℤ
  pnr : Bool → ℕ → List (ℤ × List (ℤ × List ℤ)) → List (ℤ × List (ℤ × List ℤ))
  pnrDests : Bool → ℕ → ℤ → List (ℤ × List ℤ) → List (ℤ × List ℤ)

/-- `mmdta.cpp:2744-2782`: the trees for a link from `f` to `t`; `none` is an empty map.  (For the second tree the links
that leave `f` are looked at.) -/
def trees (fuel : ℕ) (x : Inst) (rg : G) (f t : ℤ) : Res (Option (ℤ → Option ℤ) × Option (ℤ → Option ℤ)) :=
  (connections fuel x.transit f .inc).bind fun cs =>
  (if cs = [] then .ok none
    else (fifo fuel x.transit f (cost x) fun _ => none).bind fun s => .ok (some s.out)).bind fun a =>
  (connections fuel x.transit f .out).bind fun ds =>
  (if ds = [] then .ok none
    else (fifo fuel rg t (cost x) fun _ => none).bind fun s => .ok (some s.out)).bind fun b =>
  .ok (a, b)

/-- `mmdta.cpp:2864-2884`: the loop over the parking lots of a destination `d`. -/
def pickLot (a b : Option (ℤ → Option ℤ)) (d : ℤ) : List ℤ → Res (Option ℤ)
  | [] => .ok none
  | n :: ns =>
    (entry a n).bind fun x =>
      if x ≠ -1 then (entry b d).bind fun y => if y ≠ -1 then .ok (some n) else pickLot a b d ns
      else pickLot a b d ns

/-- `mmdta.cpp:2859-2890`: the loop over destinations. -/
def pickPnrDest (a b : Option (ℤ → Option ℤ)) : List (ℤ × List ℤ) → Res (Option (ℤ × ℤ))
  | [] => .ok none
  | d :: ds =>
    (pickLot a b d.1 d.2).bind fun r =>
      match r with
      | some n => .ok (some (n, d.1))
      | none => pickPnrDest a b ds

/-- `mmdta.cpp:2839-2896`: the loop over origins for a park-and-ride path. -/
def pickPnr (dests : ℤ → List (ℤ × List ℤ) → List (ℤ × List ℤ)) (a b : Option (ℤ → Option ℤ)) :
    List (ℤ × List (ℤ × List ℤ)) → Res (Option (ℤ × ℤ × ℤ))
  | [] => .ok none
  | o :: os =>
    if o.2 = [] then pickPnr dests a b os
    else
      (pickPnrDest a b (dests o.1 o.2)).bind fun r =>
        match r with
        | some q => .ok (some (o.1, q))
        | none => pickPnr dests a b os

/-- The path table of passengers, the registered paths, and the flags of bus and walking links. -/
structure St where
  table : Table
  paths : List P
  bus : List Bool
  walk : List Bool

/-- The flags of a list of links after a path has been added, `mmdta.cpp:3007-3041`. -/
def note (p : P) (links : List ℤ) (flags : List Bool) : List Bool :=
  List.zipWith (fun m l => if m then m else Rec.isLinkIn p.2 l) flags links

/-- `mmdta.cpp:2731-3050` (bus links) and `3066-3368` (walking links): the loop body for the registered link `l` at
position `i`.  The endpoints are looked up in the driving graph.  A new bus transit path updates the flags of both kinds
in the loop over bus links, those of walking links only in the other one.  A park-and-ride path keeps pointers to its
two halves, which are deleted right away (`2989-2990`, `3324-3325`); they are read by `is_link_in` or when the table is
saved, and deleted again with the table: the run is undefined (what happens before that is left out). -/
def coverOne (fuel : ℕ) (x : Inst) (orc : Orc) (rg : G) (buses walks : List ℤ) (isBus : Bool) (s : St) (il : ℕ × ℤ) :
    Res St :=
  if (if isBus then s.bus else s.walk).getD il.1 true then .ok s
  else
    (getEndpoints x.drive il.2).bind fun e =>
      (trees fuel x rg e.1 e.2).bind fun ab =>
        (pick (orc.busDests isBus il.1) ab.1 ab.2 (orc.bus isBus il.1 x.bus)).bind fun r =>
          match r with
          | some (o, d) =>
            (half fuel x.transit ab.1 o e.1).bind fun p =>
              (half fuel rg ab.2 d e.2).bind fun q =>
                let w : P := (p.1 ++ q.1.reverse, p.2 ++ il.2 :: q.2.reverse)
                (push s.table o d w).bind fun t =>
                  if isBus then
                    .ok ⟨t, s.paths ++ [w], note w buses (s.bus.set il.1 true), note w walks s.walk⟩
                  else .ok ⟨t, s.paths ++ [w], s.bus, note w walks (s.walk.set il.1 true)⟩
          | none =>
            (pickPnr (orc.pnrDests isBus il.1) ab.1 ab.2 (orc.pnr isBus il.1 x.pnr)).bind fun r =>
              match r with
              | some _ => .ub
              | none => .ok s

/-- `mmdta.cpp:2657-3425` `generate_paths_to_cover_registered_links_bus_walking`: whether the tables were updated, and the
state. -/
def generate (fuel : ℕ) (x : Inst) (orc : Orc) (buses walks : List ℤ) (table : Table) (paths : List P)
    (pnrs : List Pnr) : Res (Bool × St) :=
  let s : St := ⟨table, paths, check paths pnrs buses, check paths pnrs walks⟩
  if s.bus.all id && s.walk.all id then .ok (false, s)
  else
    (reverseGraph x.transit orc.nodes orc.links).bind fun rg =>
      (Res.foldlM (coverOne fuel x orc rg buses walks true) s ((List.range buses.length).zip buses)).bind fun s =>
        (Res.foldlM (coverOne fuel x orc rg buses walks false) s ((List.range walks.length).zip walks)).bind fun s =>
          .ok (true, s)

end Verif.MmCover

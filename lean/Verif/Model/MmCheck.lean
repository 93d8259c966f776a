import Verif.Model.Check

/-!
# Model of `MNM_Dta_Multimodal::is_ok` (`multimodal.cpp:10259-10411`)

What `check_input_files` of the Python interface answers for a multimodal scenario.  The checks of the driving network, of the
connectivity and of the bus paths are arguments (see `Model/Check.lean`, `Model/MmConn.lean`); printing is left out.
-/

namespace Verif.MmChk
open Graph Chk

/-- `MNM_Origin_Multimodal`: the node, whether there is bus demand, the number of walking links that leave. -/
structure MOrigin where
  node : ℤ
  bus : Bool
  walks : ℕ

/-- `MNM_Destination_Multimodal`: the node, the number of walking links that enter, and of walking links that leave the parking
lot if there is one. -/
structure MDest where
  node : ℤ
  walks : ℕ
  lot : Option ℕ

/-- The class of a bus stop: physical, with the numbers of virtual stops and of alighting and boarding links; virtual, with the
physical stop and the bus links that enter and leave; or neither. -/
inductive StopKind
  | physical (virt alight board : ℕ)
  | virtual (phys busIn busOut : Option ℤ)
  | other

/-- `MNM_Busstop`: number, driving link and class. -/
structure Stop where
  id : ℤ
  link : ℤ
  kind : StopKind

/-- What was read: the transit graph, the numbers of the configuration, and the objects in the order of the maps. -/
structure TScn where
  g : G
  numPhys : ℤ
  numVirt : ℤ
  numBus : ℤ
  numWalk : ℤ
  numO : ℤ
  numD : ℤ
  links : ℕ
  origins : List MOrigin
  dests : List MDest
  stops : List Stop

/-- Whether links leave and whether links enter a node. -/
def conns (g : G) (n : ℤ) : Res (Bool × Bool) :=
  (getNode g n).bind fun _ =>
    (connections (sizeLinks g + 1) g n .out).bind fun o => (connections (sizeLinks g + 1) g n .inc).bind fun i =>
      .ok (!o.isEmpty, !i.isEmpty)

/-- `multimodal.cpp:10306-10324`: one origin. -/
def originOk (g : G) (flag : Bool) (o : MOrigin) : Res Bool :=
  if o.bus then
    let f := flag && decide (o.node ∈ nodeIds g)
    (conns g o.node).bind fun c => .ok (f && c.1 && !c.2 && decide (o.walks ≠ 0))
  else .ok flag

/-- `multimodal.cpp:10331-10349`: one destination. -/
def destOk (g : G) (flag : Bool) (d : MDest) : Res Bool :=
  if d.walks ≠ 0 ∨ d.lot.getD 0 ≠ 0 then
    let f := flag && decide (d.node ∈ nodeIds g)
    (conns g d.node).bind fun c => .ok (f && !c.1 && c.2)
  else .ok flag

/-- `multimodal.cpp:10367-10390`: the parts of a bus stop. -/
def kindOk : StopKind → Bool
  | .physical v a b => decide (v ≠ 0) && decide (a ≠ 0) && decide (b ≠ 0)
  | .virtual p i o => p.isSome && (i.isSome || o.isSome)
  | .other => false

/-- `multimodal.cpp:10356-10391`: one bus stop. -/
def stopOk (g : G) (flag : Bool) (s : Stop) : Res Bool :=
  let f := flag && decide (s.link ≠ -1)
  (conns g s.id).bind fun c => .ok (f && c.1 && c.2 && kindOk s.kind)

/-- `multimodal.cpp:10259-10411` `is_ok`; `drive`, `conn` and `table` are what `MNM_Dta::is_ok`, `check_bus_transit_connectivity` and
`check_bus_path_table` answer. -/
def isOk (drive conn table : Res Bool) (c : TScn) : Res Bool :=
  drive.bind fun f0 =>
    let f1 := decide (c.numPhys + c.numVirt ≤ (sizeNodes c.g : ℤ)) && decide (c.stops.length ≤ sizeNodes c.g)
    let f2 := decide ((sizeLinks c.g : ℤ) = c.numBus + c.numWalk) && decide (sizeLinks c.g = c.links)
    let f3 := decide ((c.origins.length : ℤ) = c.numO) && decide ((c.dests.length : ℤ) = c.numD)
    (Res.foldlM (originOk c.g) f3 c.origins).bind fun f4 => (Res.foldlM (destOk c.g) f4 c.dests).bind fun f5 =>
      (Res.foldlM (stopOk c.g) f5 c.stops).bind fun f6 => conn.bind fun f7 => table.bind fun f8 =>
        .ok (f0 && f1 && f2 && f4 && f5 && f6 && f7 && f8)

end Verif.MmChk

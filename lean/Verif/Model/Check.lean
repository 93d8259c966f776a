import Verif.Model.ShortestPath

/-!
# Model of `MNM_Dta::is_ok` (`dta.cpp:386-459`) and `check_origin_destination_connectivity` (`dta.cpp:461-495`)

What `check_input_files` of the Python interface answers after the files were read.  Printing is left out.
-/

namespace Verif.Chk
open Graph Sp

/-- What was read: the graph; `num_of_node`, `num_of_link`, `num_of_O`, `num_of_D` of the configuration; the number of nodes and
the links of the factories; the nodes of the origins and of the destinations in the order of the maps. -/
structure Scn where
  g : G
  numNode : ℤ
  numLink : ℤ
  numO : ℤ
  numD : ℤ
  nodes : ℕ
  links : List ℤ
  origins : List ℤ
  dests : List ℤ

/-- `dta.cpp:424-432` (`src` is true) and `435-443`: one origin or destination.  The connections are asked for also when the
flag is false already, which changes nothing because the node exists. -/
def endOk (g : G) (src : Bool) (flag : Bool) (n : ℤ) : Res Bool :=
  (getNode g n).bind fun _ =>
    (connections (sizeLinks g + 1) g n .out).bind fun o => (connections (sizeLinks g + 1) g n .inc).bind fun i =>
      .ok (flag && (if src then !o.isEmpty && i.isEmpty else o.isEmpty && !i.isEmpty))

/-- `dta.cpp:482-491`: the origins, for one tree; a missing entry is the end iterator. -/
def reach (out : ℤ → Option ℤ) : List ℤ → Res Bool
  | [] => .ok true
  | o :: os =>
    match out o with
    | none => .ub
    | some l => if l = -1 then .ok false else reach out os

/-- `dta.cpp:475-493`: the destinations; the tree is handed on. -/
def connected (fuel : ℕ) (g : G) (cost : ℤ → Option Cost) (origins : List ℤ) : List ℤ → (ℤ → Option ℤ) → Res Bool
  | [], _ => .ok true
  | d :: ds, out =>
    (fifo fuel g d cost out).bind fun s => (reach s.out origins).bind fun b =>
      if b then connected fuel g cost origins ds s.out else .ok false

/-- `dta.cpp:386-459` `is_ok`. -/
def isOk (fuel : ℕ) (c : Scn) : Res Bool :=
  let f1 := decide ((sizeNodes c.g : ℤ) = c.numNode) && decide (sizeNodes c.g = c.nodes)
  let f2 := decide ((sizeLinks c.g : ℤ) = c.numLink) && decide (sizeLinks c.g = c.links.length)
  let f3 := decide ((c.origins.length : ℤ) = c.numO) && decide ((c.dests.length : ℤ) = c.numD)
  (Res.foldlM (endOk c.g true) f3 c.origins).bind fun f4 => (Res.foldlM (endOk c.g false) f4 c.dests).bind fun f5 =>
    (connected fuel c.g (fun l => if l ∈ c.links then some 1 else none) c.origins c.dests fun _ => none).bind fun f6 =>
      .ok (f1 && f2 && f5 && f6)

end Verif.Chk

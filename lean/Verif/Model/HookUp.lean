import Mathlib.Data.Int.Notation
import Verif.Model.Graph

/-!
# Model of `hook_up_node_and_link` (`dta.cpp:347-384`, and `realtime_dta.cpp:791-828`, which is the same)

After the files were read the nodes are told their links and the links their nodes.  Exceptions are all written
`runtime_error`; printing is left out.
-/

namespace Verif.Hook
open Graph

/-- The classes of nodes: `MNM_DMOND`, `MNM_DMDND`, `MNM_Dnode_Inout` (also the one for two classes of vehicles) and
`MNM_Charging_Station`. -/
inductive Kind
  | origin
  | dest
  | inout
  | station
  deriving DecidableEq

/-- What was read: the graph, the nodes and links of the factories, the class of a node and whether a link is a point queue. -/
structure Net where
  g : G
  nodes : List ℤ
  links : List ℤ
  kind : ℤ → Kind
  pq : ℤ → Bool

/-- `m_out_link_array` and `m_in_link_array` of the nodes; `m_from_node` and `m_to_node` of the links. -/
structure St where
  outs : ℤ → List ℤ
  ins : ℤ → List ℤ
  ends : ℤ → Option (ℤ × ℤ)

/-- `dnode.cpp:111-116, 466-470`, `multiclass.cpp:2780-2784`, `ev_traffic.cpp:517-530` `add_out_link`; a destination has the
function of the base class, which only prints (`dnode.h:29-33`). -/
def addOut (N : Net) (n : ℤ) (ls : List ℤ) (l : ℤ) : Res (List ℤ) :=
  match N.kind n with
  | .dest => .ok ls
  | .station => if N.pq l then .ok (ls ++ [l]) else .throw "runtime_error"
  | _ => .ok (ls ++ [l])

/-- `dnode.cpp:144-148, 473-477`, `multiclass.cpp:2787-2791`, `ev_traffic.cpp:502-515` `add_in_link`; an origin has the function
of the base class, which only prints (`dnode.h:34-38`). -/
def addIn (N : Net) (n : ℤ) (ls : List ℤ) (l : ℤ) : Res (List ℤ) :=
  match N.kind n with
  | .origin => .ok ls
  | .station => if N.pq l then .ok (ls ++ [l]) else .throw "runtime_error"
  | _ => .ok (ls ++ [l])

/-- `factory.cpp:192-202` `get_link`, then `add`. -/
def withLink (N : Net) (add : List ℤ → ℤ → Res (List ℤ)) (ls : List ℤ) (l : ℤ) : Res (List ℤ) :=
  if l ∈ N.links then add ls l else .throw "runtime_error"

/-- `dta.cpp:355-369`: one node; `factory.cpp:113-124` `get_node`. -/
def hookNode (N : Net) (s : St) (n : ℤ) : Res St :=
  if n ∈ N.nodes then
    (connections (sizeLinks N.g + 1) N.g n .out).bind fun os => (Res.foldlM (withLink N (addOut N n)) (s.outs n) os).bind fun o =>
      (connections (sizeLinks N.g + 1) N.g n .inc).bind fun is => (Res.foldlM (withLink N (addIn N n)) (s.ins n) is).bind fun i =>
        .ok { s with
          outs := upd s.outs n o
          ins := upd s.ins n i }
  else .throw "runtime_error"

/-- `dta.cpp:373-381`: one link; `dlink.cpp:56-62` `hook_up_node`. -/
def hookLink (N : Net) (s : St) (l : ℤ) : Res St :=
  if l ∈ N.links then
    (getEndpoints N.g l).bind fun e =>
      if e.1 ∈ N.nodes ∧ e.2 ∈ N.nodes then .ok { s with ends := upd s.ends l (some (e.1, e.2)) } else .throw "runtime_error"
  else .throw "runtime_error"

/-- `dta.cpp:347-384` `hook_up_node_and_link`. -/
def hookUp (N : Net) (s : St) : Res St :=
  (Res.foldlM (hookNode N) s (nodeIds N.g)).bind fun s1 => Res.foldlM (hookLink N) s1 (linkIds N.g)

end Verif.Hook

import Verif.Model.Net
import Verif.Model.Tables

/-!
# Model of the trees of cumulative curves during the loading

`dnode.cpp` `MNM_Dnode_Inout::move_vehicle`, `cc_tree.cpp`.
-/

namespace Verif.Net
open Ults Curve Tab

/-- `dlink.h` `m_N_in_tree`, `m_N_out_tree` of every link, null unless installed. -/
structure Forest where
  inT : ℕ → Option Tree
  outT : ℕ → Option Tree

/-- The key of a path in a tree: the pointer `m_path`, null for a vehicle without path (`vehicle.cpp:3-19`). -/
def pathKey : Option ℕ → ℤ
  | none => -1
  | some p => p

/-- `dnode.cpp:421-428` or `429-436` for one tree: `add_flow (timestamp + 1, 1 / m_flow_scalar, m_path,
m_assign_interval)` unless the tree is null. -/
def treeFlow (scalar : ℚ) (ts : ℕ) (v : Veh) : Option Tree → Res (Option Tree)
  | none => .ok none
  | some tr => (addFlow tr ((ts : ℚ) + 1) (1 / scalar) (pathKey v.path) v.assign).bind fun tr' => .ok (some tr')

/-- `dnode.cpp:421-436` for one vehicle: the in-tree of the out link, then the out-tree of the in link.  Origin
nodes (`dnode.cpp:36-108`) and destination nodes (`dnode.cpp:150-181`) leave all trees alone. -/
def treeMove (scalar : ℚ) (vehs : ℕ → Veh) (f : Forest) (e : Event) : Res Forest :=
  match e.src, e.dst with
  | some i, some o =>
    (treeFlow scalar e.t (vehs e.veh) (f.inT o)).bind fun a =>
      (treeFlow scalar e.t (vehs e.veh) (f.outT i)).bind fun b =>
        .ok ⟨upd f.inT o a, upd f.outT i b⟩
  | _, _ => .ok f

/-- `loadOnce` of `Model.Net` together with the trees.  The code updates the trees while the vehicles move;
moving does not read them, nor does it change the path and assignment interval of a vehicle, so here the
movements of the node phase are gone through again, in the order in which they happened. -/
def loadOnceT (c : Cfg) (o : StepOracle) (ts assign : ℕ) (s : State × Forest) : Res (State × Forest) :=
  (stepRelease c o ts assign s.1).bind fun s1 =>
    (o.routing.update c o.route s1).bind fun s2 =>
      (stepNodes c o ts s2).bind fun s3 =>
        (Res.foldlM (treeMove c.scalar s3.vehs) s.2 (s3.log.drop s2.log.length)).bind fun f =>
          (Res.foldlM (linkStep o) s3 c.linkIds).bind fun s4 =>
            (Res.foldlM (receive c ts) s4 c.destIds).bind fun s5 => .ok (s5, f)

/-- `loadMany` of `Model.Net` together with the trees. -/
def loadManyT (c : Cfg) : List StepOracle → ℕ → ℕ → State × Forest → Res ((State × Forest) × ℕ × ℕ)
  | [], ts, assign, s => .ok (s, ts, assign)
  | o :: os, ts, assign, s =>
    (loadOnceT c o ts assign s).bind fun s =>
      loadManyT c os (ts + 1) (if (ts + 1) % c.assignFreq = 0 then assign + 1 else assign) s

/-- `dlink.cpp` `install_cumulative_curve_tree` on the links in `ls`. -/
def plant (ls : List ℕ) : Forest :=
  ⟨fun l => if l ∈ ls then some [] else none, fun l => if l ∈ ls then some [] else none⟩

end Verif.Net

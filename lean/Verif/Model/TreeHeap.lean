import Verif.Basic
import Mathlib.Data.Rat.Defs

/-!
# Model of the life of the trees of cumulative curves

`dlink.cpp`, `multiclass.cpp`, `multimodal.cpp` `install_cumulative_curve_tree` and the destructors of links.
-/

namespace Verif.TH

/-- The kinds of links: `MNM_Dlink`, `MNM_Dlink_Multiclass`, `MNM_Walking_Link` and `MNM_Bus_Link`. -/
inductive Kind where
  | single
  | twoClass
  | walking
  | bus
deriving DecidableEq

/-- The tree pointers of a link.  `MNM_Dlink` and `MNM_Transit_Link`: `inA` is `m_N_in_tree`, `outA` is `m_N_out_tree`.
`MNM_Dlink_Multiclass`: `inA`, `outA` are those of cars, `inB`, `outB` those of trucks (`m_N_in_tree_car` and so on; its
inherited pointers stay null).  `MNM_Bus_Link`: `inA`, `outA` are those of passengers, `inB` is `m_N_in_tree_bus`, `outB` is
`m_N_out_tree_bus`. -/
inductive Slot where
  | inA
  | outA
  | inB
  | outB
deriving DecidableEq

/-- An argument list of `MNM_Tree_Cumulative_Curve::add_flow` (`cc_tree.cpp`): time, flow, path, departure interval. -/
abbrev Item := ℚ × ℚ × ℤ × ℤ

/-- The pointers and the memory.  An address without tree was not allocated or was freed.  Of a tree only the flows added
to it are kept (`Model.Tables` says what the tree makes of them). -/
structure State where
  ptr : ℕ → Slot → Option ℕ
  heap : ℕ → Option (List Item)
  next : ℕ

/-- `dlink.cpp:28-34`, `multiclass.cpp:14-44`, `multimodal.cpp:3326-3330, 3406-3409`: the constructors leave all tree pointers
null. -/
def State.init : State := ⟨fun _ _ => none, fun _ => none, 0⟩

/-- `if (p != nullptr) delete p`: freeing freed memory is undefined.  The pointer stays what it is. -/
def del (p : Option ℕ) (s : State) : Res State :=
  match p with
  | none => .ok s
  | some a => match s.heap a with
    | none => .ub
    | some _ => .ok { s with heap := upd s.heap a none }

/-- Delete the trees of several pointers, one after the other. -/
def dels (l : ℕ) (sls : List Slot) (s : State) : Res State := Res.foldlM (fun s sl => del (s.ptr l sl) s) s sls

/-- `p = new MNM_Tree_Cumulative_Curve ()`. -/
def alloc (l : ℕ) (sl : Slot) (s : State) : State :=
  { ptr := upd s.ptr l (upd (s.ptr l) sl (some s.next)), heap := upd s.heap s.next (some []), next := s.next + 1 }

/-- `dlink.cpp:82-96` `MNM_Dlink::install_cumulative_curve_tree`, `multiclass.cpp:113-132`
`MNM_Dlink_Multiclass::install_cumulative_curve_tree_multiclass`, `multimodal.cpp:3371-3385`
`MNM_Transit_Link::install_cumulative_curve_tree`, `multimodal.cpp:3425-3456` `MNM_Bus_Link::install_cumulative_curve_tree`. -/
def install (kind : ℕ → Kind) (l : ℕ) (s : State) : Res State :=
  match kind l with
  | .single => (dels l [.inA, .outA] s).bind fun s => .ok (alloc l .outA (alloc l .inA s))
  | .twoClass => (dels l [.outA, .inA, .outB, .inB] s).bind fun s => .ok (alloc l .inB (alloc l .inA s))
  | .walking => (dels l [.inA, .outA] s).bind fun s => .ok (alloc l .inA s)
  | .bus =>
    (dels l [.inA, .outA] s).bind fun s =>
      let s := alloc l .inA s
      (if s.ptr l .inB ≠ none then del (s.ptr l .inA) s else .ok s).bind fun s =>
        (if s.ptr l .outB ≠ none then del (s.ptr l .outA) s else .ok s).bind fun s =>
          .ok (alloc l .inB s)

/-- `if (tree != nullptr) tree->add_flow (…)` (`dnode.cpp:421-436` and the like): using freed memory is undefined. -/
def flow (l : ℕ) (sl : Slot) (x : Item) (s : State) : Res State :=
  match s.ptr l sl with
  | none => .ok s
  | some a => match s.heap a with
    | none => .ub
    | some h => .ok { s with heap := upd s.heap a (some (h ++ [x])) }

/-- `dlink.cpp:36-48`, `multiclass.cpp:46-64`, `multimodal.cpp:3338-3352, 3415-3423`: the destructors. -/
def destroy (kind : ℕ → Kind) (l : ℕ) (s : State) : Res State :=
  match kind l with
  | .single => dels l [.inA, .outA] s
  | .twoClass => dels l [.outA, .inA, .outB, .inB] s
  | .walking => dels l [.inA, .outA] s
  | .bus => dels l [.inB, .outB, .inA, .outA] s

/-- What happens to links while they exist. -/
inductive Op where
  | install (l : ℕ)
  | flow (l : ℕ) (sl : Slot) (x : Item)
deriving DecidableEq

/-- One of these. -/
def step (kind : ℕ → Kind) (s : State) : Op → Res State
  | .install l => install kind l s
  | .flow l sl x => flow l sl x s

/-- Many of these. -/
def run (kind : ℕ → Kind) (s : State) (ops : List Op) : Res State := Res.foldlM (step kind) s ops

/-- The links are destroyed. -/
def destroyAll (kind : ℕ → Kind) (s : State) (ls : List ℕ) : Res State := Res.foldlM (fun s l => destroy kind l s) s ls

end Verif.TH

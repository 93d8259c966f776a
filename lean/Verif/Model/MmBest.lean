import Verif.Model.MmDue
import Verif.Model.ShortestPath
import Verif.Model.Path
import Verif.Model.Ults

/-!
# Model of the search for the best new passenger path, `src/multimodal.cpp` `MNM_MM_Due::get_best_path`

The equilibrium with column generation asks, for one origin-destination pair, the time-dependent trees of the
driving and the transit network for a path per departure interval (and parking lot), wraps it into a passenger
path, computes its disutility and keeps the cheapest; the others are deleted.  The model keeps the objects that are
alive, and what each of them deletes in its destructor.

The travel cost of a passenger path and the demand of a mode are arguments (`MmCost` and `Logit` model them).  Costs
are exact or infinite.  The assertions are compiled out.
-/

namespace Verif.MmBest

open MmDue

/-- The objects of the search: an `MNM_Path`; an `MNM_PnR_Path` with its two paths (`multimodal.cpp:5246-5257`); a
passenger path of driving or transit with its `m_path` (`11541-11564, 11806-11826`); a passenger path of
park-and-ride with its `m_path`, `m_driving_part` and `m_bus_part` (`12150-12178`). -/
inductive Obj where
  | plain
  | pair (drive bus : ℕ)
  | one (path : ℕ)
  | pnr (path drive bus : ℕ)
deriving DecidableEq, Repr

/-- Living objects by address, and the next free address. -/
structure Heap where
  objs : ℕ → Option Obj := fun _ => none
  next : ℕ := 0

/-- `new`. -/
def Heap.alloc (h : Heap) (o : Obj) : Heap := { objs := upd h.objs h.next (some o), next := h.next + 1 }

/-- The memory of an object is given back. -/
def Heap.drop (h : Heap) (i : ℕ) : Heap := { h with objs := upd h.objs i none }

/-- `delete`: the destructors run first, `path.cpp:22-33`, `multimodal.cpp:5255-5259` (`~MNM_PnR_Path`), `11529`
(`~MNM_Passenger_Path_Base`), `11566`, `11828`, `12180-12186` (`~MNM_Passenger_Path_PnR`, before that of the base).
Deleting what is not alive is undefined.  The number bounds the depth of the recursion. -/
def del : ℕ → Heap → ℕ → Res Heap
  | 0, _, _ => .diverge
  | n + 1, h, i =>
    match h.objs i with
    | none => .ub
    | some .plain => .ok (h.drop i)
    | some (.pair d b) => (del n h d).bind fun h => (del n h b).bind fun h => .ok (h.drop i)
    | some (.one p) => (del n h p).bind fun h => .ok (h.drop i)
    | some (.pnr p d b) =>
      (del n h d).bind fun h => (del n h b).bind fun h => (del n h p).bind fun h => .ok (h.drop i)

/-- The depth of the destructors. -/
def depth : ℕ := 4

/-- A parking lot for park and ride: its number and its node. -/
structure Lot where
  id : ℤ
  node : ℤ

/-- What the search reads: the two networks (graph, number of intervals of its trees, tree by destination, travel
times of links), origin and destination, parking lot of the destination, connected parking lots and their cruising
times, travel cost by path and interval, disutility of a mode by cost and demand, demand by mode and assignment
interval, `assign_frq`, `m_total_assign_inter` (positive), `m_total_loading_inter`. -/
structure Env where
  fuel : ℕ
  g : Graph.G
  gBus : Graph.G
  M : ℕ
  mBus : ℕ
  tree : ℤ → Sp.Tree
  treeBus : Sp.Tree
  tt : ℤ → Option (ℕ → ℚ)
  ttBus : ℤ → Option (ℕ → ℚ)
  o : ℤ
  d : ℤ
  lot : Option ℤ
  lots : List Lot
  cruise : ℤ → ℤ → ℚ
  travel : Route → ℕ → Sp.Cost
  dis : Mode → Sp.Cost → ℚ → Sp.Cost
  demand : Mode → ℕ → ℚ
  frq : ℕ
  assign : ℕ
  loading : ℕ

/-- The cost of a passenger path that departs at `i`, `multimodal.cpp:18868-18880, 18937-18949, 19063-19076`: the
demand is that of its assignment interval, or of the last one.  Division by zero is undefined. -/
def Env.price (e : Env) (r : Route) (i : ℕ) : Res Sp.Cost :=
  if e.frq = 0 then .ub
  else
    let a := i / e.frq
    .ok (e.dis r.mode (e.travel r i) (e.demand r.mode (if a ≥ e.assign then e.assign - 1 else a)))

/-- A new passenger path: its address, what it is and its cost. -/
structure New where
  ptr : ℕ
  route : Route
  cost : Sp.Cost

/-- `multimodal.cpp:18847-18880`: the driving path of one departure interval. -/
def newDriving (e : Env) (i : ℕ) (h : Heap) : Res (Option New × Heap) :=
  let p := h.next
  let h := h.alloc .plain
  (Sp.getTdsp e.fuel e.M e.g e.d (e.tree e.d) e.tt e.o i).bind fun r =>
    (Path.eliminateCycles r.1 r.2.1).bind fun q =>
      let pp := h.next
      let h := h.alloc (.one p)
      let route := Route.driving 1 e.lot q.2
      (e.price route i).bind fun c => .ok (some ⟨pp, route, c⟩, h)

/-- `multimodal.cpp:18908-18949`: the transit path of one departure interval, if the tree reaches the origin. -/
def newBus (e : Env) (i : ℕ) (h : Heap) : Res (Option New × Heap) :=
  if e.treeBus.dist e.o (if i < e.mBus then i else e.mBus - 1) = ⊤ then .ok (none, h)
  else
    let p := h.next
    let h := h.alloc .plain
    (Sp.getTdsp e.fuel e.mBus e.gBus e.d e.treeBus e.ttBus e.o i).bind fun r =>
      (Path.eliminateCycles r.1 r.2.1).bind fun q =>
        let pp := h.next
        let h := h.alloc (.one p)
        let route := Route.transit q.2
        (e.price route i).bind fun c => .ok (some ⟨pp, route, c⟩, h)

/-- `multimodal.cpp:19000-19076`: the park-and-ride path of one departure interval over one parking lot.  A driving
path that is not found has travel time -1.  A negative index is undefined. -/
def newPnr (e : Env) (lot : Lot) (i : ℕ) (h : Heap) : Res (Option New × Heap) :=
  let d := h.next
  let h := h.alloc .plain
  (Sp.getTdsp e.fuel e.M e.g lot.node (e.tree lot.node) e.tt e.o i).bind fun r =>
    (Path.eliminateCycles r.1 r.2.1).bind fun q =>
      let drive := r.2.2.getD (-1)
      let start : ℤ := i + ⌈drive⌉ + ⌈e.cruise lot.id (Ults.trunc (i + drive))⌉
      if start < 0 then .ub
      else if e.treeBus.dist lot.node (if start < e.mBus then start.toNat else e.mBus - 1) = ⊤ then
        (del depth h d).bind fun h => .ok (none, h)
      else
        let b := h.next
        let h := h.alloc .plain
        (Sp.getTdsp e.fuel e.mBus e.gBus e.d e.treeBus e.ttBus lot.node start).bind fun r' =>
          (Path.eliminateCycles r'.1 r'.2.1).bind fun q' =>
            let p := h.next
            let h := h.alloc (.pair d b)
            let dp := h.next
            let h := h.alloc (.one d)
            let bp := h.next
            let h := h.alloc (.one b)
            let pp := h.next
            let h := h.alloc (.pnr p dp bp)
            let route := Route.pnr q.2 q'.2
            (e.price route i).bind fun c => .ok (some ⟨pp, route, c⟩, h)

/-- `_cur_best_p_path_…`, `_cur_best_time`, `_cur_best_cost`; `none` is a null pointer with infinite cost. -/
structure Best where
  ptr : ℕ
  route : Route
  time : ℕ
  cost : Sp.Cost
deriving DecidableEq

/-- The infinite start value of `_cur_best_cost`. -/
def costOf (b : Option Best) : Sp.Cost := (b.map Best.cost).getD ⊤

/-- `multimodal.cpp:18881-18893, 18950-18965, 19077-19089`: a cheaper path replaces the best one, which is deleted;
any other path is deleted. -/
def keep (b : Option Best) (x : New) (i : ℕ) (h : Heap) : Res (Option Best × Heap) :=
  if x.cost < costOf b then
    (match b with
      | none => Res.ok h
      | some y => del depth h y.ptr).bind fun h => .ok (some ⟨x.ptr, x.route, i, x.cost⟩, h)
  else (del depth h x.ptr).bind fun h => .ok (b, h)

/-- The loop of the three searches: each entry is a departure interval and the path made for it. -/
def search (items : List (ℕ × (Heap → Res (Option New × Heap)))) (h : Heap) : Res (Option Best × Heap) :=
  Res.foldlM (fun s it => (it.2 s.2).bind fun r =>
    match r.1 with
    | none => .ok (s.1, r.2)
    | some x => keep s.1 x it.1 r.2) (none, h) items

/-- `multimodal.cpp:18826-18900` `get_best_driving_path` for all departure intervals, `19548-19626`
`get_best_driving_path_for_single_interval` for one. -/
def bestDriving (e : Env) (is : List ℕ) (h : Heap) : Res (Option Best × Heap) :=
  search (is.map fun i => (i, newDriving e i)) h

/-- `multimodal.cpp:18902-18971` `get_best_bus_path`, `19628-19701` for one interval. -/
def bestBus (e : Env) (is : List ℕ) (h : Heap) : Res (Option Best × Heap) :=
  search (is.map fun i => (i, newBus e i)) h

/-- `multimodal.cpp:18973-19097` `get_best_pnr_path`, `19703-19839` for one interval. -/
def bestPnr (e : Env) (is : List ℕ) (h : Heap) : Res (Option Best × Heap) :=
  search (is.flatMap fun i => e.lots.map fun l => (i, newPnr e l i)) h

/-- `multimodal.cpp:19133-19152, 19164-19183`: the result of the next mode against the best so far. -/
def duel (b : Option Best) (r : Option Best) (h : Heap) : Res (Option Best × Heap) :=
  match r, b with
  | none, _ => .ok (b, h)
  | some x, none => .ok (some x, h)
  | some x, some y =>
    if x.cost < y.cost then (del depth h y.ptr).bind fun h => .ok (some x, h)
    else (del depth h x.ptr).bind fun h => .ok (some y, h)

/-- `multimodal.cpp:19099-19190` `get_best_path`: `usable` says which modes are configured and connect the pair;
`is` are the intervals of a driving tree, `js` those of the loading.  The result `none` is a null pointer. -/
def bestOf (e : Env) (usable : Mode → Bool) (is js : List ℕ) (h : Heap) : Res (Option Best × Heap) :=
  (if usable .driving then bestDriving e is h else .ok (none, h)).bind fun a =>
    (if usable .transit then (bestBus e js a.2).bind fun r => duel a.1 r.1 r.2 else .ok a).bind fun b =>
      if usable .pnr then (bestPnr e js b.2).bind fun r => duel b.1 r.1 r.2 else .ok b

/-- `get_best_path`: driving looks at the intervals of its tree, the other modes at all loading intervals. -/
def bestPath (e : Env) (usable : Mode → Bool) (h : Heap) : Res (Option Best × Heap) :=
  bestOf e usable (List.range e.M) (List.range e.loading) h

/-- `multimodal.cpp:19841-19949` `get_best_path_for_single_interval`. -/
def bestAt (e : Env) (usable : Mode → Bool) (i : ℕ) (h : Heap) : Res (Option Best × Heap) :=
  bestOf e usable [i] [i] h

end Verif.MmBest

import Verif.Basic
import Mathlib.Algebra.Order.Field.Rat
import Mathlib.Algebra.BigOperators.Group.List.Basic

/-! # Model of predetermined routing (`pre_routing.cpp`, `so_routing.cpp`)

Origins and destinations are named by their nodes; vehicles by numbers.  A path is the list of its
links. -/

namespace Verif.Pre

/-- `MNM_Origin::m_origin_node` and `m_demand`: destination ↦ demand for each assignment interval, in the
order of the hash map. -/
structure Origin where
  node : ℤ
  demand : List (ℤ × List ℚ)

/-- `MNM_Pre_Routing::routing_table`: origin, destination ↦ (index of path ↦ vehicles for each assignment
interval). -/
abbrev Table := ℤ → ℤ → Option (Store ℤ (List ℚ))

/-- `Path_Table`: origin, destination ↦ `m_path_vec`. -/
abbrev PathTable := ℤ → ℤ → Option (List (List ℤ))

/-! ## The table -/

/-- `pre_routing.cpp:45-94`: the entries of a pair; `n` is the number of its paths.  The first path has the
demand, the others nothing. -/
def pairEntries (demand : List ℚ) (n : ℕ) : Store ℤ (List ℚ) :=
  (0, demand) :: (List.range' 1 (n - 1)).map fun (k : ℕ) => ((k : ℤ), demand.map fun _ => (0 : ℚ))

/-- `pre_routing.cpp:33-110`: the body of the two loops.  A pair without paths in the path table raises
`out_of_range`; an existing entry is kept. -/
def addPair (paths : PathTable) (d : ℤ) (t : Table) (o : Origin) : Res Table :=
  match Store.get o.demand d with
  | none => .ok t
  | some demand =>
    match paths o.node d with
    | none => .throw "out_of_range"
    | some ps =>
      .ok (if (t o.node d).isSome then t
        else fun o' d' => if o' = o.node ∧ d' = d then some (pairEntries demand ps.length) else t o' d')

/-- `pre_routing.cpp:7-112` the constructor of `MNM_Pre_Routing`. -/
def construct (paths : PathTable) (dests : List ℤ) (origins : List Origin) : Res Table :=
  Res.foldlM (fun t d => Res.foldlM (addPair paths d) t origins) (fun _ _ => none) dests

/-- `pre_routing.cpp:143-168`: the new value of one path. -/
def reassigned (pid : ℤ) (i : ℕ) (lam total : ℚ) (e : ℤ × List ℚ) : ℤ × List ℚ :=
  if e.1 = pid then (e.1, e.2.set i ((1 - lam) * e.2.getD i 0 + lam * total))
  else (e.1, e.2.set i ((1 - lam) * e.2.getD i 0))

/-- `pre_routing.cpp:124-171` `reassign_routing`. -/
def reassign (t : Table) (o d pid : ℤ) (i : ℕ) (lam : ℚ) : Res Table :=
  match t o d with
  | none => .throw "out_of_range"
  | some st =>
    if st.any fun e => decide (e.2.length ≤ i) then .ub
    else
      let total := (st.map fun e => e.2.getD i 0).sum
      .ok fun o' d' => if o' = o ∧ d' = d then some (st.map (reassigned pid i lam total)) else t o' d'

/-! ## The routing -/

/-- The parts of a vehicle that do not change: `get_origin` and `get_destination`, by their nodes. -/
structure Trips where
  orig : ℤ → ℤ
  dest : ℤ → ℤ

/-- `m_tracker`, and `m_next_link` of the vehicles (`none`: null). -/
structure St where
  tracker : ℤ → Option (List ℤ)
  next : ℤ → Option ℤ

/-- The variables `_destination`, `_thisdemand`, `_remain_demand`, `_id_path`. -/
structure Cursor where
  dest : ℤ
  this : ℚ
  remain : ℚ
  id : ℕ

/-- `routing_table->find(o)->second.find(d)->second.find(k)->second[i]`: nothing is checked. -/
def lookup (t : Table) (o d : ℤ) (k : ℕ) (i : ℕ) : Res ℚ :=
  match t o d with
  | none => .ub
  | some st =>
    match st.get (k : ℤ) with
    | none => .ub
    | some xs =>
      match xs[i]? with
      | none => .ub
      | some x => .ok x

/-- `m_demand.find(d)->second[i]`. -/
def demandAt (o : Origin) (d : ℤ) (i : ℕ) : Res ℚ :=
  match Store.get o.demand d with
  | none => .ub
  | some xs =>
    match xs[i]? with
    | none => .ub
    | some x => .ok x

/-- `so_routing.cpp:92-129`: which path is looked at for a vehicle with destination `d`. -/
def advance (t : Table) (o : Origin) (i : ℕ) (c : Cursor) (d : ℤ) : Res Cursor :=
  if d ≠ c.dest ∧ c.remain ≤ 0 then
    (lookup t o.node d c.id i).bind fun r => (demandAt o d i).bind fun x => .ok ⟨d, x, r, 0⟩
  else if c.remain ≤ 0 ∧ 0 < c.this then
    (lookup t o.node c.dest (c.id + 1) i).bind fun r => .ok { c with remain := r, id := c.id + 1 }
  else if 0 < c.remain ∧ c.this < 0 then .throw "invalid state"
  else .ok c

/-- `so_routing.cpp:89-143`: one vehicle in the queue of the origin; it is registered with the path whose
index is `_id_path`, unless it is registered already. -/
def assignOne (t : Table) (paths : PathTable) (tr : Trips) (o : Origin) (i : ℕ) (s : Cursor × St) (v : ℤ) :
    Res (Cursor × St) :=
  (advance t o i s.1 (tr.dest v)).bind fun c =>
    match paths (tr.orig v) (tr.dest v) with
    | none => .ub
    | some ps =>
      match ps[c.id]? with
      | none => .ub
      | some p =>
        .ok (⟨c.dest, c.this - 1, c.remain - 1, c.id⟩,
          if (s.2.tracker v).isSome then s.2 else { s.2 with tracker := upd s.2.tracker v (some p) })

/-- `so_routing.cpp:144-154`: the next link of a vehicle in the queue; `isLink` says which numbers the link
factory has. -/
def popOne (isLink : ℤ → Bool) (s : St) (v : ℤ) : Res St :=
  match s.tracker v with
  | none => .ub
  | some [] => .ub
  | some (l :: ls) =>
    if isLink l then .ok ⟨upd s.tracker v (some ls), upd s.next v (some l)⟩
    else .throw "failed to find link"

/-- `so_routing.cpp:66-155`: one origin in a release interval; the iterator to the first demand is read even
if there is none. -/
def originStep (t : Table) (paths : PathTable) (tr : Trips) (isLink : ℤ → Bool) (i : ℕ)
    (queue : ℤ → List ℤ) (s : St) (o : Origin) : Res St :=
  match o.demand with
  | [] => .ub
  | (d, xs) :: _ =>
    match xs[i]? with
    | none => .ub
    | some x =>
      (lookup t o.node d 0 i).bind fun r =>
        (Res.foldlM (assignOne t paths tr o i) (⟨d, x, r, 0⟩, s) (queue o.node)).bind fun p =>
          Res.foldlM (popOne isLink) p.2 (queue o.node)

/-- `so_routing.cpp:173-206`: one vehicle at the end of link `l`, which leads to node `n`. -/
def endOne (tr : Trips) (isLink : ℤ → Bool) (cur : ℤ → Option ℤ) (n : ℤ) (s : St) (v : ℤ) : Res St :=
  if tr.dest v = n then
    match s.tracker v with
    | none => .ub
    | some ls => if ls.length ≠ 0 then .throw "errors in fixed routing" else .ok { s with next := upd s.next v none }
  else
    match s.tracker v with
    | none => .throw "vehicle unregistred in link"
    | some ls =>
      if cur v = s.next v then
        match ls with
        | [] => .ub
        | l :: ls =>
          if l = -1 then .throw "invalid next link"
          else if isLink l then .ok ⟨upd s.tracker v (some ls), upd s.next v (some l)⟩
          else .throw "failed to find link"
      else .ok s

/-- `so_routing.cpp:55-212` `update_routing`.  `links` lists the links with the nodes they lead to, in the
order of the hash map; `ends l` are the vehicles at the end of link `l`, `queue o` those waiting at
origin `o`. -/
def update (t : Table) (paths : PathTable) (tr : Trips) (origins : List Origin) (freq : ℕ)
    (links : List (ℤ × ℤ)) (cur : ℤ → Option ℤ) (queue ends : ℤ → List ℤ) (ts : ℕ) (s : St) : Res St :=
  let isLink : ℤ → Bool := fun l => links.any fun p => p.1 = l
  if origins.isEmpty ∨ freq = 0 then .ub
  else
    (if ts % freq = 0 then Res.foldlM (originStep t paths tr isLink (ts / freq) queue) s origins
     else .ok s).bind fun s =>
      Res.foldlM (fun s p => Res.foldlM (endOne tr isLink cur p.2) s (ends p.1)) s links

end Verif.Pre

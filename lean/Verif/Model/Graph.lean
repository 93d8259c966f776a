import Verif.Basic

/-!
# Model of `src/graph.h`

The adjacency-list graph at pointer level.  A `Node *` / `Link *` is the identifier of the
object (the containers own the objects through `unique_ptr`, nothing is ever deleted, so
addresses are stable and in bijection with identifiers); `nullptr` is `none`.
-/

namespace Verif.Graph

/-- `graph.h:39-43` (`enum class Direction { Incoming = 0, Outgoing = 1 }`). -/
inductive Dir where
  | inc
  | out
deriving DecidableEq, Repr

/-- `graph.h:45-56` `invert`. -/
def Dir.invert : Dir → Dir
  | .inc => .out
  | .out => .inc

/-- `graph.h:118-139` class `Node` (payload `data` omitted: it is `Empty` in `common.h:18`). -/
structure NodeRec where
  next : Dir → Option Int

/-- `graph.h:141-164` class `Link` (payload `data` omitted). -/
structure LinkRec where
  endpoints : Dir → Option Int
  next : Dir → Option Int

/-- `graph.h:674-676` members `nodes_`, `links_`.  Iteration order of the hash maps is
modelled by list order. -/
structure G where
  nodes : Store Int NodeRec
  links : Store Int LinkRec

/-- `graph.h:483` constructor. -/
def empty : G := ⟨[], []⟩

/-- `graph.h:487-496` `add_node`. -/
def addNode (g : G) (id : Int) : Res G :=
  if g.nodes.has id then .throw "node already in graph"
  else .ok { g with nodes := g.nodes.insert id ⟨fun _ => none⟩ }

/-- `graph.h:505-527` `add_link (Node &from, Node &to, LId id, ...)`; the references are the
identifiers of existing nodes (the caller below checks). -/
def addLinkRef (g : G) (frm to id : Int) (nf nt : NodeRec) : Res G :=
  if g.links.has id then .throw "link already in graph"
  else if to = frm then .throw "self-loops are not allowed"
  else
    let link : LinkRec :=
      { endpoints := fun | .inc => some frm | .out => some to
        next := fun | .inc => nt.next .inc | .out => nf.next .out }
    let nodes := g.nodes.modify frm fun n => ⟨fun | .out => some id | .inc => n.next .inc⟩
    let nodes := nodes.modify to fun n => ⟨fun | .inc => some id | .out => n.next .out⟩
    .ok { nodes := nodes, links := g.links.insert id link }

/-- `graph.h:532-537` `add_link (NId from, NId to, LId id, ...)` (`nodes_.at` throws
`std::out_of_range`). -/
def addLink (g : G) (frm to id : Int) : Res G :=
  match g.nodes.get frm with
  | none => .throw "out_of_range"
  | some nf =>
    match g.nodes.get to with
    | none => .throw "out_of_range"
    | some nt => addLinkRef g frm to id nf nt

/-- `graph.h:497-498` `get_node` (does the call return?). -/
def getNode (g : G) (id : Int) : Res NodeRec :=
  match g.nodes.get id with
  | none => .throw "out_of_range"
  | some n => .ok n

/-- `graph.h:538-539` `get_link`. -/
def getLink (g : G) (id : Int) : Res LinkRec :=
  match g.links.get id with
  | none => .throw "out_of_range"
  | some l => .ok l

/-- `graph.h:544`. -/
def sizeNodes (g : G) : Nat := g.nodes.length

/-- `graph.h:545`. -/
def sizeLinks (g : G) : Nat := g.links.length

/-- `graph.h:547-554` and the binding `macposts/_ext/macposts.cpp` (`nodes`). -/
def nodeIds (g : G) : List Int := g.nodes.keys

/-- `graph.h:555-562` and the binding `macposts/_ext/macposts.cpp` (`links`). -/
def linkIds (g : G) : List Int := g.links.keys

/-- `graph.h:651-672` `get_endpoints`. -/
def getEndpoints (g : G) (id : Int) : Res (Int × Int) :=
  match getLink g id with
  | .ok l =>
    match l.endpoints .inc, l.endpoints .out with
    | some f, some t => .ok (f, t)
    | _, _ => .throw "invalid link"
  | .throw m => .throw m
  | .ub => .ub
  | .diverge => .diverge

/-- Mutating operations of the public interface (Python binding `macposts/_ext/macposts.cpp:64-76`). -/
inductive Op where
  | addNode (id : Int)
  | addLink (frm to id : Int)
deriving DecidableEq, Repr

/-- One public call. -/
def exec (g : G) : Op → Res G
  | .addNode id => addNode g id
  | .addLink f t id => addLink g f t id

/-- A call whose exception is caught by the user: the C++ object keeps its state (in
`addLinkRef` both throws precede every write). -/
def step (g : G) (op : Op) : G := (exec g op).stateOr g

/-- A whole history of calls. -/
def run (g : G) (ops : List Op) : G := ops.foldl step g

/-- `graph.h:393-443`: state of the `Connections` iterator. -/
structure ConnIt where
  current : Option Int
  direction : Dir
  refill : Option Int

/-- `graph.h:412-425` `Connections::Iterator_::step`.  Following a dangling pointer is
undefined behaviour. -/
def connStep (g : G) (it : ConnIt) : Res ConnIt :=
  let cur : Res (Option Int) :=
    match it.current with
    | none => .ok none
    | some l =>
      match g.links.get l with
      | none => .ub
      | some r => .ok (r.next it.direction)
  match cur with
  | .ok none =>
    match it.refill with
    | some r => .ok ⟨some r, it.direction.invert, none⟩
    | none => .ok ⟨none, it.direction, none⟩
  | .ok (some c) => .ok ⟨some c, it.direction, it.refill⟩
  | .throw m => .throw m
  | .ub => .ub
  | .diverge => .diverge

/-- `graph.h:427-442` `operator==` against `end ()` (`graph.h:468`: null current, the
collection's direction, null refill). -/
def connIsEnd (directed : Bool) (it : ConnIt) (endDir : Dir) : Bool :=
  if directed then it.current.isNone && decide (it.direction = endDir)
  else (it.current.isNone && it.refill.isNone)
    || ((it.current.isNone && decide (it.direction = endDir)) && it.refill.isNone)

/-- `graph.h:452-458`: the direction the collection settles on. -/
def startDir (directed : Bool) (n : NodeRec) (d : Dir) : Dir :=
  if directed || (n.next d).isSome then d else d.invert

/-- `graph.h:460-467` `begin`. -/
def connBegin (directed : Bool) (n : NodeRec) (d : Dir) : ConnIt :=
  ⟨n.next d, d, if directed then none else n.next d.invert⟩

/-- The range-for loop of the binding `macposts/_ext/macposts.cpp:116-125` over `connections`; dereferencing
a null iterator is undefined behaviour. -/
def connLoop (g : G) (directed : Bool) (endDir : Dir) : Nat → ConnIt → Res (List Int)
  | 0, _ => .diverge
  | fuel + 1, it =>
    if connIsEnd directed it endDir then .ok []
    else
      match it.current with
      | none => .ub
      | some l =>
        (connStep g it).bind fun it' =>
          (connLoop g directed endDir fuel it').bind fun rest => .ok (l :: rest)

/-- `graph.h:605-644` `connections` (directed, or undirected with direction `Incoming`). -/
def connectionsGen (fuel : Nat) (g : G) (directed : Bool) (id : Int) (d : Dir) :
    Res (List Int) :=
  (getNode g id).bind fun n =>
    let d' := startDir directed n d
    connLoop g directed d' fuel (connBegin directed n d')

/-- `graph.h:626-629, 635-639`: `connections (id, direction)` of a directed graph. -/
def connections (fuel : Nat) (g : G) (id : Int) (d : Dir) : Res (List Int) :=
  connectionsGen fuel g true id d

/-- `graph.h:630-634, 640-644`: `connections (id)` of an undirected graph. -/
def connectionsUn (fuel : Nat) (g : G) (id : Int) : Res (List Int) :=
  connectionsGen fuel g false id .inc

/-- `graph.h:225-236`: state of the `Neighbors` iterator. -/
structure NbrIt where
  current : Option Int
  direction : Dir
  refill : Option Int
  seen : List Int

/-- `graph.h:245-274` `Neighbors::Iterator_::step`; `fuel` bounds the `while` loop. -/
def nbrStep (g : G) : Nat → NbrIt → Res NbrIt
  | 0, _ => .diverge
  | fuel + 1, it =>
    match it.current, it.refill with
    | none, none => .ok it                                   -- while (cur || refill)
    | none, some r =>                                        -- if (!cur)
      let d := it.direction.invert
      match g.links.get r with
      | none => .ub
      | some lr =>
        match lr.endpoints d with
        | none => .ub
        | some e =>
          if e ∈ it.seen then nbrStep g fuel ⟨lr.next d, d, none, it.seen⟩
          else .ok ⟨some r, d, none, it.seen⟩
    | some l, rf =>                                          -- else seen.insert (...)
      match g.links.get l with
      | none => .ub
      | some lr =>
        match lr.endpoints it.direction with
        | none => .ub
        | some e =>
          let seen := e :: it.seen
          if e ∈ seen then nbrStep g fuel ⟨lr.next it.direction, it.direction, rf, seen⟩
          else .ok ⟨some l, it.direction, rf, seen⟩

/-- `graph.h:281-296` `operator==` against `end ()` (`graph.h:322`). -/
def nbrIsEnd (directed : Bool) (it : NbrIt) (endDir : Dir) : Bool :=
  if directed then it.current.isNone && decide (it.direction = endDir)
  else (it.current.isNone && it.refill.isNone)
    || ((it.current.isNone && decide (it.direction = endDir)) && it.refill.isNone)

/-- The range-for loop of the binding `macposts/_ext/macposts.cpp:106-115` over `neighbors`;
`operator*` (`graph.h:276-279`) reads the endpoint. -/
def nbrLoop (g : G) (directed : Bool) (endDir : Dir) : Nat → NbrIt → Res (List Int)
  | 0, _ => .diverge
  | fuel + 1, it =>
    if nbrIsEnd directed it endDir then .ok []
    else
      match it.current with
      | none => .ub
      | some l =>
        match g.links.get l with
        | none => .ub
        | some lr =>
          match lr.endpoints it.direction with
          | none => .ub
          | some e =>
            (nbrStep g (fuel + 1) it).bind fun it' =>
              (nbrLoop g directed endDir fuel it').bind fun rest => .ok (e :: rest)

/-- `graph.h:314-321` `begin`, `graph.h:564-603` `neighbors`. -/
def neighborsGen (fuel : Nat) (g : G) (directed : Bool) (id : Int) (d : Dir) :
    Res (List Int) :=
  (getNode g id).bind fun n =>
    let d' := startDir directed n d
    nbrLoop g directed d' fuel
      ⟨n.next d', d', if directed then none else n.next d'.invert, []⟩

/-- `neighbors (id, direction)` of a directed graph. -/
def neighbors (fuel : Nat) (g : G) (id : Int) (d : Dir) : Res (List Int) :=
  neighborsGen fuel g true id d

/-- `graph.h:579-583`: `neighbors (id)` of an undirected graph (starts `Outgoing`). -/
def neighborsUn (fuel : Nat) (g : G) (id : Int) : Res (List Int) :=
  neighborsGen fuel g false id .out

/-- `ults.cpp:132-147` `MNM_Ults::reverse_graph`: add every node, then every link with its
endpoints swapped.  `nodeOrder` and `linkOrder` are the (unspecified) iteration orders of the
two hash maps. -/
def reverseGraph (g : G) (nodeOrder linkOrder : List Int) : Res G :=
  (Res.foldlM (fun r n => addNode r n) empty nodeOrder).bind fun r =>
    Res.foldlM (fun r l => (getEndpoints g l).bind fun e => addLink r e.2 e.1 l) r linkOrder

end Verif.Graph

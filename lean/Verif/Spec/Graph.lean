import Verif.Model.Graph

/-!
# Specification of the graph: a list of nodes and the history of accepted links

Nothing here mentions pointers or iterators.
-/

namespace Verif.Graph

/-- The abstract graph: node identifiers (oldest first) and links `(id, from, to)` (newest
first). -/
structure Spec where
  nodes : List Int
  links : List (Int × Int × Int)
deriving DecidableEq, Repr

namespace Spec

/-- Nothing has been added. -/
def empty : Spec := ⟨[], []⟩

/-- Identifiers of the links. -/
def linkIds (s : Spec) : List Int := s.links.map fun l => l.1

/-- Which calls are legal: new node identifier; both endpoints present, distinct, and a new
link identifier. -/
def accepts (s : Spec) : Op → Bool
  | .addNode id => decide (id ∉ s.nodes)
  | .addLink f t id => decide (f ∈ s.nodes ∧ t ∈ s.nodes ∧ f ≠ t ∧ id ∉ s.linkIds)

/-- Effect of a legal call; an illegal call has none. -/
def step (s : Spec) (op : Op) : Spec :=
  if s.accepts op then
    match op with
    | .addNode id => { s with nodes := s.nodes ++ [id] }
    | .addLink f t id => { s with links := (id, f, t) :: s.links }
  else s

/-- A whole history of calls. -/
def run (s : Spec) (ops : List Op) : Spec := ops.foldl step s

/-- Does the link leave (`out`) / enter (`inc`) the node? -/
def touches (d : Dir) (n : Int) (l : Int × Int × Int) : Bool :=
  match d with
  | .inc => l.2.2 == n
  | .out => l.2.1 == n

/-- The links entering or leaving `n`, newest first. -/
def incident (s : Spec) (d : Dir) (n : Int) : List Int :=
  (s.links.filter (touches d n)).map fun l => l.1

/-- The other end of each link entering or leaving `n`, newest first. -/
def farEnds (s : Spec) (d : Dir) (n : Int) : List Int :=
  (s.links.filter (touches d n)).map fun l => match d with | .inc => l.2.1 | .out => l.2.2

end Spec
end Verif.Graph

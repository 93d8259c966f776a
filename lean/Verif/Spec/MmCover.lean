import Verif.Model.MmCover
import Verif.Spec.Cover

/-! # What the flags of registered bus and walking links should say -/

namespace Verif.MmCover
open Graph Path Cover

/-- Link `l` of the transit network is on the transit part of some path. -/
def Served (pnrs : List Pnr) (paths : List P) (l : ℤ) : Prop :=
  (∃ p ∈ paths, l ∈ p.2) ∨ ∃ q ∈ pnrs, l ∈ q.transit.2

/-- Number `l` is that of a link of a bus transit path, or of a link of a park-and-ride path, on its driving or on its
transit part. -/
def Cov (pnrs : List Pnr) (paths : List P) (l : ℤ) : Prop :=
  (∃ p ∈ paths, l ∈ p.2) ∨ ∃ q ∈ pnrs, l ∈ q.drive.2 ∨ l ∈ q.transit.2

instance (pnrs : List Pnr) (paths : List P) (l : ℤ) : Decidable (Cov pnrs paths l) := by unfold Cov; infer_instance

instance (pnrs : List Pnr) (paths : List P) (l : ℤ) : Decidable (Served pnrs paths l) := by
  unfold Served; infer_instance

/-- The outcome of the generation: first the paths `new1` are added, each over a bus link that was on no path, then the
paths `new2`, each over a walking link that was on no path; the flags of bus links are those after the first loop, the
flags of walking links those at the end. -/
structure Generated (table : Table) (paths : List P) (pnrs : List Pnr) (buses walks : List ℤ)
    (new1 new2 : List (ℤ × ℤ × P)) (s : St) : Prop where
  tableEnd : s.table = added table (new1 ++ new2)
  pathsEnd : s.paths = paths ++ new1.map (·.2.2) ++ new2.map (·.2.2)
  bus : s.bus = buses.map fun l => decide (Cov pnrs (paths ++ new1.map (·.2.2)) l)
  walk : s.walk = walks.map fun l => decide (Cov pnrs s.paths l)
  each1 : ∀ q ∈ new1, ∃ l ∈ buses, l ∈ q.2.2.2 ∧ ¬ Cov pnrs paths l
  each2 : ∀ q ∈ new2, ∃ l ∈ walks, l ∈ q.2.2.2 ∧ ¬ Cov pnrs (paths ++ new1.map (·.2.2)) l

/-- The transit network and the pairs with bus transit demand, as a network of C121: an origin (destination) node is one
of such a pair. -/
def asCover (x : Inst) : Cover.Inst where
  g := x.transit
  isOrigin n := decide (∃ o ∈ x.bus, o.1 = n)
  isDest n := decide (∃ o ∈ x.bus, n ∈ o.2)
  origins := x.bus
  tt := x.fftt

/-- The orders of the loop over bus links (`true`) or walking links. -/
def orders (orc : Orc) (isBus : Bool) : Cover.Orc where
  nodes := orc.nodes
  links := orc.links
  origins i _ := orc.bus isBus i
  dests i _ := orc.busDests isBus i

/-- A transit link the generation can work with: the driving network has a link with its number and its ends, it leaves no
origin node and leads to no destination node, and some transit link leads to its start. -/
def Usable (x : Inst) (l : ℤ) : Prop :=
  getEndpoints x.drive l = getEndpoints x.transit l ∧ Cover.Inner (asCover x) l ∧
  ∃ f t k u, getEndpoints x.transit l = .ok (f, t) ∧ getEndpoints x.transit k = .ok (u, f)

end Verif.MmCover

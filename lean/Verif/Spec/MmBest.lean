import Verif.Model.MmBest

/-!
# What the search for the best new passenger path should return

`offer…` says which path a mode offers for a departure interval, and at which cost: the path the tree gives for that
departure, with its cycles cut.  It says nothing about the order of the search or about memory.
-/

namespace Verif.MmBest

open MmDue

/-- The path and the cost that driving offers for a departure at `i`. -/
def offerDriving (e : Env) (i : ℕ) : Res (Option (Route × Sp.Cost)) :=
  (Sp.getTdsp e.fuel e.M e.g e.d (e.tree e.d) e.tt e.o i).bind fun r =>
    (Path.eliminateCycles r.1 r.2.1).bind fun q =>
      (e.price (.driving 1 e.lot q.2) i).bind fun c => .ok (some (.driving 1 e.lot q.2, c))

/-- The same for transit: nothing if the destination cannot be reached. -/
def offerBus (e : Env) (i : ℕ) : Res (Option (Route × Sp.Cost)) :=
  if e.treeBus.dist e.o (if i < e.mBus then i else e.mBus - 1) = ⊤ then .ok none
  else
    (Sp.getTdsp e.fuel e.mBus e.gBus e.d e.treeBus e.ttBus e.o i).bind fun r =>
      (Path.eliminateCycles r.1 r.2.1).bind fun q =>
        (e.price (.transit q.2) i).bind fun c => .ok (some (.transit q.2, c))

/-- The same for park and ride over a lot: the transit part begins after driving and cruising. -/
def offerPnr (e : Env) (l : Lot) (i : ℕ) : Res (Option (Route × Sp.Cost)) :=
  (Sp.getTdsp e.fuel e.M e.g l.node (e.tree l.node) e.tt e.o i).bind fun r =>
    (Path.eliminateCycles r.1 r.2.1).bind fun q =>
      let drive := r.2.2.getD (-1)
      let start : ℤ := i + ⌈drive⌉ + ⌈e.cruise l.id (Ults.trunc (i + drive))⌉
      if start < 0 then .ub
      else if e.treeBus.dist l.node (if start < e.mBus then start.toNat else e.mBus - 1) = ⊤ then .ok none
      else
        (Sp.getTdsp e.fuel e.mBus e.gBus e.d e.treeBus e.ttBus l.node start).bind fun r' =>
          (Path.eliminateCycles r'.1 r'.2.1).bind fun q' =>
            (e.price (.pnr q.2 q'.2) i).bind fun c => .ok (some (.pnr q.2 q'.2, c))

/-- The order in which modes are preferred when costs are equal. -/
def rank : Mode → ℕ
  | .driving => 0
  | .transit => 1
  | .pnr => 2

/-- `b` is the cheapest of the offers; of several cheapest ones that of the first mode, and of that mode the
earliest.  Without a finite offer there is none. -/
def Cheapest (off : ℕ → Route → Sp.Cost → Prop) : Option Best → Prop
  | none => ∀ i r c, off i r c → c = ⊤
  | some b =>
    off b.time b.route b.cost ∧ b.cost < ⊤ ∧ ∀ i r c, off i r c →
      b.cost ≤ c ∧
        (rank r.mode < rank b.route.mode ∨ r.mode = b.route.mode ∧ i < b.time → b.cost < c)

/-- Addresses from the next one on are free. -/
def Heap.Fresh (h : Heap) : Prop := ∀ k, h.next ≤ k → h.objs k = none

/-- The living objects are the old ones, and for a driving or transit path the path object and the passenger path that owns it;
nothing has leaked and nothing old has been deleted. -/
def Owns (h h' : Heap) : Option Best → Prop
  | none => h'.objs = h.objs
  | some b => ∃ a, h.objs a = none ∧ h.objs b.ptr = none ∧ a ≠ b.ptr ∧
      h'.objs = upd (upd h.objs a (some .plain)) b.ptr (some (.one a))

end Verif.MmBest

import Verif.Model.MmDar
import Verif.Spec.Transit
import Verif.Spec.Trees

/-! # Vocabulary for the assignment ratios of passengers -/

namespace Verif.Tr

/-- The number of the path under which a passenger is known: of its park-and-ride path if it came by car, otherwise of
its transit path (-1 if it has none). -/
def route (pnr : ℕ → ℕ) (s : State) (p : ℕ) : ℤ :=
  if (s.pax p).pnr then (pnr p : ℤ) else match (s.pax p).path with | some q => (q : ℤ) | none => -1

/-- The number of passengers of path number `path`, departed in assignment interval `dep`, that entered link `l` in the
intervals `a`, …, `z - 1`. -/
def entered (pnr : ℕ → ℕ) (s : State) (l : ℕ) (path dep : ℤ) (a z : ℕ) : ℕ :=
  s.log.countP fun e => decide (e.dst = some l ∧ a ≤ e.t ∧ e.t < z ∧
    route pnr s e.veh = path ∧ (s.pax e.veh).assign = dep)

/-- Link `l` leads out of a parking lot. -/
def Cfg.outOfLot (c : Cfg) (l : ℕ) : Prop :=
  ∃ d ∈ c.destIds, ∃ k, (c.dest d).lot = some k ∧ l ∈ (c.lot k).walkOut

end Verif.Tr

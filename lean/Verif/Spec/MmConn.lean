import Verif.Model.MmConn
import Verif.Spec.ShortestPath
import Verif.Spec.Io

/-! # What connectivity by mode should mean -/

namespace Verif.MmConn
open Graph Sp Text Io

/-- There is a way from `u` to `v`. -/
def Reach (g : G) (u v : ℤ) : Prop := ∃ ls, Walk g u ls v

/-- A car park at node `p` from which the destination at node `d` can be reached by transit. -/
def Rides (x : Net) (p d : ℤ) : Prop := p ≠ d ∧ p ∈ nodeIds x.transit ∧ d ∈ nodeIds x.transit ∧ Reach x.transit p d

/-- Mode `m` can be used from `o` to `d`. -/
def Possible (x : Net) : Mode → ℤ → ℤ → Prop
  | .driving, o, d => Reach x.drive o d
  | .transit, o, d => o ∈ nodeIds x.transit ∧ d ∈ nodeIds x.transit ∧ Reach x.transit o d
  | .pnr, o, d => ∃ p ∈ x.lots, Reach x.drive o p ∧ Rides x p d

/-- Networks as the files describe them: the graphs are built by calls of their interface, the nodes of origins,
destinations and car parks are in the driving graph, those of origins are no others, and links have positive numbers. -/
structure Good (x : Net) (ops1 ops2 : List Op) : Prop where
  drive : x.drive = run empty ops1
  transit : x.transit = run empty ops2
  origins : ∀ o ∈ x.origins, o ∈ nodeIds x.drive
  dests : ∀ d ∈ x.dests, d ∈ nodeIds x.drive
  lots : ∀ p ∈ x.lots, p ∈ nodeIds x.drive
  apartD : ∀ o ∈ x.origins, o ∉ x.dests
  apartL : ∀ o ∈ x.origins, o ∉ x.lots
  posD : ∀ l ∈ linkIds x.drive, 0 < l
  posT : ∀ l ∈ linkIds x.transit, 0 < l

/-- `c` holds, for the pairs with demand, a flag for each configured mode that says whether it is possible. -/
def Right (x : Net) (modes : List Mode) (demand : ℤ → ℤ → Bool) (c : Conn) : Prop :=
  ∀ o d, (o ∈ x.origins ∧ d ∈ x.dests ∧ demand o d = true →
      ∃ f, c o d = some f ∧ ∀ m, (m ∈ modes → ∃ b, f m = some b ∧ (b = true ↔ Possible x m o d)) ∧
        (m ∉ modes → f m = none)) ∧
    (¬ (o ∈ x.origins ∧ d ∈ x.dests ∧ demand o d = true) → c o d = none)

/-- The pairs of a map in the order of iteration. -/
def pairs (rows : Rows) : List (ℤ × ℤ × Flags) := rows.flatMap fun r => r.2.map fun e => (r.1, e.1, e.2)

/-- `rows` goes through the map `c`: every entry comes once, and every origin once. -/
structure Goes (rows : Rows) (c : Conn) : Prop where
  entry : ∀ o d f, (o, d, f) ∈ pairs rows ↔ c o d = some f
  once : ((pairs rows).map fun p => (p.1, p.2.1)).Nodup

/-- All three modes have a flag. -/
def Full (f : Flags) : Prop := ∀ m, ∃ b, f m = some b

/-- The words of the line of a pair. -/
def pairWords (p : ℤ × ℤ × Flags) : List Str :=
  [toStr p.1, toStr p.2.1] ++ [Mode.driving, .transit, .pnr].map fun m => toStr (if p.2.2 m = some true then 1 else 0)

end Verif.MmConn

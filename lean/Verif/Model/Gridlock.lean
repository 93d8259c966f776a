import Mathlib.Data.Int.Notation
import Mathlib.Data.Nat.Notation
import Verif.Model.Graph

/-! # Model of `gridlock_checker.cpp` -/

namespace Verif.Grid
open Graph

/-- A `std::set<TInt>` built by insertions: the sorted list. -/
def insertSorted (a : ℤ) : List ℤ → List ℤ
  | [] => [a]
  | b :: l => if a < b then a :: b :: l else if a = b then b :: l else b :: insertSorted a l

/-- `gridlock_checker.cpp:39-42`. -/
def linkSet (g : G) : List ℤ := (linkIds g).foldl (fun s l => insertSorted l s) []

/-- `gridlock_checker.cpp:54-68`: the outgoing links of the head of a link are queued if they remain;
`none` when one of them does not, so that the function returns `false`. -/
def queueOut (remained : List ℤ) : List ℤ → List ℤ → Option (List ℤ)
  | q, [] => some q
  | q, l :: ls => if l ∈ remained then queueOut remained (q ++ [l]) ls else none

/-- `gridlock_checker.cpp:48-69`, the inner loop: the remaining links when the queue is empty, `none`
when the function returns `false`. -/
def inner (cf : ℕ) (g : G) : ℕ → List ℤ → List ℤ → Res (Option (List ℤ))
  | _, [], r => .ok (some r)
  | 0, _ :: _, _ => .diverge
  | fuel + 1, l :: q, r =>
    let r' := r.erase l
    (getEndpoints g l).bind fun e =>
      (connections cf g e.2 .out).bind fun out =>
        match queueOut r' q out with
        | none => .ok none
        | some q' => inner cf g fuel q' r'

/-- `gridlock_checker.cpp:45-72`, the outer loop. -/
def outer (cf : ℕ) (g : G) (fuel : ℕ) : ℕ → List ℤ → Res Bool
  | _, [] => .ok true
  | 0, _ :: _ => .diverge
  | n + 1, l :: r =>
    (inner cf g fuel [l] (l :: r)).bind fun res =>
      match res with
      | none => .ok false
      | some r' => outer cf g fuel n r'

/-- `gridlock_checker.cpp:35-73` `has_cycle`.  The iteration over connections is bounded by the number
of links, which suffices (C02). -/
def hasCycle (fuel : ℕ) (g : G) : Res Bool := outer (sizeLinks g + 1) g fuel fuel (linkSet g)

end Verif.Grid

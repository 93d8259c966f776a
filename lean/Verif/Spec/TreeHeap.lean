import Verif.Model.TreeHeap

/-! # Vocabulary for the life of trees -/

namespace Verif.TH

/-- The trees a link of a kind has once they are installed. -/
def Kind.has : Kind → Slot → Bool
  | .single, .inA => true
  | .single, .outA => true
  | .twoClass, .inA => true
  | .twoClass, .inB => true
  | .walking, .inA => true
  | .bus, .inA => true
  | .bus, .inB => true
  | _, _ => false

/-- The flows added to tree `sl` of link `l`. -/
def flows (l : ℕ) (sl : Slot) (ops : List Op) : List Item :=
  ops.filterMap fun o => match o with
    | .flow m t x => if m = l ∧ t = sl then some x else none
    | .install _ => none

/-- What the tree behind a pointer holds: `none` is a null pointer, `some none` a pointer to freed memory. -/
def State.read (s : State) (l : ℕ) (sl : Slot) : Option (Option (List Item)) := (s.ptr l sl).map s.heap

/-- Trees are installed on no bus link more than once. -/
def BusOnce (kind : ℕ → Kind) (ops : List Op) : Prop := ∀ l, kind l = .bus → ops.count (.install l) ≤ 1

end Verif.TH

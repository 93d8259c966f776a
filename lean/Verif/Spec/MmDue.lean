import Verif.Model.MmDue

/-!
# Specification vocabulary for the multimodal equilibrium
-/

namespace Verif.MmDue

/-- The passengers of a pair who depart in interval `c`, over the paths of all modes. -/
def Sets.passengers (s : Sets) (c : ℕ) : ℚ := (s.all.map fun p => p.flow c).sum

/-- No path has a negative flow. -/
def Sets.NonNeg (s : Sets) : Prop := ∀ p ∈ s.all, ∀ c, 0 ≤ p.flow c

/-- The disutility of the passengers of interval `c`. -/
def Sets.total (s : Sets) (c : ℕ) : ℚ := (s.all.map fun p => p.flow c * p.dis c).sum

/-- The flow of a path over the first `T` intervals. -/
def PPath.sum (T : ℕ) (p : PPath) : ℚ := ((List.range T).map p.flow).sum

/-- The routes of every mode, in order. -/
def Sets.routes (s : Sets) (m : Mode) : Option (List Route) := (s m).map fun ps => ps.map PPath.route

/-- The routes of every mode grow at their ends only. -/
def Grows (s s' : Sets) : Prop := ∀ m, match s m, s' m with
  | none, none => True
  | some ps, some ps' => ps.map PPath.route <+: ps'.map PPath.route
  | _, _ => False

/-- The paths in play in interval `c`: those in use and the best one. -/
def InPlay (best : Route) (c : ℕ) (p : PPath) : Prop := p.route = best ∨ 0 < p.flow c

/-- Block `c` of `n` entries. -/
def block (n c : ℕ) (w : List ℚ) : List ℚ := (w.drop (c * n)).take n

/-- Sum of the entries of interval `a`. -/
def slotSum (n a : ℕ) (f : ℕ → ℚ) : ℚ := ((List.range n).map fun i => f (a * n + i)).sum

/-- The flow of the paths with key `k`. -/
def flowOf {K : Type} [DecidableEq K] (xs : List (VPath K)) (k : K) (i : ℕ) : ℚ :=
  ((xs.filter fun x => decide (x.key = k)).map fun x => x.buf i).sum

end Verif.MmDue

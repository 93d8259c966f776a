import Verif.Model.Curve

/-! # Specification vocabulary for cumulative curves -/

namespace Verif.Curve

/-- Sum of the flows recorded up to time `t`. -/
def flowUpTo (rs : List (ℚ × ℚ)) (t : ℚ) : ℚ := ((rs.filter fun r => decide (r.1 ≤ t)).map (·.2)).sum

/-- Whole-number times below the resolution limit of the approximate comparison. -/
def IntTime (x : ℚ) : Prop := ∃ n : ℕ, n < 10000 ∧ x = n

/-- Non-decreasing whole-number times, non-negative flows. -/
def Legal (rs : List (ℚ × ℚ)) : Prop :=
  (∀ r ∈ rs, IntTime r.1 ∧ 0 ≤ r.2) ∧ rs.Pairwise (fun a b => a.1 ≤ b.1)

/-- `r` is the first record with property `P`. -/
def FirstAt (P : ℚ × ℚ → Prop) (c : Curve) (r : ℚ × ℚ) : Prop :=
  ∃ pre post, c = pre ++ r :: post ∧ P r ∧ ∀ x ∈ pre, ¬ P x

end Verif.Curve

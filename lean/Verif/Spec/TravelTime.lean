import Verif.Spec.Curve
import Verif.Model.Curve
import Mathlib.Order.Bounds.Basic

/-!
# Specification vocabulary for travel times

A link is watched through two histories: which numbers of vehicles entered it, and left it, in which
interval.
-/

namespace Verif.Tt

/-- Number of vehicles of history `h` up to and including interval `t`. -/
def upTo (h : List (ℕ × ℕ)) (t : ℕ) : ℕ := ((h.filter fun p => decide (p.1 ≤ t)).map (·.2)).sum

/-- A history of the intervals `1 … T`, in order. -/
def History (T : ℕ) (h : List (ℕ × ℕ)) : Prop :=
  (∀ p ∈ h, 1 ≤ p.1 ∧ p.1 ≤ T) ∧ h.Pairwise (fun a b => a.1 ≤ b.1)

/-- The flows that are recorded in the curve of the link: vehicles divided by the flow scalar `σ`. -/
def flows (σ : ℚ) (h : List (ℕ × ℕ)) : List (ℚ × ℚ) := h.map fun p => ((p.1 : ℚ), (p.2 : ℚ) / σ)

/-- The travel time `r` that the curves of a link report to a traveller who enters with the `n`-th vehicle
in interval `s`: the free-flow time if no vehicle has entered; otherwise, with `e` the interval in which
the `n`-th vehicle leaves, `e - s` (at least the free-flow time) if the `n`-th vehicle is the last to leave in
that interval, and the same with the previous departure interval `q` in place of `e` if it is not. -/
def Reported (outs : List (ℕ × ℕ)) (s n : ℕ) (fftt r : ℚ) : Prop :=
  (n = 0 → r = fftt) ∧
  (0 < n → ∃ e : ℕ, IsLeast {e | n ≤ upTo outs e} e ∧
    (upTo outs e = n → r = max fftt ((e : ℚ) - s)) ∧
    (upTo outs e ≠ n → ∃ q : ℕ, IsLeast {q | upTo outs (e - 1) ≤ upTo outs q} q ∧ r = max fftt ((q : ℚ) - s)))

/-- The travel time `r` reported for a query for interval `s`, when the histories are known up to interval `T`: it
is that of the last vehicle that had entered by `s`; after the last interval `S` whose entries have all left by `T`
it is that of `S`. -/
def LinkTime (T : ℕ) (ins outs : List (ℕ × ℕ)) (fftt : ℚ) (s : ℕ) (r : ℚ) : Prop :=
  ∃ S, IsGreatest {t | t ≤ T ∧ upTo ins t ≤ upTo outs T} S ∧
    Reported outs (min s S) (upTo ins (min s S)) fftt r

/-- The link `cc` has recorded the histories `ins` and `outs` of a loading of `T` intervals and has not been queried
yet.  The numbers stay below the limits from which on the comparisons of the code become inexact. -/
structure Loaded (σ : ℚ) (T : ℕ) (ins outs : List (ℕ × ℕ)) (cc : Curve.LinkCc) : Prop where
  scalar : 0 < σ ∧ σ < 4503599627370496
  time : T < 10000
  histIn : History T ins
  histOut : History T outs
  le : upTo outs T ≤ upTo ins T
  count : upTo ins T < 10000
  nIn : Res.foldlM Curve.addIncrement Curve.install (flows σ ins) = .ok cc.nIn
  nOut : Res.foldlM Curve.addIncrement Curve.install (flows σ outs) = .ok cc.nOut
  fresh : cc.lastValid = -1
  fftt : 0 ≤ cc.fftt

end Verif.Tt

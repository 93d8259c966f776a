import Verif.Model.RandomOd
import Verif.Spec.RandomOd

/-!
# C222: random pairs of an origin and a destination

Partial: the property also asks that a pair is always returned; that is refuted below.
-/

namespace Verif
open ROd

private theorem pickAt_ok {α : Type} {xs : List α} (h : xs ≠ []) (r : ℕ) :
    ∃ x ∈ xs, pickAt xs r = .ok x ∧ xs[r % xs.length]? = some x := by
  have hl : r % xs.length < xs.length := Nat.mod_lt _ (List.length_pos_iff.2 h)
  have e : xs[r % xs.length]? = some xs[r % xs.length] := List.getElem?_eq_getElem hl
  exact ⟨_, List.getElem_mem hl, by unfold pickAt; rw [e], e⟩

private theorem pickAt_all {α : Type} {xs : List α} {x : α} (h : x ∈ xs) : ∃ r, pickAt xs r = .ok x := by
  obtain ⟨n, hn, rfl⟩ := List.getElem_of_mem h
  refine ⟨n, ?_⟩
  unfold pickAt
  rw [Nat.mod_eq_of_lt hn, List.getElem?_eq_getElem hn]

/-- **C222 (only pairs with demand).**  Whatever the random numbers are, a pair that is returned has demand. -/
theorem C222_demanded_partial {α β : Type} (origins : List (α × List β)) (rand : ℕ → ℕ) (fuel i : ℕ) (o : α) (d : β)
    (h : randomPair origins rand fuel i = .ok (o, d)) : Demanded origins o d := by
  induction fuel generalizing i with
  | zero => cases h
  | succ fuel ih =>
    unfold randomPair at h
    by_cases hn : origins = []
    · subst hn
      cases h
    · obtain ⟨⟨o', ds⟩, hx, e, _⟩ := pickAt_ok hn (rand i)
      rw [e] at h
      change (if ds.isEmpty then _ else _) = _ at h
      by_cases hd : ds = []
      · subst hd
        exact ih _ h
      · rw [if_neg (by simpa using hd)] at h
        obtain ⟨d', hd', e', _⟩ := pickAt_ok hd (rand (i + 1))
        rw [e'] at h
        change Res.ok (o', d') = _ at h
        cases h
        exact ⟨ds, hx, hd'⟩

/-- **C222 (every pair with demand comes up).**  For every pair with demand there are random numbers for which it is returned, with
the first draw. -/
theorem C222_possible_partial {α β : Type} (origins : List (α × List β)) (o : α) (d : β) (h : Demanded origins o d) :
    ∃ rand : ℕ → ℕ, ∀ fuel, randomPair origins rand (fuel + 1) 0 = .ok (o, d) := by
  obtain ⟨ds, h1, h2⟩ := h
  obtain ⟨a, ha⟩ := pickAt_all h1
  obtain ⟨b, hb⟩ := pickAt_all h2
  refine ⟨fun n => if n = 0 then a else b, fun fuel => ?_⟩
  unfold randomPair
  have hd : ds ≠ [] := List.ne_nil_of_mem h2
  simp [ha, hb, hd, Res.bind]

/-- **C222 (when a pair is returned).**  With at least one origin, a pair is returned after finitely many draws exactly if the random
numbers come to an origin with demand. -/
theorem C222_returns_partial {α β : Type} (origins : List (α × List β)) (hn : origins ≠ []) (rand : ℕ → ℕ) (i : ℕ) :
    (∃ fuel p, randomPair origins rand fuel i = .ok p) ↔ Hits origins rand i := by
  constructor
  · rintro ⟨fuel, p, h⟩
    induction fuel generalizing i with
    | zero => cases h
    | succ fuel ih =>
      unfold randomPair at h
      obtain ⟨⟨o, ds⟩, hx, e, e1⟩ := pickAt_ok hn (rand i)
      rw [e] at h
      change (if ds.isEmpty then _ else _) = _ at h
      by_cases hd : ds = []
      · subst hd
        obtain ⟨j, hj, r⟩ := ih _ h
        exact ⟨j, by omega, r⟩
      · exact ⟨i, Nat.le_refl _, o, ds, e1, hd⟩
  · rintro ⟨j, hj, o, ds, e, hd⟩
    obtain ⟨k, rfl⟩ := Nat.exists_eq_add_of_le hj
    induction k generalizing i with
    | zero =>
      obtain ⟨d, _, e', _⟩ := pickAt_ok hd (rand (i + 1))
      refine ⟨1, (o, d), ?_⟩
      have e2 : pickAt origins (rand i) = .ok (o, ds) := by unfold pickAt; rw [show rand i = rand (i + 0) from rfl, e]
      unfold randomPair
      rw [e2]
      change (if ds.isEmpty then _ else _) = _
      rw [if_neg (by simpa using hd), e']
      rfl
    | succ k ih =>
      obtain ⟨fuel, p, h⟩ := ih (i + 1) (by omega) (by rw [show i + 1 + k = i + (k + 1) by omega]; exact e)
      obtain ⟨⟨o', ds'⟩, hx, e2, _⟩ := pickAt_ok hn (rand i)
      by_cases hd' : ds' = []
      · subst hd'
        refine ⟨fuel + 1, p, ?_⟩
        unfold randomPair
        rw [e2]
        exact h
      · obtain ⟨d, _, e', _⟩ := pickAt_ok hd' (rand (i + 1))
        refine ⟨1, (o', d), ?_⟩
        unfold randomPair
        rw [e2]
        change (if ds'.isEmpty then _ else _) = _
        rw [if_neg (by simpa using hd'), e']
        rfl

/-- **C222 (always returns, refuted).**  If there are origins but none has demand, the function never returns, whatever the random
numbers are; without an origin it is undefined. -/
theorem C222_false_no_demand {α β : Type} (origins : List (α × List β)) (h : ∀ o ∈ origins, o.2 = []) (rand : ℕ → ℕ) :
    (origins ≠ [] → ∀ fuel i, randomPair origins rand fuel i = .diverge) ∧
      (origins = [] → ∀ fuel i, randomPair origins rand (fuel + 1) i = .ub) := by
  refine ⟨fun hn fuel => ?_, ?_⟩
  · induction fuel with
    | zero => intro i; rfl
    | succ fuel ih =>
      intro i
      obtain ⟨⟨o, ds⟩, hx, e, _⟩ := pickAt_ok hn (rand i)
      have hd : ds = [] := h _ hx
      subst hd
      unfold randomPair
      rw [e]
      exact ih (i + 1)
  · rintro rfl fuel i
    rfl

/-! The hypotheses are met: three origins, the second without demand; the draws 1, 4, 2 and 1 lead to the third. -/

example : randomPair [(10, [1, 2]), (20, []), (30, [3, 4])] (fun n => [1, 4, 2, 1].getD n 0) 3 0 = .ok (30, 4) := by decide +kernel

example : Demanded [((10 : ℕ), [1, 2]), (20, []), (30, [3, 4])] 30 4 := ⟨[3, 4], by decide, by decide⟩

example : Hits [((10 : ℕ), [1, 2]), (20, []), (30, [3, 4])] (fun n => [1, 4, 2, 1].getD n 0) 0 :=
  ⟨2, by decide, 30, [3, 4], by decide, by decide⟩

end Verif

import Verif.Lemmas.Gridlock

/-! # C54: the cycle test of the gridlock checker

A directed cycle is a closed walk with at least one link (`Sp.Walk g u ls v`: the links `ls` lead from
`u` to `v`).  The test does not say whether there is a cycle: it ends on every graph (`C54_ends_partial`),
but it answers `false` on every graph with a cycle (`C54_false_on_cycles`) and both `true` and `false` on
graphs without. -/

namespace Verif
open Graph Grid

/-- C54, as far as it is true: the test ends on every graph with an answer, and changes nothing.  Missing:
the answer does not tell whether there is a cycle, see below. -/
theorem C54_ends_partial (ops : List Op) :
    ∃ F b, ∀ fuel ≥ F, hasCycle fuel (run empty ops) = .ok b := by
  obtain ⟨h1, h2⟩ := linkSet_spec (run empty ops)
  have hnd : (linkSet (run empty ops)).Nodup := h1.imp fun h => ne_of_lt h
  obtain ⟨F, b, h⟩ := outer_ends (fine_run ops) _ (linkSet (run empty ops)) (le_refl _) hnd
    fun l hl => (h2 l).1 hl
  refine ⟨max F (linkSet (run empty ops)).length, b, ?_⟩
  intro fuel hf
  exact h fuel (le_trans (le_max_left _ _) hf) fuel (le_trans (le_max_right _ _) hf)

/-- C54 is false of the code: `has_cycle` never answers `true` on a graph that has a directed cycle. -/
theorem C54_false_on_cycles (ops : List Op) (u : ℤ) (ls : List ℤ) (hne : ls ≠ [])
    (hw : Sp.Walk (run empty ops) u ls u) :
    (∀ fuel, hasCycle fuel (run empty ops) ≠ .ok true) ∧
    ∃ F, ∀ fuel ≥ F, hasCycle fuel (run empty ops) = .ok false := by
  obtain ⟨h1, h2⟩ := linkSet_spec (run empty ops)
  have hnd : (linkSet (run empty ops)).Nodup := h1.imp fun h => ne_of_lt h
  have key : ∀ fuel, hasCycle fuel (run empty ops) ≠ .ok true := by
    intro fuel h
    have hr := outer_ranked (fine_run ops) fuel fuel _ h hnd
    obtain ⟨hcl, fr, hf⟩ := hr
    obtain ⟨l, ls, rfl⟩ := List.exists_cons_of_ne_nil hne
    obtain ⟨t, e1, e2⟩ := hw
    have hl : l ∈ linkSet (run empty ops) := (h2 l).2 ((fine_run ops).ids l _ _ e1)
    have hw2 : Sp.Walk (run empty ops) t (ls ++ [l]) t := by
      have : ∀ (xs : List ℤ) (a : ℤ), Sp.Walk (run empty ops) a xs u →
          Sp.Walk (run empty ops) a (xs ++ [l]) t := by
        intro xs
        induction xs with
        | nil => rintro a rfl; exact ⟨t, e1, rfl⟩
        | cons x xs ih => rintro a ⟨b, hb1, hb2⟩; exact ⟨b, hb1, ih b hb2⟩
      exact this ls t e2
    have := rank_walk ⟨hcl, fr, hf⟩ hf ls l l t t u hl e1 hw2
    omega
  refine ⟨key, ?_⟩
  obtain ⟨F, b, h⟩ := C54_ends_partial ops
  cases b with
  | false => exact ⟨F, h⟩
  | true => exact absurd (h F (le_refl _)) (key F)

/-- Without a cycle the answer depends on the numbering of the links: for two links in a row it is `true`
when the first link has the smaller number, and `false` otherwise. -/
theorem C54_depends_on_numbers :
    hasCycle 9 (run empty [.addNode 1, .addNode 2, .addNode 3, .addLink 1 2 10, .addLink 2 3 11]) = .ok true ∧
    hasCycle 9 (run empty [.addNode 1, .addNode 2, .addNode 3, .addLink 1 2 11, .addLink 2 3 10]) = .ok false := by
  decide +kernel

/-- A graph with a cycle meets the hypotheses of `C54_false_on_cycles`. -/
example : Sp.Walk (run empty [.addNode 1, .addNode 2, .addLink 1 2 10, .addLink 2 1 11]) 1 [10, 11] 1 ∧
    hasCycle 9 (run empty [.addNode 1, .addNode 2, .addLink 1 2 10, .addLink 2 1 11]) = .ok false :=
  ⟨⟨2, by decide +kernel, 1, by decide +kernel, rfl⟩, by decide +kernel⟩

end Verif

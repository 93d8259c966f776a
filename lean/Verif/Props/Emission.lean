import Verif.Lemmas.Emission

/-! # C55: emissions

`Totals.le` compares all seven totals; `miles unit l` are the miles driven on link `l` in one interval:
the number of its vehicles divided by the flow scalar, times the distance at the current speed. -/

namespace Verif
open Lnk Emis

variable {V : Type}

/-- A link in use: made from valid parameters, with at least one lane, positive length and a
non-negative capacity, and after any history. -/
def InUse (l : Link V) : Prop :=
  ∃ (k : LinkKind) (a : LinkArgs) (l0 : Link V) (hasNext : V → Bool) (ops : List (LinkOp V)) (out : List V),
    mkLink k a = .ok l0 ∧ 0 < a.lanes ∧ 0 < a.length ∧ 0 ≤ a.cap ∧ l0.run hasNext ops = .ok (l, out)

theorem InUse.sound {l : Link V} (h : InUse l) : Sound l := by
  obtain ⟨k, a, l0, hn, ops, out, h1, h2, h3, h4, h5⟩ := h
  exact mkLink_sound h1 h2 h3 h4 (run_params h5)

/-- C55, one interval.  Every total grows (unless the interval ends an output period, when it is printed
and reset), electric vehicles drive no more than all vehicles, and the distance added is the distance
driven by the vehicles on the links. -/
theorem C55_one_interval (isEv : V → Bool) (unit : ℚ) (hu : 0 ≤ unit) (freq : ℤ) (links : List (Link V))
    (hl : ∀ l ∈ links, InUse l) (s : Em) :
    ∃ t, s.tot.le t ∧ t.vmtEv - s.tot.vmtEv ≤ t.vmt - s.tot.vmt ∧
      t.vmt = s.tot.vmt + (links.map (miles unit)).sum ∧
      update isEv unit freq links s =
        if s.counter + 1 = freq then some (⟨.zero, 0⟩, some t) else some (⟨t, s.counter + 1⟩, none) := by
  obtain ⟨t, h1, h2, h3, h4⟩ := fold_sound isEv hu links s.tot fun l hl' => (hl l hl').sound
  refine ⟨t, h2, h3, h4, ?_⟩
  unfold update
  rw [h1]
  rfl

theorem run_good (isEv : V → Bool) (unit : ℚ) (hu : 0 ≤ unit) (freq : ℤ) : ∀ (hist : List (List (Link V))) (s : Em),
    (∀ ls ∈ hist, ∀ l ∈ ls, InUse l) → Totals.zero.le s.tot → s.tot.vmtEv ≤ s.tot.vmt →
    ∃ r outs, runUpdates isEv unit freq hist s = some (r, outs) ∧
      ∀ t ∈ r.tot :: outs, Totals.zero.le t ∧ t.vmtEv ≤ t.vmt := by
  intro hist
  induction hist with
  | nil => intro s _ h1 h2; exact ⟨s, [], rfl, by simpa using ⟨h1, h2⟩⟩
  | cons ls hist ih =>
    intro s hl h1 h2
    obtain ⟨t, e1, e2, _, e4⟩ := C55_one_interval isEv unit hu freq ls (hl ls (by simp)) s
    have hl' : ∀ ls ∈ hist, ∀ l ∈ ls, InUse l := fun x hx => hl x (by simp [hx])
    have ht : Totals.zero.le t ∧ t.vmtEv ≤ t.vmt := ⟨Totals.le_trans h1 e1, by linarith⟩
    unfold runUpdates
    rw [e4]
    by_cases hc : s.counter + 1 = freq
    · rw [if_pos hc]
      obtain ⟨r, outs, f1, f2⟩ := ih ⟨.zero, 0⟩ hl' (Totals.le_refl _) (by simp [Totals.zero])
      refine ⟨r, t :: outs, ?_, ?_⟩
      · simp only [Option.bind_some, f1]; rfl
      · intro x hx
        simp only [List.mem_cons] at hx
        rcases hx with rfl | rfl | hx
        · exact f2 _ (by simp)
        · exact ht
        · exact f2 x (by simp [hx])
    · rw [if_neg hc]
      obtain ⟨r, outs, f1, f2⟩ := ih ⟨t, s.counter + 1⟩ hl' ht.1 ht.2
      refine ⟨r, outs, ?_, f2⟩
      simp only [Option.bind_some, f1]; rfl

/-- C55.  Over any history, no division by zero occurs, and every total printed and the current totals
are non-negative, with no more miles by electric vehicles than miles. -/
theorem C55_totals (isEv : V → Bool) (unit : ℚ) (hu : 0 ≤ unit) (freq : ℤ) (hist : List (List (Link V)))
    (hl : ∀ ls ∈ hist, ∀ l ∈ ls, InUse l) :
    ∃ r outs, runUpdates isEv unit freq hist ⟨.zero, 0⟩ = some (r, outs) ∧
      ∀ t ∈ r.tot :: outs, 0 ≤ t.fuel ∧ 0 ≤ t.co2 ∧ 0 ≤ t.hc ∧ 0 ≤ t.co ∧ 0 ≤ t.nox ∧ 0 ≤ t.vmt ∧
        0 ≤ t.vmtEv ∧ t.vmtEv ≤ t.vmt := by
  obtain ⟨r, outs, h1, h2⟩ := run_good isEv unit hu freq hist ⟨.zero, 0⟩ hl (Totals.le_refl _)
    (by simp [Totals.zero])
  refine ⟨r, outs, h1, ?_⟩
  intro t ht
  obtain ⟨⟨a1, a2, a3, a4, a5, a6, a7⟩, h⟩ := h2 t ht
  exact ⟨a1, a2, a3, a4, a5, a6, a7, h⟩

theorem period_lemma (isEv : V → Bool) (unit : ℚ) (freq : ℤ) : ∀ (hist : List (List (Link V))) (s : Em) (t : Totals),
    s.counter + hist.length = freq → hist ≠ [] → hist.flatten.foldlM (addLink isEv unit) s.tot = some t →
    runUpdates isEv unit freq hist s = some (⟨.zero, 0⟩, [t]) := by
  intro hist
  induction hist with
  | nil => intro s t _ h; exact absurd rfl h
  | cons ls hist ih =>
    intro s t hc _ hf
    rw [List.flatten_cons, List.foldlM_append] at hf
    cases h1 : ls.foldlM (addLink isEv unit) s.tot with
    | none => rw [h1] at hf; cases hf
    | some u =>
      rw [h1] at hf
      have hf' : hist.flatten.foldlM (addLink isEv unit) u = some t := hf
      unfold runUpdates update
      rw [h1]
      simp only [Option.bind_some]
      by_cases h0 : hist = []
      · subst h0
        simp only [List.flatten_nil, List.foldlM_nil] at hf'
        cases hf'
        rw [if_pos (by simpa using hc)]
        rfl
      · have hpos : 0 < hist.length := List.length_pos_of_ne_nil h0
        rw [if_neg (by simp only [List.length_cons] at hc; push_cast at hc; omega)]
        have := ih ⟨u, s.counter + 1⟩ t (by simp only [List.length_cons] at hc; push_cast at hc ⊢; omega) h0 hf'
        simp only [Option.bind_some, this]
        rfl

/-- C55, what is printed: the totals printed after `freq` intervals are those accumulated from zero over
all links and all these intervals, and accumulation starts again from zero. -/
theorem C55_output_period (isEv : V → Bool) (unit : ℚ) (freq : ℤ) (hist : List (List (Link V))) (t : Totals)
    (hf : (hist.length : ℤ) = freq) (h0 : hist ≠ [])
    (ht : hist.flatten.foldlM (addLink isEv unit) .zero = some t) :
    runUpdates isEv unit freq hist ⟨.zero, 0⟩ = some (⟨.zero, 0⟩, [t]) :=
  period_lemma isEv unit freq hist ⟨.zero, 0⟩ t (by simpa using hf) h0 ht

/-- A point queue with two vehicles on it, one of them electric. -/
def exUse : Res (Link ℕ) :=
  (mkLink .pq { hold := 1 / 10, cap := 1 / 2, lanes := 2, length := 800, ffs := 16, unit := 5, scalar := 1 }).bind
    fun l => (l.run (fun _ => true) [.move (.arrive 1), .move (.arrive 2), .clear, .evolve fun _ => 0]).bind
      fun r => .ok r.1

example : (exUse.bind fun l =>
    .ok [l.travelling.length, l.finished.length]) = .ok [2, 0] := by decide +kernel

example : (exUse.bind fun l =>
    match runUpdates (fun v => v == 2) 5 2 [[l], [l]] ⟨.zero, 0⟩ with
    | none => .ub
    | some r => .ok (r.2.map fun t => (t.vmt, t.vmtEv, decide (0 < t.co2)))) = .ok [(1 / 5, 1 / 10, true)] := by
  decide +kernel

end Verif

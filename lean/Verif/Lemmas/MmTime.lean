import Verif.Lemmas.MmRun

/-! How long vehicles take on links with stops. -/

namespace Verif.MmLnk
open MLnk

variable {V : Type} [DecidableEq V]
variable {K : Kinds V} {stops : List Stop} {k : ℤ} {n : ℕ}

theorem holds_append (v : V) (l l' : List (ℕ × Ev V)) : holds v (l ++ l') = holds v l + holds v l' := by
  simp only [holds, List.countP_append]

theorem visit_holds {orc : ℕ → ℤ × Bool} {t p : ℕ} {v : V} {b b1 : Bay V} {x : Bool}
    (h : visit K stops k orc t p v b = .ok (b1, x)) :
    (∀ w, holds w b1.log = holds w b.log + if x = true ∧ w = v then 1 else 0) ∧
      (x = true → ∃ r i, K.bus v = some r ∧ stopAt stops r p = some i) := by
  simp only [visit] at h
  split at h
  · simp only [Res.ok.injEq, Prod.mk.injEq] at h
    obtain ⟨rfl, rfl⟩ := h
    simp
  · rename_i i hi
    rw [Res.bind_eq_ok'] at h
    obtain ⟨⟨b2, hd⟩, hho, h⟩ := h
    have hb2 := hold_log hho
    simp only at h
    cases hd with
    | true =>
      simp only [if_true, Res.ok.injEq, Prod.mk.injEq] at h
      obtain ⟨rfl, rfl⟩ := h
      refine ⟨fun w => ?_, fun _ => ?_⟩
      · split
        · simp only [Bay.note, holds_append, hb2]
          by_cases e : w = v
          · simp [holds, e]
          · simp [holds, e, Ne.symm e]
        · simp only [Bay.note, holds_append, hb2]
          by_cases e : w = v
          · simp [holds, e]
          · simp [holds, e, Ne.symm e]
      · obtain ⟨r, h1, h2⟩ := bind_bus hi
        exact ⟨r, i, h1, h2⟩
    | false =>
      simp only [Bool.false_eq_true, if_false, Res.ok.injEq, Prod.mk.injEq] at h
      obtain ⟨rfl, rfl⟩ := h
      simp [hb2]

theorem goOn_holds {t p : ℕ} {v : V} {b b1 : Bay V} (h : goOn K stops t p v b = .ok b1) (w : V) :
    holds w b1.log = holds w b.log := by
  simp only [goOn] at h
  split at h
  · simp only [Res.ok.injEq] at h; rw [← h]
  · simp only [release] at h
    split at h
    · simp only [Res.ok.injEq] at h
      rw [← h]
      simp [Bay.note, holds_append]
      simp [holds]
    · exact absurd h (by simp)

theorem comeTo_holds (t p : ℕ) (v : V) (b : Bay V) (w : V) :
    holds w (comeTo K stops t p v b).log = holds w b.log := by
  simp only [comeTo]
  split
  · rfl
  · simp [receive, Bay.note, holds_append]
    simp [holds]

theorem comeIn_holds {t : ℕ} {v : V} {b b1 : Bay V} (h : comeIn K stops t v b = .ok b1) (w : V) :
    holds w b1.log = holds w b.log := by
  simp only [comeIn] at h
  split at h
  · simp only [Res.ok.injEq] at h; rw [← h]
    simp [Bay.note, holds_append]
    simp [holds]
  · split at h
    · exact absurd h (by simp)
    · simp only [Res.ok.injEq] at h; rw [← h]
      simp [receive, Bay.note, holds_append]
      simp [holds]

theorem leave_holds (t : ℕ) (v : V) (b : Bay V) (w : V) :
    holds w (Bay.note t (.leave v) b).log = holds w b.log := by
  simp [Bay.note, holds_append]
  simp [holds]

theorem scan_other {orc : ℕ → ℤ × Bool} {t : ℕ} {ms : ℤ} {v : V} :
    ∀ (q : List (V × ℕ)) (fin : List V) (b : Bay V) (r : List (V × ℕ) × List V × Bay V),
      scan K stops k orc t ms q fin b = .ok r → v ∉ q.map Prod.fst →
      holds v r.2.2.log = holds v b.log ∧ v ∉ r.1.map Prod.fst
  | [], fin, b, r, h, _ => by
    simp only [scan, Res.ok.injEq] at h
    subst h
    simp
  | e :: q, fin, b, r, h, hv => by
    rw [List.map_cons, List.mem_cons, not_or] at hv
    simp only [scan] at h
    rw [Res.bind_eq_ok'] at h
    obtain ⟨⟨b1, x⟩, h1, h⟩ := h
    have f1 := (visit_holds h1).1 v
    rw [if_neg (by tauto), Nat.add_zero] at f1
    simp only at h
    split at h
    · rw [Res.bind_eq_ok'] at h
      obtain ⟨r2, h2, h⟩ := h
      simp only [Res.ok.injEq] at h
      subst h
      obtain ⟨g1, g2⟩ := scan_other q _ _ _ h2 hv.2
      refine ⟨g1.trans f1, ?_⟩
      rw [List.map_cons, List.mem_cons, not_or]
      exact ⟨hv.1, g2⟩
    · rw [Res.bind_eq_ok'] at h
      obtain ⟨b2, h2, h⟩ := h
      have f2 := goOn_holds h2 v
      split at h
      · obtain ⟨g1, g2⟩ := scan_other q _ _ _ h hv.2
        rw [leave_holds, comeTo_holds] at g1
        exact ⟨by rw [g1, f2, f1], g2⟩
      · rw [Res.bind_eq_ok'] at h
        obtain ⟨r2, h3, h⟩ := h
        simp only [Res.ok.injEq] at h
        subst h
        obtain ⟨g1, g2⟩ := scan_other q _ _ _ h3 hv.2
        rw [comeTo_holds] at g1
        refine ⟨by rw [g1, f2, f1], ?_⟩
        rw [List.map_cons, List.mem_cons, not_or]
        exact ⟨hv.1, g2⟩

/-- A vehicle stays where it is exactly when a stop holds it. -/
theorem scan_time {orc : ℕ → ℤ × Bool} {t : ℕ} {ms : ℤ} {v : V} {p : ℕ} (hn : n = (max 1 ms).toNat) :
    ∀ (q : List (V × ℕ)) (fin : List V) (b : Bay V) (r : List (V × ℕ) × List V × Bay V),
      scan K stops k orc t ms q fin b = .ok r → (q.map Prod.fst).Nodup → (v, p) ∈ q →
      (holds v r.2.2.log = holds v b.log + 1 ∧ (v, p) ∈ r.1) ∨
      (holds v r.2.2.log = holds v b.log ∧ p + 1 < n ∧ (v, p + 1) ∈ r.1) ∨
      (holds v r.2.2.log = holds v b.log ∧ n ≤ p + 1 ∧ v ∉ r.1.map Prod.fst)
  | [], fin, b, r, _, _, hv => by simp at hv
  | e :: q, fin, b, r, h, hnd, hv => by
    rw [List.map_cons, List.nodup_cons] at hnd
    simp only [scan] at h
    rw [Res.bind_eq_ok'] at h
    obtain ⟨⟨b1, x⟩, h1, h⟩ := h
    have f1 := (visit_holds h1).1 v
    simp only at h
    rcases List.mem_cons.1 hv with rfl | hm
    · -- it is this vehicle
      have hq : v ∉ q.map Prod.fst := hnd.1
      simp only [and_true] at f1
      cases x with
      | true =>
        simp only [if_true] at h f1
        rw [Res.bind_eq_ok'] at h
        obtain ⟨r2, h2, h⟩ := h
        simp only [Res.ok.injEq] at h
        subst h
        exact .inl ⟨by rw [(scan_other q _ _ _ h2 hq).1, f1], List.mem_cons_self⟩
      | false =>
        simp only [Bool.false_eq_true, if_false, Nat.add_zero] at h f1
        rw [Res.bind_eq_ok'] at h
        obtain ⟨b2, h2, h⟩ := h
        have f2 := goOn_holds h2 v
        split at h
        · rename_i hend
          obtain ⟨g1, g2⟩ := scan_other q _ _ _ h hq
          rw [leave_holds, comeTo_holds] at g1
          refine .inr (.inr ⟨by rw [g1, f2, f1], ?_, g2⟩)
          omega
        · rename_i hend
          rw [Res.bind_eq_ok'] at h
          obtain ⟨r2, h3, h⟩ := h
          simp only [Res.ok.injEq] at h
          subst h
          obtain ⟨g1, g2⟩ := scan_other q _ _ _ h3 hq
          rw [comeTo_holds] at g1
          refine .inr (.inl ⟨by rw [g1, f2, f1], ?_, List.mem_cons_self⟩)
          omega
    · have hne : v ≠ e.1 := by
        rintro rfl
        exact hnd.1 (List.mem_map.2 ⟨_, hm, rfl⟩)
      rw [if_neg (by tauto), Nat.add_zero] at f1
      split at h
      · rw [Res.bind_eq_ok'] at h
        obtain ⟨r2, h2, h⟩ := h
        simp only [Res.ok.injEq] at h
        subst h
        rcases scan_time hn q _ _ _ h2 hnd.2 hm with g | g | g
        · exact .inl ⟨by rw [g.1, f1], List.mem_cons_of_mem _ g.2⟩
        · exact .inr (.inl ⟨by rw [g.1, f1], g.2.1, List.mem_cons_of_mem _ g.2.2⟩)
        · refine .inr (.inr ⟨by rw [g.1, f1], g.2.1, ?_⟩)
          rw [List.map_cons, List.mem_cons, not_or]
          exact ⟨hne, g.2.2⟩
      · rw [Res.bind_eq_ok'] at h
        obtain ⟨b2, h2, h⟩ := h
        have f2 := goOn_holds h2 v
        split at h
        · have := scan_time hn q _ _ _ h hnd.2 hm
          rw [leave_holds, comeTo_holds, f2, f1] at this
          exact this
        · rw [Res.bind_eq_ok'] at h
          obtain ⟨r2, h3, h⟩ := h
          simp only [Res.ok.injEq] at h
          subst h
          have := scan_time hn q _ _ _ h3 hnd.2 hm
          rw [comeTo_holds, f2, f1] at this
          rcases this with g | g | g
          · exact .inl ⟨g.1, List.mem_cons_of_mem _ g.2⟩
          · exact .inr (.inl ⟨g.1, g.2.1, List.mem_cons_of_mem _ g.2.2⟩)
          · refine .inr (.inr ⟨g.1, g.2.1, ?_⟩)
            rw [List.map_cons, List.mem_cons, not_or]
            exact ⟨hne, g.2.2⟩

theorem letIn_holds {t : ℕ} {origin : Bool} {v : V} : ∀ (vs : List V) (x : ℚ) (w : V → ℤ) (b : Bay V)
    (r : Door V), letIn K stops t origin x vs w b = .ok r →
      holds v r.bay.log = holds v b.log ∧ ∀ u, u ∈ r.inside ∨ u ∈ r.outside → u ∈ vs
  | [], x, w, b, r, h => by
    simp only [letIn, Res.ok.injEq] at h
    subst h
    simp
  | u :: vs, x, w, b, r, h => by
    simp only [letIn] at h
    split at h
    · split at h
      · rw [Res.bind_eq_ok'] at h
        obtain ⟨r2, h2, h⟩ := h
        simp only [Res.ok.injEq] at h
        subst h
        obtain ⟨g1, g2⟩ := letIn_holds vs _ _ _ _ h2
        refine ⟨g1, ?_⟩
        intro z hz
        simp only [List.mem_cons] at hz ⊢
        have := g2 z
        tauto
      · rw [Res.bind_eq_ok'] at h
        obtain ⟨b2, h1, h⟩ := h
        rw [Res.bind_eq_ok'] at h
        obtain ⟨r2, h2, h⟩ := h
        simp only [Res.ok.injEq] at h
        subst h
        obtain ⟨g1, g2⟩ := letIn_holds vs _ _ _ _ h2
        refine ⟨g1.trans (comeIn_holds h1 v), ?_⟩
        intro z hz
        simp only [List.mem_cons] at hz ⊢
        have := g2 z
        tauto
    · simp only [Res.ok.injEq] at h
      subst h
      simp

/-- Where a vehicle is that was at position `p` before `e` intervals, with `h0` holds before. -/
def Gone (n : ℕ) (v : V) (p e h0 : ℕ) (l : Pq V) : Prop :=
  (∃ s, (v, s) ∈ l.queue ∧ s + holds v l.bay.log = p + e + h0) ∨
  (v ∉ l.base.com.incoming ∧ v ∉ l.queue.map Prod.fst ∧ n + holds v l.bay.log ≤ p + e + h0)

theorem step_gone {l : Pq V} {op : Op V} {r : Link V × List V} {arr dep : List V} {v : V} {p e h0 : ℕ}
    (h : Acc K stops n (.pq l) arr dep) (hr : (Link.pq l).step K op = .ok r) (hv : v ∉ arrivals [op])
    (hg : Gone n v p e h0 l) :
    ∃ l', r.1 = .pq l' ∧ Gone n v p (e + intervals [op]) h0 l' := by
  cases op with
  | arrive w =>
    simp only [Link.step] at hr
    split at hr
    · exact absurd hr (by simp)
    · simp only [Res.ok.injEq] at hr
      subst hr
      refine ⟨_, rfl, ?_⟩
      have hvw : v ≠ w := by simpa [arrivals] using hv
      rcases hg with hg | hg
      · exact .inl hg
      · refine .inr ⟨?_, hg.2⟩
        simp only [Link.com, List.mem_append, not_or, List.mem_singleton]
        exact ⟨hg.1, hvw⟩
  | depart f =>
    simp only [Link.step] at hr
    split at hr
    · simp only [Res.ok.injEq] at hr
      subst hr
      exact ⟨_, rfl, hg⟩
    · simp only [Res.ok.injEq] at hr
      subst hr
      exact ⟨_, rfl, hg⟩
  | clear t =>
    simp only [Link.step] at hr
    rw [Res.bind_eq_ok'] at hr
    obtain ⟨l', h1, hr⟩ := hr
    simp only [Res.ok.injEq] at hr
    subst hr
    refine ⟨l', rfl, ?_⟩
    simp only [Pq.clear] at h1
    rw [Res.bind_eq_ok'] at h1
    obtain ⟨d, hd, h1⟩ := h1
    simp only [Res.ok.injEq] at h1
    subst h1
    obtain ⟨g1, g2⟩ := letIn_holds (v := v) _ _ _ _ _ hd
    rcases hg with ⟨s, hg, hs⟩ | ⟨hg1, hg2, hg3⟩
    · refine .inl ⟨s, List.mem_append_left _ hg, ?_⟩
      simp only [g1]; exact hs
    · refine .inr ⟨fun hm => hg1 (g2 v (.inr hm)), ?_, by simp only [g1]; exact hg3⟩
      simp only [List.map_append, List.map_map, Function.comp_def, List.map_id', List.mem_append, not_or]
      exact ⟨hg2, fun hm => hg1 (g2 v (.inl hm))⟩
  | evolve t rnd ds orc =>
    simp only [Link.step] at hr
    rw [Res.bind_eq_ok'] at hr
    obtain ⟨l', h1, hr⟩ := hr
    simp only [Res.ok.injEq] at hr
    subst hr
    refine ⟨l', rfl, ?_⟩
    simp only [Pq.evolve] at h1
    rw [Res.bind_eq_ok'] at h1
    obtain ⟨d, hd, h1⟩ := h1
    simp only [Res.ok.injEq] at h1
    subst h1
    have hnd : (l.queue.map Prod.fst).Nodup := by
      have := h.nodup
      simp only [Link.present, List.nodup_append] at this
      exact this.1.2.1
    have hi : intervals [Op.evolve t rnd ds orc (V := V)] = 1 := by simp [intervals]
    rw [hi]
    rcases hg with ⟨s, hg, hs⟩ | ⟨hg1, hg2, hg3⟩
    · rcases scan_time (n := n) h.inv.2.2.symm _ _ _ _ hd hnd hg with g | g | g
      · exact .inl ⟨s, g.2, by simp only [g.1]; omega⟩
      · exact .inl ⟨s + 1, g.2.2, by simp only [g.1]; omega⟩
      · refine .inr ⟨?_, g.2.2, by simp only [g.1]; omega⟩
        intro hm
        have := h.nodup
        simp only [Link.present, List.nodup_append] at this
        exact this.1.2.2 v hm v (List.mem_map.2 ⟨_, hg, rfl⟩) rfl
    · obtain ⟨g1, g2⟩ := scan_other _ _ _ _ hd hg2
      exact .inr ⟨hg1, g2, by simp only [g1]; omega⟩

theorem intervals_cons (op : Op V) (ops : List (Op V)) :
    intervals (op :: ops) = intervals [op] + intervals ops := by
  simp only [intervals, List.countP_cons, List.countP_nil]; omega

theorem run_gone (hK : K.Wf) {v : V} {p h0 : ℕ} : ∀ (ops : List (Op V)) {l : Pq V} {e : ℕ}
    {r : Link V × List V} {arr dep : List V},
    Acc K stops n (.pq l) arr dep → (Link.pq l).run K ops = .ok r → v ∉ arrivals ops →
    Gone n v p e h0 l → ∃ l', r.1 = .pq l' ∧ Gone n v p (e + intervals ops) h0 l'
  | [], l, e, r, arr, dep, h, hr, _, hg => by
    simp only [Link.run, Res.ok.injEq] at hr
    subst hr
    exact ⟨l, rfl, by simpa [intervals] using hg⟩
  | op :: ops, l, e, r, arr, dep, h, hr, hv, hg => by
    simp only [Link.run] at hr
    rw [Res.bind_eq_ok'] at hr
    obtain ⟨r1, h1, hr⟩ := hr
    rw [Res.bind_eq_ok'] at hr
    obtain ⟨r2, h2, hr⟩ := hr
    simp only [Res.ok.injEq] at hr
    subst hr
    have ha : arrivals (op :: ops) = arrivals [op] ++ arrivals ops := by
      simp only [arrivals]
      rw [← List.filterMap_append]; rfl
    rw [ha, List.mem_append, not_or] at hv
    obtain ⟨l1, e1, g1⟩ := step_gone h h1 hv.1 hg
    have hacc := step_acc hK h h1
    rw [e1] at hacc h2
    have := run_gone hK ops hacc h2 hv.2 g1
    rw [intervals_cons, ← Nat.add_assoc]
    exact this

end Verif.MmLnk

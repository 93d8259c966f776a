import Verif.Lemmas.MmTime

/-! Only buses are dealt with by stops, each by the stops of its route. -/

namespace Verif.MmLnk
open MLnk

variable {V : Type} [DecidableEq V]
variable {K : Kinds V} {stops : List Stop} {k : ℤ} {n : ℕ}

/-- Every event at a stop is about a bus of the route of the stop. -/
def LogOk (K : Kinds V) (stops : List Stop) (log : List (ℕ × Ev V)) : Prop :=
  ∀ e ∈ log, ∀ i v, e.2.atStop = some (i, v) → ∃ (r : ℤ) (p : ℕ), K.bus v = some r ∧ stops[i]? = some ⟨r, p⟩

theorem logOk_note {b : Bay V} {t : ℕ} {e : Ev V} (h : LogOk K stops b.log)
    (he : ∀ i v, e.atStop = some (i, v) → ∃ (r : ℤ) (p : ℕ), K.bus v = some r ∧ stops[i]? = some ⟨r, p⟩) :
    LogOk K stops (Bay.note t e b).log := by
  intro x hx i v hv
  rcases List.mem_append.1 hx with hx | hx
  · exact h x hx i v hv
  · rw [List.mem_singleton.1 hx] at hv
    exact he i v hv

theorem logOk_at {v : V} {p i : ℕ} (h : ((K.bus v).bind fun r => stopAt stops r p) = some i) :
    ∃ (r : ℤ) (p : ℕ), K.bus v = some r ∧ stops[i]? = some ⟨r, p⟩ := by
  obtain ⟨r, h1, h2⟩ := bind_bus h
  exact ⟨r, p, h1, stopAt_some h2⟩

theorem visit_ok {orc : ℕ → ℤ × Bool} {t p : ℕ} {v : V} {b : Bay V} {r : Bay V × Bool}
    (hb : LogOk K stops b.log) (h : visit K stops k orc t p v b = .ok r) : LogOk K stops r.1.log := by
  simp only [visit] at h
  split at h
  · simp only [Res.ok.injEq] at h
    rw [← h]; exact hb
  · rename_i i hi
    rw [Res.bind_eq_ok'] at h
    obtain ⟨⟨b2, hd⟩, hho, h⟩ := h
    have hb2 := hold_log hho
    have hb3 : LogOk K stops b2.log := by rw [hb2]; exact hb
    have hat := logOk_at hi
    have hn : LogOk K stops (Bay.note t (.hold i v) b2).log := logOk_note hb3 (by
      intro j w hw
      simp only [Ev.atStop, Option.some.injEq, Prod.mk.injEq] at hw
      rw [← hw.1, ← hw.2]; exact hat)
    simp only at h
    split at h
    · simp only [Res.ok.injEq] at h
      rw [← h]
      simp only
      split
      · exact logOk_note hn (by
          intro j w hw
          simp only [Ev.atStop, Option.some.injEq, Prod.mk.injEq] at hw
          rw [← hw.1, ← hw.2]; exact hat)
      · exact hn
    · simp only [Res.ok.injEq] at h
      rw [← h]; exact hb3

theorem goOn_ok {t p : ℕ} {v : V} {b b1 : Bay V} (hb : LogOk K stops b.log)
    (h : goOn K stops t p v b = .ok b1) : LogOk K stops b1.log := by
  simp only [goOn] at h
  split at h
  · simp only [Res.ok.injEq] at h; rw [← h]; exact hb
  · rename_i i hi
    simp only [release] at h
    split at h
    · simp only [Res.ok.injEq] at h
      rw [← h]
      refine logOk_note ?_ ?_
      · exact hb
      · intro j w hw
        simp only [Ev.atStop, Option.some.injEq, Prod.mk.injEq] at hw
        rw [← hw.1, ← hw.2]; exact logOk_at hi
    · exact absurd h (by simp)

theorem receive_ok {t p i : ℕ} {v : V} {b : Bay V} (hb : LogOk K stops b.log)
    (hi : ((K.bus v).bind fun r => stopAt stops r p) = some i) : LogOk K stops (receive t i v b).log := by
  refine logOk_note ?_ ?_
  · exact hb
  · intro j w hw
    simp only [Ev.atStop, Option.some.injEq, Prod.mk.injEq] at hw
    rw [← hw.1, ← hw.2]; exact logOk_at hi

theorem comeTo_ok {t p : ℕ} {v : V} {b : Bay V} (hb : LogOk K stops b.log) :
    LogOk K stops (comeTo K stops t p v b).log := by
  simp only [comeTo]
  split
  · exact hb
  · rename_i i hi
    exact receive_ok hb hi

theorem comeIn_ok {t : ℕ} {v : V} {b b1 : Bay V} (hb : LogOk K stops b.log)
    (h : comeIn K stops t v b = .ok b1) : LogOk K stops b1.log := by
  have hn : LogOk K stops (Bay.note t (.enter v) b).log := logOk_note hb (by simp [Ev.atStop])
  simp only [comeIn] at h
  split at h
  · simp only [Res.ok.injEq] at h; rw [← h]; exact hn
  · rename_i i hi
    split at h
    · exact absurd h (by simp)
    · simp only [Res.ok.injEq] at h; rw [← h]
      exact receive_ok hn hi

theorem leave_ok {t : ℕ} {v : V} {b : Bay V} (hb : LogOk K stops b.log) :
    LogOk K stops (Bay.note t (.leave v) b).log := logOk_note hb (by simp [Ev.atStop])

theorem moveCell_ok {orc : ℕ → ℤ × Bool} {t p : ℕ} : ∀ (m : ℕ) (q : List V) (b : Bay V)
    (r : List V × List V × Bay V), LogOk K stops b.log → moveCell K stops k orc t p m q b = .ok r →
      LogOk K stops r.2.2.log
  | m, [], b, r, hb, h => by
    simp only [moveCell, Res.ok.injEq] at h
    rw [← h]; exact hb
  | 0, v :: q, b, r, hb, h => by
    simp only [moveCell, Res.ok.injEq] at h
    rw [← h]; exact hb
  | m + 1, v :: q, b, r, hb, h => by
    simp only [moveCell] at h
    rw [Res.bind_eq_ok'] at h
    obtain ⟨x, h1, h⟩ := h
    have hx := visit_ok hb h1
    split at h
    · rw [Res.bind_eq_ok'] at h
      obtain ⟨r2, h2, h⟩ := h
      simp only [Res.ok.injEq] at h
      rw [← h]; exact moveCell_ok (m + 1) q _ r2 hx h2
    · rw [Res.bind_eq_ok'] at h
      obtain ⟨b2, h2, h⟩ := h
      rw [Res.bind_eq_ok'] at h
      obtain ⟨r2, h3, h⟩ := h
      simp only [Res.ok.injEq] at h
      rw [← h]; exact moveCell_ok m q _ r2 (comeTo_ok (goOn_ok hx h2)) h3

theorem moveFrom_ok {orc : ℕ → ℤ × Bool} {t : ℕ} : ∀ (rest : List (MLnk.Cell V)) (p : ℕ)
    (c : MLnk.Cell V) (b : Bay V) (r : List (MLnk.Cell V) × Bay V), LogOk K stops b.log →
      moveFrom K stops k orc t p c rest b = .ok r → LogOk K stops r.2.log
  | [], p, c, b, r, hb, h => by
    simp only [moveFrom, Res.ok.injEq] at h
    rw [← h]; exact hb
  | d :: rest, p, c, b, r, hb, h => by
    simp only [moveFrom] at h
    rw [Res.bind_eq_ok'] at h
    obtain ⟨x, h1, h⟩ := h
    rw [Res.bind_eq_ok'] at h
    obtain ⟨y, h2, h⟩ := h
    rw [Res.bind_eq_ok'] at h
    obtain ⟨z, h3, h⟩ := h
    simp only [Res.ok.injEq] at h
    rw [← h]
    exact moveFrom_ok rest _ _ _ z (moveCell_ok _ _ _ _ (moveCell_ok _ _ _ _ hb h1) h2) h3

theorem lastLoop_ok {orc : ℕ → ℤ × Bool} {t p : ℕ} {ps : ℚ} : ∀ (ds : List ℚ) (nc nt : ℕ)
    (qc qt fin : List V) (b : Bay V) (r : Tail V), LogOk K stops b.log →
      lastLoop K stops k orc t p ps ds nc nt qc qt fin b = .ok r → LogOk K stops r.bay.log
  | [], nc, nt, qc, qt, fin, b, r, hb, h => by
    rw [lastLoop.eq_def] at h
    dsimp only at h
    split at h
    · simp only [Res.ok.injEq] at h; rw [← h]; exact hb
    · exact absurd h (by simp)
  | d :: ds, nc, nt, qc, qt, fin, b, r, hb, h => by
    rw [lastLoop.eq_def] at h
    dsimp only at h
    split at h
    · simp only [Res.ok.injEq] at h; rw [← h]; exact hb
    · by_cases hcar : (if d < ps then decide (nc > 0) else !decide (nt > 0)) = true
      · simp only [hcar, if_true] at h
        split at h
        · exact absurd h (by simp)
        · split at h
          · exact lastLoop_ok ds _ _ _ _ _ _ _ (leave_ok hb) h
          · exact absurd h (by simp)
      · rw [if_neg hcar] at h
        split at h
        · exact lastLoop_ok ds _ _ _ _ _ _ _ hb h
        · rw [Res.bind_eq_ok'] at h
          obtain ⟨x, h1, h⟩ := h
          have hx := visit_ok hb h1
          split at h
          · rw [Res.bind_eq_ok'] at h
            obtain ⟨y, h2, h⟩ := h
            simp only [Res.ok.injEq] at h
            rw [← h]; exact lastLoop_ok ds _ _ _ _ _ _ y hx h2
          · split at h
            · rw [Res.bind_eq_ok'] at h
              obtain ⟨b2, h2, h⟩ := h
              exact lastLoop_ok ds _ _ _ _ _ _ _ (leave_ok (goOn_ok hx h2)) h
            · exact absurd h (by simp)

theorem moveLast_ok {orc : ℕ → ℤ × Bool} {t : ℕ} {ds : List ℚ} : ∀ (cs : List (MLnk.Cell V)) (p : ℕ)
    (fin : List V) (b : Bay V) (r : List (MLnk.Cell V) × List V × Bay V), LogOk K stops b.log →
      moveLast K stops k orc t ds p cs fin b = .ok r → LogOk K stops r.2.2.log
  | [], p, fin, b, r, hb, h => by simp [moveLast] at h
  | [c], p, fin, b, r, hb, h => by
    simp only [moveLast] at h
    rw [Res.bind_eq_ok'] at h
    obtain ⟨y, h2, h⟩ := h
    simp only [Res.ok.injEq] at h
    rw [← h]; exact lastLoop_ok _ _ _ _ _ _ _ y hb h2
  | c :: d :: rest, p, fin, b, r, hb, h => by
    simp only [moveLast] at h
    rw [Res.bind_eq_ok'] at h
    obtain ⟨y, h2, h⟩ := h
    simp only [Res.ok.injEq] at h
    rw [← h]; exact moveLast_ok (d :: rest) _ _ _ y hb h2

theorem scan_ok {orc : ℕ → ℤ × Bool} {t : ℕ} {ms : ℤ} : ∀ (q : List (V × ℕ)) (fin : List V) (b : Bay V)
    (r : List (V × ℕ) × List V × Bay V), LogOk K stops b.log →
      scan K stops k orc t ms q fin b = .ok r → LogOk K stops r.2.2.log
  | [], fin, b, r, hb, h => by
    simp only [scan, Res.ok.injEq] at h
    rw [← h]; exact hb
  | e :: q, fin, b, r, hb, h => by
    simp only [scan] at h
    rw [Res.bind_eq_ok'] at h
    obtain ⟨x, h1, h⟩ := h
    have hx := visit_ok hb h1
    split at h
    · rw [Res.bind_eq_ok'] at h
      obtain ⟨r2, h2, h⟩ := h
      simp only [Res.ok.injEq] at h
      rw [← h]; exact scan_ok q _ _ r2 hx h2
    · rw [Res.bind_eq_ok'] at h
      obtain ⟨b2, h2, h⟩ := h
      split at h
      · exact scan_ok q _ _ _ (leave_ok (comeTo_ok (goOn_ok hx h2))) h
      · rw [Res.bind_eq_ok'] at h
        obtain ⟨r2, h3, h⟩ := h
        simp only [Res.ok.injEq] at h
        rw [← h]; exact scan_ok q _ _ r2 (comeTo_ok (goOn_ok hx h2)) h3

theorem letIn_ok {t : ℕ} {origin : Bool} : ∀ (vs : List V) (x : ℚ) (w : V → ℤ) (b : Bay V)
    (r : Door V), LogOk K stops b.log → letIn K stops t origin x vs w b = .ok r → LogOk K stops r.bay.log
  | [], x, w, b, r, hb, h => by
    simp only [letIn, Res.ok.injEq] at h
    rw [← h]; exact hb
  | u :: vs, x, w, b, r, hb, h => by
    simp only [letIn] at h
    split at h
    · split at h
      · rw [Res.bind_eq_ok'] at h
        obtain ⟨r2, h2, h⟩ := h
        simp only [Res.ok.injEq] at h
        rw [← h]; exact letIn_ok vs _ _ _ r2 hb h2
      · rw [Res.bind_eq_ok'] at h
        obtain ⟨b2, h1, h⟩ := h
        rw [Res.bind_eq_ok'] at h
        obtain ⟨r2, h2, h⟩ := h
        simp only [Res.ok.injEq] at h
        rw [← h]; exact letIn_ok vs _ _ _ r2 (comeIn_ok hb h1) h2
    · simp only [Res.ok.injEq] at h
      rw [← h]; exact hb

theorem comeIns_ok {t : ℕ} : ∀ (vs : List V) (b b' : Bay V), LogOk K stops b.log →
    Res.foldlM (fun b v => comeIn K stops t v b) b vs = .ok b' → LogOk K stops b'.log := by
  intro vs
  induction vs with
  | nil => intro b b' hb h; simp only [Res.foldlM, Res.ok.injEq] at h; rw [← h]; exact hb
  | cons v vs ih =>
    intro b b' hb h
    rw [Res.foldlM_cons, Res.bind_eq_ok] at h
    obtain ⟨b1, h1, h⟩ := h
    exact ih _ _ (comeIn_ok hb h1) h

theorem step_ok {l : Link V} {op : Op V} {r : Link V × List V} (hb : LogOk K l.stops l.bay.log)
    (h : l.step K op = .ok r) : LogOk K r.1.stops r.1.bay.log ∧ r.1.stops = l.stops := by
  have hset : ∀ c : Common V, (l.setCom c).stops = l.stops := by intro c; cases l <;> rfl
  cases op with
  | arrive v =>
    simp only [Link.step] at h
    split at h
    · exact absurd h (by simp)
    · simp only [Res.ok.injEq] at h
      rw [← h]
      exact ⟨by rw [hset, setCom_bay]; exact hb, hset _⟩
  | depart f =>
    simp only [Link.step] at h
    split at h
    · simp only [Res.ok.injEq] at h
      rw [← h]; exact ⟨hb, rfl⟩
    · simp only [Res.ok.injEq] at h
      rw [← h]
      exact ⟨by rw [hset, setCom_bay]; exact hb, hset _⟩
  | clear t =>
    cases l with
    | ctm l =>
      simp only [Link.step] at h
      rw [Res.bind_eq_ok'] at h
      obtain ⟨l', h1, h⟩ := h
      simp only [Res.ok.injEq] at h
      rw [← h]
      simp only [Ctm.clear] at h1
      split at h1
      · exact absurd h1 (by simp)
      · rw [Res.bind_eq_ok'] at h1
        obtain ⟨b, h2, h1⟩ := h1
        simp only [Res.ok.injEq] at h1
        rw [← h1]
        exact ⟨comeIns_ok _ _ _ hb h2, rfl⟩
    | pq l =>
      simp only [Link.step] at h
      rw [Res.bind_eq_ok'] at h
      obtain ⟨l', h1, h⟩ := h
      simp only [Res.ok.injEq] at h
      rw [← h]
      simp only [Pq.clear] at h1
      rw [Res.bind_eq_ok'] at h1
      obtain ⟨b, h2, h1⟩ := h1
      simp only [Res.ok.injEq] at h1
      rw [← h1]
      exact ⟨letIn_ok _ _ _ _ _ hb h2, rfl⟩
  | evolve t rnd ds orc =>
    cases l with
    | ctm l =>
      simp only [Link.step] at h
      rw [Res.bind_eq_ok'] at h
      obtain ⟨l', h1, h⟩ := h
      simp only [Res.ok.injEq] at h
      rw [← h]
      simp only [Ctm.evolve] at h1
      rw [Res.bind_eq_ok'] at h1
      obtain ⟨cs, h2, h1⟩ := h1
      split at h1
      · exact absurd h1 (by simp)
      · rw [Res.bind_eq_ok'] at h1
        obtain ⟨m, h3, h1⟩ := h1
        rw [Res.bind_eq_ok'] at h1
        obtain ⟨r, h4, h1⟩ := h1
        simp only [Res.ok.injEq] at h1
        rw [← h1]
        exact ⟨moveLast_ok _ _ _ _ _ (moveFrom_ok _ _ _ _ _ hb h3) h4, rfl⟩
    | pq l =>
      simp only [Link.step] at h
      rw [Res.bind_eq_ok'] at h
      obtain ⟨l', h1, h⟩ := h
      simp only [Res.ok.injEq] at h
      rw [← h]
      simp only [Pq.evolve] at h1
      rw [Res.bind_eq_ok'] at h1
      obtain ⟨b, h2, h1⟩ := h1
      simp only [Res.ok.injEq] at h1
      rw [← h1]
      exact ⟨scan_ok _ _ _ _ hb h2, rfl⟩

theorem run_ok : ∀ (ops : List (Op V)) {l : Link V} {r : Link V × List V}, LogOk K l.stops l.bay.log →
    l.run K ops = .ok r → LogOk K r.1.stops r.1.bay.log ∧ r.1.stops = l.stops
  | [], l, r, hb, h => by
    simp only [Link.run, Res.ok.injEq] at h
    rw [← h]; exact ⟨hb, rfl⟩
  | op :: ops, l, r, hb, hr => by
    simp only [Link.run] at hr
    rw [Res.bind_eq_ok'] at hr
    obtain ⟨r1, h1, hr⟩ := hr
    rw [Res.bind_eq_ok'] at hr
    obtain ⟨r2, h2, hr⟩ := hr
    simp only [Res.ok.injEq] at hr
    subst hr
    obtain ⟨g1, g2⟩ := step_ok hb h1
    obtain ⟨g3, g4⟩ := run_ok ops g1 h2
    exact ⟨g3, g4.trans g2⟩

theorem holds_pos {v : V} {log : List (ℕ × Ev V)} (h : LogOk K stops log) (hv : K.bus v = none) :
    holds v log = 0 := by
  simp only [holds, List.countP_eq_zero]
  intro e he
  split
  · rename_i i w hw
    simp only [decide_eq_true_eq]
    rintro rfl
    obtain ⟨r, p, h1, _⟩ := h e he i w (by rw [hw]; rfl)
    rw [hv] at h1
    exact absurd h1 (by simp)
  · simp

end Verif.MmLnk

import Verif.Lemmas.MmBay

/-! One vehicle goes on, comes in, or is visited by a stop. -/

namespace Verif.MmLnk

variable {V : Type} [DecidableEq V]
variable {K : Kinds V} {stops : List Stop} {k : ℤ} {n : ℕ} {A : Pos V} {b : Bay V}

theorem mem_mv {c c' : Cls} {p p' : ℕ} {v w : V} {q : List V} (hA : A c p = v :: q)
    (hw : w ∈ mv A c p v n c' p') (hne : w ≠ v) : w ∈ A c' p' := by
  simp only [mv] at hw
  split at hw
  · rename_i h
    rw [h.1, h.2]
    exact List.mem_of_mem_tail hw
  · split at hw
    · rename_i h
      rw [List.mem_append] at hw
      rw [h.1, h.2.1]
      rcases hw with hw | hw
      · exact hw
      · exact absurd (List.mem_singleton.1 hw) hne
    · exact hw

theorem mv_mem {c c' : Cls} {p p' : ℕ} {v w : V} {q : List V} (hA : A c p = v :: q)
    (hw : w ∈ A c' p') (hne : w ≠ v) : w ∈ mv A c p v n c' p' := by
  simp only [mv]
  split
  · rename_i h
    rw [h.1, h.2, hA] at hw
    rw [hA]
    exact (List.mem_cons.1 hw).resolve_left hne
  · split
    · rename_i h
      rw [h.1, h.2.1] at hw
      exact List.mem_append_left _ hw
    · exact hw

theorem mv_self {c c' : Cls} {p p' : ℕ} {v : V} {q : List V} (h : Inv K stops k n A b)
    (hA : A c p = v :: q) (hv : v ∈ mv A c p v n c' p') : c' = c ∧ p' = p + 1 ∧ p + 1 < n := by
  have hin : v ∈ A c p := by rw [hA]; exact List.mem_cons_self
  have hp := h.lt hin
  have hnd : (v :: q).Nodup := by rw [← hA]; exact nodup_at (h.nodup c) hp
  simp only [mv] at hv
  split at hv
  · rw [hA] at hv
    exact absurd hv (List.nodup_cons.1 hnd).1
  · rename_i h1
    split at hv
    · rename_i h2; exact h2
    · exact absurd ((h.unique hin hv).imp Eq.symm Eq.symm) h1

theorem Inv.shift {p : ℕ} {v : V} {q : List V} {β : Bay V} {extra : List (ℕ × Ev V)}
    (hw : StopsWf stops n) (h : Inv K stops k n A b) (hA : A (K.cls v) p = v :: q)
    (h1 : β.stopped = upd b.stopped v 0)
    (h2 : ∀ (i : ℕ) (r : ℤ) (p' : ℕ), stops[i]? = some ⟨r, p'⟩ →
      β.queue i = mv A (K.cls v) p v n (.bus r) p')
    (h3 : ∀ (i : ℕ) (r : ℤ) (p' : ℕ), stops[i]? = some ⟨r, p'⟩ →
      if K.bus v = some r ∧ p' = p then β.counter i < k else β.counter i = b.counter i)
    (h4 : β.log = b.log ++ extra) (h5 : entered extra = [])
    (h6 : reachedExit extra = if p + 1 < n then [] else [v])
    (h7 : ∀ w, w ≠ v → story w extra = [])
    (h8 : ∀ r, K.bus v = some r → story v extra = (here stops r p).map (fun i => .release i v)
      ++ if p + 1 < n then (here stops r (p + 1)).map (fun i => .receive i v) else [.leave v]) :
    Inv K stops k n (mv A (K.cls v) p v n) β := by
  set c := K.cls v with hc
  have hin : v ∈ A c p := by rw [hA]; exact List.mem_cons_self
  have hp := h.lt hin
  have hst : ∀ w, w ≠ v → β.stopped w = b.stopped w := by
    intro w hne; rw [h1, upd_other _ _ _ _ hne]
  have hsv : β.stopped v = 0 := by rw [h1, upd_same]
  refine ⟨?_, ?_, ?_, h2, ?_, ?_, ?_, ?_, ?_, ?_, ?_⟩
  · intro c' p' hp'
    simp only [mv]
    rw [if_neg (by omega), if_neg (by omega)]
    exact h.out c' p' hp'
  · intro c' p' w hw'
    by_cases e : w = v
    · subst e
      rw [(mv_self h hA hw').1]
    · exact h.cls c' p' w (mem_mv hA hw' e)
  · intro c'
    by_cases e : c' = c
    · subst e
      by_cases hlt : p + 1 < n
      · rw [trav_mv hA hlt]; exact h.nodup c
      · obtain rfl : n = p + 1 := by omega
        have := h.nodup c
        rw [trav_mv_last hA] at this
        exact (List.nodup_cons.1 this).2
    · rw [trav_mv_ne e]; exact h.nodup c'
  · intro i r p' hi
    have := h3 i r p' hi
    split at this
    · omega
    · rw [this]; exact h.low i r p' hi
  · intro i r p' w hi hw'
    by_cases e : w = v
    · rw [e]; exact hsv
    · rw [hst w e]
      apply h.tail i r p' w hi
      simp only [mv] at hw'
      split at hw'
      · rename_i h'
        rw [h'.1, h'.2]
        exact List.mem_of_mem_tail hw'
      · split at hw'
        · rename_i h'
          rw [h'.1, h'.2.1]
          cases hq : A c (p + 1) with
          | nil => rw [hq] at hw'; simp at hw'
          | cons a q' =>
            rw [hq] at hw'
            simp only [List.cons_append, List.tail_cons, List.mem_append, List.mem_singleton] at hw'
            exact hw'.resolve_right e
        · exact hw'
  · intro i r p' hi
    have h3' := h3 i r p' hi
    by_cases e : K.bus v = some r ∧ p' = p
    · rw [if_pos e] at h3'
      constructor
      · intro hh; omega
      · rintro ⟨w, q', hw', hpos⟩
        exfalso
        have ec : c = .bus r := by rw [hc]; exact cls_bus.2 e.1
        rw [e.2, ← ec] at hw'
        have hmt : w ∈ (A c p).tail := by
          have : mv A c p v n c p = (A c p).tail := by
            simp only [mv]; rw [if_pos (by simp)]
          rw [this] at hw'
          rw [hw']
          exact List.mem_cons_self
        by_cases ew : w = v
        · rw [ew] at hpos; omega
        · rw [hst w ew] at hpos
          rw [ec] at hmt
          have := h.tail i r p w (by rw [← e.2]; exact hi) hmt
          omega
    · rw [if_neg e] at h3'
      rw [h3', h.head i r p' hi]
      have hne : ¬ (Cls.bus r = c ∧ p' = p) := by
        rintro ⟨e1, e2⟩
        exact e ⟨cls_bus.1 (hc ▸ e1.symm), e2⟩
      have hv' : v ∉ A (.bus r) p' := by
        intro hv
        exact hne ((h.unique hin hv).imp Eq.symm Eq.symm)
      by_cases e2 : Cls.bus r = c ∧ p' = p + 1 ∧ p + 1 < n
      · have em : mv A c p v n (.bus r) p' = A (.bus r) p' ++ [v] := by
          simp only [mv]; rw [if_neg hne, if_pos e2, e2.1, e2.2.1]
        rw [em]
        cases hq : A (.bus r) p' with
        | nil =>
          constructor
          · rintro ⟨w, q', hh, _⟩; exact absurd hh (by simp)
          · rintro ⟨w, q', hh, hpos⟩
            simp only [List.nil_append, List.cons.injEq] at hh
            rw [← hh.1] at hpos
            omega
        | cons a q' =>
          have ea : a ≠ v := by
            rintro rfl; apply hv'; rw [hq]; exact List.mem_cons_self
          constructor
          · rintro ⟨w, q'', hh, hpos⟩
            simp only [List.cons.injEq] at hh
            refine ⟨a, q' ++ [v], rfl, ?_⟩
            rw [hst a ea, hh.1]; exact hpos
          · rintro ⟨w, q'', hh, hpos⟩
            simp only [List.cons_append, List.cons.injEq] at hh
            refine ⟨a, q', rfl, ?_⟩
            rw [← hh.1, hst a ea] at hpos; exact hpos
      · have em : mv A c p v n (.bus r) p' = A (.bus r) p' := by
          simp only [mv]; rw [if_neg hne, if_neg e2]
        rw [em]
        constructor
        · rintro ⟨w, q', hh, hpos⟩
          refine ⟨w, q', hh, ?_⟩
          rw [hst w]
          · exact hpos
          · rintro rfl; apply hv'; rw [hh]; exact List.mem_cons_self
        · rintro ⟨w, q', hh, hpos⟩
          refine ⟨w, q', hh, ?_⟩
          rw [hst w] at hpos
          · exact hpos
          · rintro rfl; apply hv'; rw [hh]; exact List.mem_cons_self
  · intro w
    by_cases e : w = v
    · rw [e, hsv]
    · rw [hst w e]; exact h.nonneg w
  · intro w hw'
    by_cases e : w = v
    · rw [e, hsv] at hw'; exact absurd rfl hw'
    · rw [hst w e] at hw'
      obtain ⟨i, r, p', hi, hm⟩ := h.idle w hw'
      exact ⟨i, r, p', hi, mv_mem hA hm e⟩
  · intro c'
    rw [h4, entered_append, exit_append, h5, List.append_nil, h.fifo c', h6]
    by_cases hlt : p + 1 < n
    · rw [if_pos hlt, List.append_nil]
      congr 1
      by_cases e : c' = c
      · subst e; exact (trav_mv hA hlt).symm
      · exact (trav_mv_ne e).symm
    · rw [if_neg hlt]
      obtain rfl : n = p + 1 := by omega
      simp only [Kinds.only, List.filter_append]
      by_cases e : c' = c
      · subst e
        rw [trav_mv_last hA]
        simp [hc]
      · rw [trav_mv_ne e]
        have : K.cls v ≠ c' := fun hh => e hh.symm
        simp [this]
  · intro w r hr
    obtain ⟨m, cur, e1, e2, e3⟩ := h.told w r hr
    by_cases e : w = v
    · subst e
      have ec : c = .bus r := by rw [hc]; exact cls_bus.2 hr
      have hcur := e2 p (by rw [← ec]; exact hin)
      rw [h4, story_append, h8 r hr, e1, hcur]
      by_cases hlt : p + 1 < n
      · refine ⟨m, sofar stops r w (p + 1), ?_, ?_, ?_⟩
        · rw [if_pos hlt, sofar_succ hw.apart]; simp
        · intro p' hp'
          rw [(mv_self h hA hp').2.1]
        · intro hno
          exfalso
          apply hno (p + 1)
          simp only [mv]
          rw [if_neg (by omega), if_pos (by simp [ec, hlt])]
          simp
      · obtain rfl : n = p + 1 := by omega
        refine ⟨m + 1, [], ?_, ?_, fun _ => rfl⟩
        · rw [if_neg hlt, List.replicate_succ', List.flatten_append, trip_sofar hw.apart]
          simp
        · intro p' hp'
          have := (mv_self h hA hp').2.2
          omega
    · refine ⟨m, cur, ?_, ?_, ?_⟩
      · rw [h4, story_append, h7 w e, List.append_nil]; exact e1
      · intro p' hp'; exact e2 p' (mem_mv hA hp' e)
      · intro hno
        exact e3 fun p' hp' => hno p' (mv_mem hA hp' e)

/-! ### Going on -/

theorem bind_bus {v : V} {p i : ℕ} (h : ((K.bus v).bind fun r => stopAt stops r p) = some i) :
    ∃ r, K.bus v = some r ∧ stopAt stops r p = some i := by
  cases hb : K.bus v with
  | none => rw [hb] at h; exact absurd h (by simp)
  | some r => rw [hb] at h; exact ⟨r, rfl, h⟩

/-- A vehicle in front of its kind that is not held goes on. -/
theorem Inv.go {p t : ℕ} {v : V} {q : List V} {b' : Bay V}
    (hw : StopsWf stops n) (h : Inv K stops k n A b) (hA : A (K.cls v) p = v :: q)
    (hs : b'.stopped = b.stopped) (hq : b'.queue = b.queue) (hl : b'.log = b.log)
    (h3 : ∀ (i : ℕ) (r : ℤ) (p' : ℕ), stops[i]? = some ⟨r, p'⟩ →
      if K.bus v = some r ∧ p' = p then b'.counter i < k else b'.counter i = b.counter i) :
    ∃ b'', goOn K stops t p v b' = .ok b'' ∧ b''.counter = b'.counter ∧
      (p + 1 < n → Inv K stops k n (mv A (K.cls v) p v n) (comeTo K stops t (p + 1) v b'')) ∧
      (n = p + 1 → comeTo K stops t (p + 1) v b'' = b'' ∧
        Inv K stops k n (mv A (K.cls v) p v n) (b''.note t (.leave v))) := by
  have hin : v ∈ A (K.cls v) p := by rw [hA]; exact List.mem_cons_self
  have hp := h.lt hin
  -- the stop at the present position
  have hrel : ∃ b'' ex, goOn K stops t p v b' = .ok b'' ∧ b''.counter = b'.counter ∧
      b''.stopped = upd b.stopped v 0 ∧ b''.log = b.log ++ ex ∧ entered ex = [] ∧
      reachedExit ex = [] ∧ (∀ w, w ≠ v → story w ex = []) ∧
      (∀ r, K.bus v = some r → story v ex = (here stops r p).map (fun i => .release i v)) ∧
      (∀ (i : ℕ) (r : ℤ) (p' : ℕ), stops[i]? = some ⟨r, p'⟩ →
        b''.queue i = if Cls.bus r = K.cls v ∧ p' = p then q else b.queue i) := by
    cases hb : (K.bus v).bind fun r => stopAt stops r p with
    | none =>
      refine ⟨{ b' with stopped := upd b'.stopped v 0 }, [], ?_, rfl, by rw [hs], by simp [hl], rfl,
        rfl, fun _ _ => rfl, ?_, ?_⟩
      · simp only [goOn, hb]
      · intro r hr
        rw [hr] at hb
        simp only [Option.bind_some] at hb
        rw [here_eq hw.apart, hb]
        rfl
      · intro i r p' hi
        rw [if_neg, hq]
        rintro ⟨e1, e2⟩
        have hr := cls_bus.1 e1.symm
        rw [hr] at hb
        simp only [Option.bind_some] at hb
        rw [e2] at hi
        rw [stopAt_of hw.apart hi] at hb
        exact absurd hb (by simp)
    | some i =>
      obtain ⟨r, hr, hi⟩ := bind_bus hb
      have hi' := stopAt_some hi
      have ec := cls_bus.2 hr
      have hqi : b.queue i = v :: q := by rw [h.queue i r p hi', ← ec, hA]
      refine ⟨Bay.note t (.release i v) { b' with stopped := upd b'.stopped v 0, queue := upd b'.queue i ((b'.queue i).erase v) }, [(t, .release i v)], ?_, rfl, by simp [Bay.note, hs], by simp [Bay.note, hl],
        rfl, rfl, ?_, ?_, ?_⟩
      · simp only [goOn, hb, release]
        rw [if_pos (by rw [hq, hqi]; exact List.mem_cons_self)]
      · intro w hne
        simp [story, Ev.moves, Ne.symm hne]
      · intro r' hr'
        obtain rfl : r = r' := Option.some.inj (hr.symm.trans hr')
        rw [here_eq hw.apart, hi]
        simp [story, Ev.moves]
      · intro j r' p' hj
        simp only [Bay.note]
        by_cases e : Cls.bus r' = K.cls v ∧ p' = p
        · rw [if_pos e]
          have : j = i := by
            apply stop_inj hw.apart hj
            rw [hi', e.2]
            have := e.1.trans ec
            simp only [Cls.bus.injEq] at this
            rw [this]
          rw [this, upd_same, hq, hqi]
          simp
        · rw [if_neg e, upd_other, hq]
          rintro rfl
          rw [hi'] at hj
          simp only [Option.some.injEq, Stop.mk.injEq] at hj
          exact e ⟨by rw [← hj.1, ec], hj.2.symm⟩
  obtain ⟨b'', ex, g1, g2, g3, g4, g5, g6, g7, g8, g9⟩ := hrel
  refine ⟨b'', g1, g2, ?_, ?_⟩
  · intro hlt
    have hqv : ∀ (i : ℕ) (r : ℤ) (p' : ℕ), stops[i]? = some ⟨r, p'⟩ →
        (¬ (Cls.bus r = K.cls v ∧ p' = p + 1)) → b''.queue i = mv A (K.cls v) p v n (.bus r) p' := by
      intro i r p' hi hne
      rw [g9 i r p' hi]
      simp only [mv]
      by_cases e : Cls.bus r = K.cls v ∧ p' = p
      · rw [if_pos e, if_pos e, hA]; rfl
      · rw [if_neg e, if_neg e, if_neg (by tauto), h.queue i r p' hi]
    have h3' : ∀ (i : ℕ) (r : ℤ) (p' : ℕ), stops[i]? = some ⟨r, p'⟩ →
        if K.bus v = some r ∧ p' = p then b''.counter i < k else b''.counter i = b.counter i := by
      intro i r p' hi; rw [g2]; exact h3 i r p' hi
    cases hb : (K.bus v).bind fun r => stopAt stops r (p + 1) with
    | none =>
      have hno : ∀ r, K.bus v = some r → stopAt stops r (p + 1) = none := by
        intro r hr; rw [hr] at hb; exact hb
      simp only [comeTo, hb]
      apply h.shift hw hA g3 (extra := ex) ?_ h3' g4 g5 (by rw [if_pos hlt]; exact g6) g7
      · intro r hr
        rw [if_pos hlt, g8 r hr, here_eq hw.apart r (p + 1), hno r hr]
        simp
      · intro i r p' hi
        apply hqv i r p' hi
        rintro ⟨e1, e2⟩
        have hr := cls_bus.1 e1.symm
        have := hno r hr
        rw [e2] at hi
        rw [stopAt_of hw.apart hi] at this
        exact absurd this (by simp)
    | some j =>
      obtain ⟨r, hr, hj⟩ := bind_bus hb
      have hj' := stopAt_some hj
      have ec := cls_bus.2 hr
      simp only [comeTo, hb]
      refine h.shift hw hA (extra := ex ++ [(t, .receive j v)]) (by simp [receive, Bay.note, g3]) ?_ ?_
        (by simp [receive, Bay.note, g4]) (by rw [entered_append, g5]; rfl)
        (by rw [if_pos hlt, exit_append, g6]; rfl) ?_ ?_
      · intro i r' p' hi
        simp only [receive, Bay.note]
        by_cases e : i = j
        · subst e
          rw [hj'] at hi
          simp only [Option.some.injEq, Stop.mk.injEq] at hi
          rw [upd_same, g9 i r (p + 1) hj', if_neg (by omega), h.queue i r (p + 1) hj', ← hi.1, ← hi.2]
          simp only [mv]
          rw [if_neg (by omega), if_pos (by simp [ec, hlt]), ec]
        · rw [upd_other _ _ _ _ e]
          apply hqv i r' p' hi
          rintro ⟨e1, e2⟩
          apply e
          apply stop_inj hw.apart hi
          rw [hj', e2]
          have := e1.trans ec
          simp only [Cls.bus.injEq] at this
          rw [this]
      · intro i r' p' hi
        exact h3' i r' p' hi
      · intro w hne
        rw [story_append, g7 w hne]
        simp [story, Ev.moves, Ne.symm hne]
      · intro r' hr'
        obtain rfl : r = r' := Option.some.inj (hr.symm.trans hr')
        rw [if_pos hlt, story_append, g8 r hr, here_eq hw.apart r (p + 1), hj]
        simp [story, Ev.moves]
  · intro hn
    have hnone : ((K.bus v).bind fun r => stopAt stops r (p + 1)) = none := by
      cases hb : (K.bus v).bind fun r => stopAt stops r (p + 1) with
      | none => rfl
      | some j =>
        obtain ⟨r, hr, hj⟩ := bind_bus hb
        have := hw.inside _ (List.mem_of_getElem? (stopAt_some hj))
        simp only at this
        omega
    refine ⟨by simp only [comeTo, hnone], ?_⟩
    have hlt : ¬ p + 1 < n := by omega
    refine h.shift hw hA (extra := ex ++ [(t, .leave v)]) (by simp [Bay.note, g3]) ?_ ?_
      (by simp [Bay.note, g4]) (by rw [entered_append, g5]; rfl)
      (by rw [if_neg hlt, exit_append, g6]; rfl) ?_ ?_
    · intro i r p' hi
      simp only [Bay.note]
      rw [g9 i r p' hi]
      simp only [mv]
      by_cases e : Cls.bus r = K.cls v ∧ p' = p
      · rw [if_pos e, if_pos e, hA]; rfl
      · rw [if_neg e, if_neg e, if_neg (by tauto), h.queue i r p' hi]
    · intro i r p' hi
      simp only [Bay.note]
      rw [g2]; exact h3 i r p' hi
    · intro w hne
      rw [story_append, g7 w hne]
      simp [story, Ev.moves, Ne.symm hne]
    · intro r hr
      rw [if_neg hlt, story_append, g8 r hr]
      simp [story, Ev.moves]

/-! ### What the visits and moves write into the log -/

theorem hold_log {ask : ℤ × Bool} {i : ℕ} {v : V} {b b1 : Bay V} {x : Bool}
    (h : hold k ask i v b = .ok (b1, x)) : b1.log = b.log := by
  simp only [hold] at h
  split_ifs at h <;> cases h <;> rfl

theorem visit_log {orc : ℕ → ℤ × Bool} {t p : ℕ} {v : V} {b b1 : Bay V} {x : Bool}
    (h : visit K stops k orc t p v b = .ok (b1, x)) :
    reachedExit b1.log = reachedExit b.log ∧ entered b1.log = entered b.log := by
  simp only [visit] at h
  split at h
  · simp only [Res.ok.injEq, Prod.mk.injEq] at h
    rw [← h.1]; exact ⟨rfl, rfl⟩
  · rename_i i _
    rw [Res.bind_eq_ok'] at h
    obtain ⟨⟨b2, hd⟩, hho, h⟩ := h
    have hb2 := hold_log hho
    simp only at h
    split at h
    · simp only [Res.ok.injEq, Prod.mk.injEq] at h
      rw [← h.1]
      split
      · simp only [Bay.note, entered_append, exit_append, hb2]
        simp [entered, reachedExit]
      · simp only [Bay.note, entered_append, exit_append, hb2]
        simp [entered, reachedExit]
    · simp only [Res.ok.injEq, Prod.mk.injEq] at h
      rw [← h.1, hb2]; exact ⟨rfl, rfl⟩

theorem goOn_log {t p : ℕ} {v : V} {b b1 : Bay V} (h : goOn K stops t p v b = .ok b1) :
    reachedExit b1.log = reachedExit b.log ∧ entered b1.log = entered b.log := by
  simp only [goOn] at h
  split at h
  · simp only [Res.ok.injEq] at h; rw [← h]; exact ⟨rfl, rfl⟩
  · simp only [release] at h
    split at h
    · simp only [Res.ok.injEq] at h
      rw [← h]
      simp only [Bay.note, entered_append, exit_append]
      simp [entered, reachedExit]
    · exact absurd h (by simp)

theorem comeTo_log (t p : ℕ) (v : V) (b : Bay V) :
    reachedExit (comeTo K stops t p v b).log = reachedExit b.log ∧
      entered (comeTo K stops t p v b).log = entered b.log := by
  simp only [comeTo]
  split
  · exact ⟨rfl, rfl⟩
  · simp only [receive, Bay.note, entered_append, exit_append]
    simp [entered, reachedExit]

theorem comeIn_log {t : ℕ} {v : V} {b b1 : Bay V} (h : comeIn K stops t v b = .ok b1) :
    reachedExit b1.log = reachedExit b.log ∧ entered b1.log = entered b.log ++ [v] := by
  simp only [comeIn] at h
  split at h
  · simp only [Res.ok.injEq] at h; rw [← h]
    simp only [Bay.note, entered_append, exit_append]
    simp [entered, reachedExit]
  · split at h
    · exact absurd h (by simp)
    · simp only [Res.ok.injEq] at h; rw [← h]
      simp only [receive, Bay.note, entered_append, exit_append]
      simp [entered, reachedExit]

/-! ### Coming in -/

theorem mem_add {c c' : Cls} {p' : ℕ} {v w : V} (hw : w ∈ add A v c c' p') (hne : w ≠ v) :
    w ∈ A c' p' := by
  simp only [add] at hw
  split at hw
  · rename_i h
    rw [List.mem_append] at hw
    rw [h.1, h.2]
    rcases hw with hw | hw
    · exact hw
    · exact absurd (List.mem_singleton.1 hw) hne
  · exact hw

theorem add_mem {c c' : Cls} {p' : ℕ} {v w : V} (hw : w ∈ A c' p') : w ∈ add A v c c' p' := by
  simp only [add]
  split
  · rename_i h
    rw [h.1, h.2] at hw
    exact List.mem_append_left _ hw
  · exact hw

theorem add_self {c c' : Cls} {p' : ℕ} {v : V} (hv : ∀ c p, v ∉ A c p) (h : v ∈ add A v c c' p') :
    c' = c ∧ p' = 0 := by
  simp only [add] at h
  split at h
  · assumption
  · exact absurd h (hv _ _)

/-- A vehicle that is not on the link comes in. -/
theorem Inv.comeIn {t : ℕ} {v : V} (hw : StopsWf stops n) (hn : 0 < n) (h : Inv K stops k n A b)
    (hv : ∀ c p, v ∉ A c p) :
    ∃ b', comeIn K stops t v b = .ok b' ∧ Inv K stops k n (add A v (K.cls v)) b' := by
  have hs : b.stopped v = 0 := by
    by_contra hne
    obtain ⟨i, r, p, _, hm⟩ := h.idle v hne
    exact hv _ _ hm
  have main : ∀ (β : Bay V) (extra : List (ℕ × Ev V)), β.stopped = b.stopped → β.counter = b.counter →
      (∀ (i : ℕ) (r : ℤ) (p' : ℕ), stops[i]? = some ⟨r, p'⟩ →
        β.queue i = add A v (K.cls v) (.bus r) p') →
      β.log = b.log ++ extra → entered extra = [v] → reachedExit extra = [] →
      (∀ w, w ≠ v → story w extra = []) →
      (∀ r, K.bus v = some r → story v extra = sofar stops r v 0) →
      Inv K stops k n (add A v (K.cls v)) β := by
    intro β extra h1 h2 h3 h4 h5 h6 h7 h8
    refine ⟨?_, ?_, ?_, h3, ?_, ?_, ?_, ?_, ?_, ?_, ?_⟩
    · intro c p hp
      simp only [add]
      rw [if_neg (by omega)]
      exact h.out c p hp
    · intro c p w hm
      by_cases e : w = v
      · subst e; rw [(add_self hv hm).1]
      · exact h.cls c p w (mem_add hm e)
    · intro c
      by_cases e : c = K.cls v
      · subst e
        rw [trav_add hn, List.nodup_append]
        refine ⟨h.nodup _, by simp, ?_⟩
        intro a ha a' ha'
        rw [List.mem_singleton.1 ha']
        rintro rfl
        obtain ⟨p, _, hm⟩ := mem_trav.1 ha
        exact hv _ _ hm
      · rw [trav_add_ne e]; exact h.nodup c
    · intro i r p hi; rw [h2]; exact h.low i r p hi
    · intro i r p w hi hm
      rw [h1]
      by_cases e : w = v
      · rw [e]; exact hs
      · apply h.tail i r p w hi
        simp only [add] at hm
        split at hm
        · rename_i h'
          rw [h'.1, h'.2]
          cases hq : A (K.cls v) 0 with
          | nil => rw [hq] at hm; simp at hm
          | cons a q' =>
            rw [hq] at hm
            simp only [List.cons_append, List.tail_cons, List.mem_append, List.mem_singleton] at hm
            exact hm.resolve_right e
        · exact hm
    · intro i r p hi
      rw [h1, h2, h.head i r p hi]
      simp only [add]
      split
      · rename_i h'
        rw [h'.1, h'.2]
        cases hq : A (K.cls v) 0 with
        | nil =>
          constructor
          · rintro ⟨w, q', hh, _⟩; exact absurd hh (by simp)
          · rintro ⟨w, q', hh, hpos⟩
            simp only [List.nil_append, List.cons.injEq] at hh
            rw [← hh.1, hs] at hpos
            omega
        | cons a q' =>
          constructor
          · rintro ⟨w, q'', hh, hpos⟩
            simp only [List.cons.injEq] at hh
            exact ⟨a, q' ++ [v], rfl, by rw [hh.1]; exact hpos⟩
          · rintro ⟨w, q'', hh, hpos⟩
            simp only [List.cons_append, List.cons.injEq] at hh
            exact ⟨a, q', rfl, by rw [hh.1]; exact hpos⟩
      · rfl
    · intro w; rw [h1]; exact h.nonneg w
    · intro w hne
      rw [h1] at hne
      obtain ⟨i, r, p, hi, hm⟩ := h.idle w hne
      exact ⟨i, r, p, hi, add_mem hm⟩
    · intro c
      rw [h4, entered_append, exit_append, h5, h6, List.append_nil]
      simp only [Kinds.only, List.filter_append]
      have := h.fifo c
      simp only [Kinds.only] at this
      rw [this]
      by_cases e : c = K.cls v
      · subst e
        rw [trav_add hn]
        simp
      · rw [trav_add_ne e]
        simp [Ne.symm e]
    · intro w r hr
      obtain ⟨m, cur, e1, e2, e3⟩ := h.told w r hr
      by_cases e : w = v
      · subst e
        have hcur := e3 fun p => hv _ p
        refine ⟨m, sofar stops r w 0, ?_, ?_, ?_⟩
        · rw [h4, story_append, h8 r hr, e1, hcur, List.append_nil]
        · intro p hm; rw [(add_self hv hm).2]
        · intro hno
          exfalso
          apply hno 0
          simp only [add]
          rw [if_pos (by simp [cls_bus.2 hr])]
          simp
      · refine ⟨m, cur, ?_, ?_, ?_⟩
        · rw [h4, story_append, h7 w e, List.append_nil]; exact e1
        · intro p hm; exact e2 p (mem_add hm e)
        · intro hno; exact e3 fun p hm => hno p (add_mem hm)
  cases hb : (K.bus v).bind fun r => stopAt stops r 0 with
  | none =>
    refine ⟨b.note t (.enter v), by simp only [MmLnk.comeIn, hb], ?_⟩
    refine main _ [(t, .enter v)] rfl rfl ?_ rfl rfl rfl ?_ ?_
    · intro i r p' hi
      simp only [Bay.note, add]
      rw [if_neg, h.queue i r p' hi]
      rintro ⟨e1, e2⟩
      have hr := cls_bus.1 e1.symm
      rw [hr] at hb
      simp only [Option.bind_some] at hb
      rw [e2] at hi
      rw [stopAt_of hw.apart hi] at hb
      exact absurd hb (by simp)
    · intro w hne; simp [story, Ev.moves, Ne.symm hne]
    · intro r hr
      rw [hr] at hb
      simp only [Option.bind_some] at hb
      rw [sofar_zero, here_eq hw.apart, hb]
      simp [story, Ev.moves]
  | some i =>
    obtain ⟨r, hr, hi⟩ := bind_bus hb
    have hi' := stopAt_some hi
    have ec := cls_bus.2 hr
    refine ⟨receive t i v (b.note t (.enter v)), ?_, ?_⟩
    · simp only [MmLnk.comeIn, hb, Bay.note, hs]
      simp
    · refine main _ [(t, .enter v), (t, .receive i v)] rfl rfl ?_ (by simp [receive, Bay.note]) rfl rfl
        ?_ ?_
      · intro j r' p' hj
        simp only [receive, Bay.note]
        by_cases e : j = i
        · subst e
          rw [hi'] at hj
          simp only [Option.some.injEq, Stop.mk.injEq] at hj
          rw [upd_same, h.queue j r 0 hi', ← hj.1, ← hj.2]
          simp only [add]
          rw [if_pos (by simp [ec]), ec]
        · rw [upd_other _ _ _ _ e, h.queue j r' p' hj]
          simp only [add]
          rw [if_neg]
          rintro ⟨e1, e2⟩
          apply e
          apply stop_inj hw.apart hj
          rw [hi', e2]
          have := e1.trans ec
          simp only [Cls.bus.injEq] at this
          rw [this]
      · intro w hne; simp [story, Ev.moves, Ne.symm hne]
      · intro r' hr'
        obtain rfl : r = r' := Option.some.inj (hr.symm.trans hr')
        rw [sofar_zero, here_eq hw.apart, hi]
        simp [story, Ev.moves]

/-! ### Being visited -/

/-- A vehicle that stands at a stop behind a bus that is being served. -/
def Blocked (K : Kinds V) (stops : List Stop) (k : ℤ) (A : Pos V) (b : Bay V) (p : ℕ) (v : V) : Prop :=
  ∃ r i, K.bus v = some r ∧ stopAt stops r p = some i ∧ b.counter i = k ∧ v ∈ (A (.bus r) p).tail

/-- A vehicle is held at a stop where a bus is being served. -/
def Held (K : Kinds V) (stops : List Stop) (k : ℤ) (b : Bay V) (p : ℕ) (v : V) : Prop :=
  ∃ r i, K.bus v = some r ∧ stopAt stops r p = some i ∧ b.counter i = k

/-- The outcome of a visit. -/
theorem Inv.visit {orc : ℕ → ℤ × Bool} {t p : ℕ} {v : V} (hk : 1 ≤ k) (hw : StopsWf stops n)
    (h : Inv K stops k n A b) (hm : v ∈ A (K.cls v) p)
    (hpos : (∃ q, A (K.cls v) p = v :: q) ∨ Blocked K stops k A b p v) :
    ∃ b' held, visit K stops k orc t p v b = .ok (b', held) ∧
      (held = true → Inv K stops k n A b' ∧ Held K stops k b' p v ∧
        ∀ j, b.counter j = k → b'.counter j = k) ∧
      (held = false → ∃ q b'', A (K.cls v) p = v :: q ∧ goOn K stops t p v b' = .ok b'' ∧
        (∀ j, (∀ r, K.bus v = some r → stopAt stops r p ≠ some j) → b''.counter j = b.counter j) ∧
        (p + 1 < n → Inv K stops k n (mv A (K.cls v) p v n) (comeTo K stops t (p + 1) v b'')) ∧
        (n = p + 1 → comeTo K stops t (p + 1) v b'' = b'' ∧
          Inv K stops k n (mv A (K.cls v) p v n) (b''.note t (.leave v)))) := by
  cases hb : (K.bus v).bind fun r => stopAt stops r p with
  | none =>
    have hno : ∀ r, K.bus v = some r → stopAt stops r p = none := by
      intro r hr; rw [hr] at hb; exact hb
    have hhead : ∃ q, A (K.cls v) p = v :: q := by
      rcases hpos with hpos | ⟨r, i, hr, hi, _⟩
      · exact hpos
      · rw [hno r hr] at hi; exact absurd hi (by simp)
    obtain ⟨q, hA⟩ := hhead
    refine ⟨b, false, by simp only [MmLnk.visit, hb], by simp, fun _ => ?_⟩
    obtain ⟨b'', g1, g2, g3, g4⟩ := h.go (t := t) (b' := b) hw hA rfl rfl rfl (by
      intro i r p' hi
      rw [if_neg]
      rintro ⟨e1, e2⟩
      have := hno r e1
      rw [e2] at hi
      rw [stopAt_of hw.apart hi] at this
      exact absurd this (by simp))
    exact ⟨q, b'', hA, g1, fun j _ => by rw [g2], g3, g4⟩
  | some i =>
    obtain ⟨r, hr, hi⟩ := bind_bus hb
    have hi' := stopAt_some hi
    have ec := cls_bus.2 hr
    have hq := h.queue i r p hi'
    have hvq : v ∈ b.queue i := by rw [hq, ← ec]; exact hm
    have hnn := h.nonneg v
    have hlow := h.low i r p hi'
    -- a bus that is held
    have stay : ∀ b1 : Bay V, hold k (orc b.log.length) i v b = .ok (b1, true) →
        Inv K stops k n A b1 → b1.counter i = k → (∀ j, b.counter j = k → b1.counter j = k) →
        ∃ b' held, MmLnk.visit K stops k orc t p v b = .ok (b', held) ∧
      (held = true → Inv K stops k n A b' ∧ Held K stops k b' p v ∧
        ∀ j, b.counter j = k → b'.counter j = k) ∧
      (held = false → ∃ q b'', A (K.cls v) p = v :: q ∧ goOn K stops t p v b' = .ok b'' ∧
        (∀ j, (∀ r, K.bus v = some r → stopAt stops r p ≠ some j) → b''.counter j = b.counter j) ∧
        (p + 1 < n → Inv K stops k n (mv A (K.cls v) p v n) (comeTo K stops t (p + 1) v b'')) ∧
        (n = p + 1 → comeTo K stops t (p + 1) v b'' = b'' ∧
          Inv K stops k n (mv A (K.cls v) p v n) (b''.note t (.leave v)))) := by
      intro b1 e1 e2 e3 e4
      refine ⟨if (Bay.note t (.hold i v) b1).stopped v > K.lost v then
          Bay.note t (.board i v) (Bay.note t (.hold i v) b1) else Bay.note t (.hold i v) b1, true,
        by simp only [MmLnk.visit, hb, e1, Res.bind_ok']; rfl, fun _ => ⟨?_, ?_, ?_⟩, by simp⟩
      · split
        · exact (e2.note_hold t i v).note_board t i v
        · exact e2.note_hold t i v
      · refine ⟨r, i, hr, hi, ?_⟩
        split <;> exact e3
      · intro j hj
        split <;> exact e4 j hj
    -- a bus that goes on
    have leave : ∀ (b1 : Bay V) (q : List V), hold k (orc b.log.length) i v b = .ok (b1, false) →
        A (K.cls v) p = v :: q → b1.stopped = b.stopped → b1.queue = b.queue → b1.log = b.log →
        b1.counter i < k → (∀ j, j ≠ i → b1.counter j = b.counter j) →
        ∃ b' held, MmLnk.visit K stops k orc t p v b = .ok (b', held) ∧
      (held = true → Inv K stops k n A b' ∧ Held K stops k b' p v ∧
        ∀ j, b.counter j = k → b'.counter j = k) ∧
      (held = false → ∃ q b'', A (K.cls v) p = v :: q ∧ goOn K stops t p v b' = .ok b'' ∧
        (∀ j, (∀ r, K.bus v = some r → stopAt stops r p ≠ some j) → b''.counter j = b.counter j) ∧
        (p + 1 < n → Inv K stops k n (mv A (K.cls v) p v n) (comeTo K stops t (p + 1) v b'')) ∧
        (n = p + 1 → comeTo K stops t (p + 1) v b'' = b'' ∧
          Inv K stops k n (mv A (K.cls v) p v n) (b''.note t (.leave v)))) := by
      intro b1 q e1 hA e2 e3 e4 e5 e6
      refine ⟨b1, false, by simp only [MmLnk.visit, hb, e1, Res.bind_ok']; rfl, by simp, fun _ => ?_⟩
      obtain ⟨b'', g1, g2, g3, g4⟩ := h.go (t := t) (b' := b1) hw hA e2 e3 e4 (by
        intro j r' p' hj
        by_cases e : K.bus v = some r' ∧ p' = p
        · rw [if_pos e]
          have : j = i := by
            apply stop_inj hw.apart hj
            rw [hi', e.2, Option.some.inj (hr.symm.trans e.1)]
          rw [this]; exact e5
        · rw [if_neg e]
          apply e6
          rintro rfl
          rw [hi'] at hj
          simp only [Option.some.injEq, Stop.mk.injEq] at hj
          exact e ⟨by rw [hr, hj.1], hj.2.symm⟩)
      refine ⟨q, b'', hA, g1, ?_, g3, g4⟩
      intro j hj
      rw [g2]
      apply e6
      rintro rfl
      exact hj r hr hi
    by_cases hc : b.counter i = k
    · by_cases hs : b.stopped v = 0
      · -- another bus is being served
        apply stay b ?_ h hc fun j hj => hj
        simp only [hold]
        rw [if_neg (by simpa using hvq), if_neg (by omega), if_neg (by omega), if_pos ⟨hc, hs⟩]
      · -- it is the bus being served
        have hA : ∃ q, A (K.cls v) p = v :: q := by
          rcases hpos with hpos | ⟨r', i', hr', hi2, _, ht⟩
          · exact hpos
          · obtain rfl : r = r' := Option.some.inj (hr.symm.trans hr')
            exact absurd (h.tail i r p v hi' ht) hs
        obtain ⟨q, hA⟩ := hA
        have hA' : A (.bus r) p = v :: q := by rw [← ec]; exact hA
        by_cases hd : b.stopped v < (orc b.log.length).1 ∨ (orc b.log.length).2 = true
        · apply stay { b with counter := upd b.counter i k, stopped := upd b.stopped v (b.stopped v + 1) }
          · simp only [hold]
            rw [if_neg (by simpa using hvq), if_neg (by omega), if_neg (by omega), if_neg (by omega),
              if_neg (by omega), if_neg (by omega), if_pos hd]
          · refine ⟨h.out, h.cls, h.nodup, h.queue, ?_, ?_, ?_, ?_, ?_, h.fifo, h.told⟩
            · intro j r' p' hj
              by_cases e : j = i
              · subst e; simp only [upd_same]; exact le_rfl
              · simp only; rw [upd_other _ _ _ _ e]; exact h.low j r' p' hj
            · intro j r' p' w hj hw'
              have hne : w ≠ v := by
                rintro rfl; exact hs (h.tail j r' p' w hj hw')
              simp only; rw [upd_other _ _ _ _ hne]; exact h.tail j r' p' w hj hw'
            · intro j r' p' hj
              by_cases e : j = i
              · subst e
                rw [hi'] at hj
                simp only [Option.some.injEq, Stop.mk.injEq] at hj
                simp only [upd_same, true_iff]
                refine ⟨v, q, by rw [← hj.1, ← hj.2]; exact hA', ?_⟩
                rw [upd_same]; omega
              · simp only; rw [upd_other _ _ _ _ e, h.head j r' p' hj]
                constructor
                · rintro ⟨w, q', hh, hp'⟩
                  refine ⟨w, q', hh, ?_⟩
                  by_cases ew : w = v
                  · subst ew; rw [upd_same]; omega
                  · rw [upd_other _ _ _ _ ew]; exact hp'
                · rintro ⟨w, q', hh, hp'⟩
                  refine ⟨w, q', hh, ?_⟩
                  by_cases ew : w = v
                  · subst ew; omega
                  · rw [upd_other _ _ _ _ ew] at hp'; exact hp'
            · intro w
              by_cases ew : w = v
              · subst ew; simp only [upd_same]; omega
              · simp only; rw [upd_other _ _ _ _ ew]; exact h.nonneg w
            · intro w hne
              by_cases ew : w = v
              · subst ew; exact h.idle w hs
              · simp only at hne; rw [upd_other _ _ _ _ ew] at hne; exact h.idle w hne
          · simp only [upd_same]
          · intro j hj
            by_cases e : j = i
            · subst e; simp only [upd_same]
            · simp only; rw [upd_other _ _ _ _ e]; exact hj
        · apply leave { b with counter := upd b.counter i 0 } q ?_ hA rfl rfl rfl
          · simp only [upd_same]; omega
          · intro j hj; simp only; rw [upd_other _ _ _ _ hj]
          · simp only [hold]
            rw [if_neg (by simpa using hvq), if_neg (by omega), if_neg (by omega), if_neg (by omega),
              if_neg (by omega), if_neg (by omega), if_neg hd]
    · -- no bus is being served
      have hA : ∃ q, A (K.cls v) p = v :: q := by
        rcases hpos with hpos | ⟨r', i', hr', hi2, hc', _⟩
        · exact hpos
        · obtain rfl : r = r' := Option.some.inj (hr.symm.trans hr')
          obtain rfl : i = i' := Option.some.inj (hi.symm.trans hi2)
          exact absurd hc' hc
      obtain ⟨q, hA⟩ := hA
      have hA' : A (.bus r) p = v :: q := by rw [← ec]; exact hA
      have hs : b.stopped v = 0 := by
        by_contra hs
        exact hc ((h.head i r p hi').2 ⟨v, q, hA', by omega⟩)
      by_cases hc1 : b.counter i < k - 1
      · apply leave { b with counter := upd b.counter i (b.counter i + 1) } q ?_ hA rfl rfl rfl
        · simp only [upd_same]; omega
        · intro j hj; simp only; rw [upd_other _ _ _ _ hj]
        · simp only [hold]
          rw [if_neg (by simpa using hvq), if_neg (by omega), if_pos ⟨hc1, hs⟩]
      · by_cases hd : b.stopped v < (orc b.log.length).1 ∨ (orc b.log.length).2 = true
        · apply stay { b with counter := upd b.counter i k, stopped := upd b.stopped v (b.stopped v + 1) }
          · simp only [hold]
            rw [if_neg (by simpa using hvq), if_neg (by omega), if_neg (by omega), if_neg (by omega),
              if_neg (by omega), if_neg (by omega), if_pos hd]
          · refine ⟨h.out, h.cls, h.nodup, h.queue, ?_, ?_, ?_, ?_, ?_, h.fifo, h.told⟩
            · intro j r' p' hj
              by_cases e : j = i
              · subst e; simp only [upd_same]; exact le_rfl
              · simp only; rw [upd_other _ _ _ _ e]; exact h.low j r' p' hj
            · intro j r' p' w hj hw'
              have hne : w ≠ v := by
                rintro rfl
                have hm2 := List.mem_of_mem_tail hw'
                obtain ⟨e1, e2⟩ := h.unique hm hm2
                rw [← e1, ← e2, hA] at hw'
                have hnd : (w :: q).Nodup := by rw [← hA]; exact nodup_at (h.nodup _) (h.lt hm)
                exact (List.nodup_cons.1 hnd).1 hw'
              simp only; rw [upd_other _ _ _ _ hne]; exact h.tail j r' p' w hj hw'
            · intro j r' p' hj
              by_cases e : j = i
              · subst e
                rw [hi'] at hj
                simp only [Option.some.injEq, Stop.mk.injEq] at hj
                simp only [upd_same, true_iff]
                refine ⟨v, q, by rw [← hj.1, ← hj.2]; exact hA', ?_⟩
                rw [upd_same]; omega
              · have hnv : ∀ w q', A (.bus r') p' = w :: q' → w ≠ v := by
                  rintro w q' hh rfl
                  have hm2 : w ∈ A (.bus r') p' := by rw [hh]; exact List.mem_cons_self
                  obtain ⟨e1, e2⟩ := h.unique hm hm2
                  apply e
                  apply stop_inj hw.apart hj
                  rw [hi', e2]
                  have := e1.symm.trans ec
                  simp only [Cls.bus.injEq] at this
                  rw [this]
                simp only; rw [upd_other _ _ _ _ e, h.head j r' p' hj]
                constructor
                · rintro ⟨w, q', hh, hp'⟩
                  exact ⟨w, q', hh, by rw [upd_other _ _ _ _ (hnv w q' hh)]; exact hp'⟩
                · rintro ⟨w, q', hh, hp'⟩
                  exact ⟨w, q', hh, by rw [upd_other _ _ _ _ (hnv w q' hh)] at hp'; exact hp'⟩
            · intro w
              by_cases ew : w = v
              · subst ew; simp only [upd_same]; omega
              · simp only; rw [upd_other _ _ _ _ ew]; exact h.nonneg w
            · intro w hne
              by_cases ew : w = v
              · subst ew; exact ⟨i, r, p, hi', by rw [hA']; exact List.mem_cons_self⟩
              · simp only at hne; rw [upd_other _ _ _ _ ew] at hne; exact h.idle w hne
          · simp only [upd_same]
          · intro j hj
            by_cases e : j = i
            · subst e; simp only [upd_same]
            · simp only; rw [upd_other _ _ _ _ e]; exact hj
        · apply leave { b with counter := upd b.counter i 0 } q ?_ hA rfl rfl rfl
          · simp only [upd_same]; omega
          · intro j hj; simp only; rw [upd_other _ _ _ _ hj]
          · simp only [hold]
            rw [if_neg (by simpa using hvq), if_neg (by omega), if_neg (by omega), if_neg (by omega),
              if_neg (by omega), if_neg (by omega), if_neg hd]

end Verif.MmLnk

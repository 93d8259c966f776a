import Verif.Lemmas.Charge
import Verif.Lemmas.History

/-!
# Lemmas about runs of charging stations
-/

namespace Verif.Chg
open Ults Curve

/-! ### Curves -/

/-- The curves follow from what happened before interval `m`. -/
structure Ledger (c : Cfg) (m : ℕ) (s : State) : Prop where
  nIn : ∀ l, Res.foldlM addIncrement install (Tt.flows c.scalar (Net.entries s.log l)) = .ok (s.nIn l)
  nOut : ∀ l, Res.foldlM addIncrement install (Tt.flows c.scalar (Net.exits s.log l)) = .ok (s.nOut l)
  charged : Res.foldlM addIncrement install (Tt.flows c.scalar (s.leaves.map fun x => (x.1 + 1, 1))) = .ok s.charged
  times : ∀ x ∈ s.leaves, x.1 < m
  order : s.leaves.Pairwise fun a b => a.1 ≤ b.1
  same : (s.log.map fun e => (e.t, e.veh)) = s.leaves.map fun x => (x.1, x.2.1)

theorem flows_one (σ : ℚ) (ts : ℕ) : Tt.flows σ [(ts + 1, 1)] = [((ts : ℚ) + 1, 1 / σ)] := by
  simp [Tt.flows]

theorem flows_append (σ : ℚ) (a b : List (ℕ × ℕ)) : Tt.flows σ (a ++ b) = Tt.flows σ a ++ Tt.flows σ b := by
  simp [Tt.flows]

theorem Ledger.mono {c : Cfg} {m m' : ℕ} {s : State} (h : Ledger c m s) (hm : m ≤ m') : Ledger c m' s :=
  ⟨h.nIn, h.nOut, h.charged, fun x hx => lt_of_lt_of_le (h.times x hx) hm, h.order, h.same⟩

theorem Ledger.leaves {c : Cfg} {n i p : ℕ} {rest : List ℕ} {a o : ℕ} {s s' : State} (h : Ledger c (n + 1) s)
    (m : Leaves c n i p rest a o s s') : Ledger c (n + 1) s' := by
  have hl : s'.log = s.log ++ [⟨n, p, some a, some o⟩] := by rw [m.eq]
  have hv : s'.leaves = s.leaves ++ [(n, p, i)] := by rw [m.eq]
  refine ⟨fun l => ?_, fun l => ?_, ?_, ?_, ?_, ?_⟩
  · by_cases e : l = o
    · subst e
      have : Net.entries s'.log l = Net.entries s.log l ++ [(n + 1, 1)] := by simp [Net.entries, hl]
      rw [this, flows_append, Res.foldlM_append, h.nIn l, flows_one]
      simp only [Res.ok_bind, Res.foldlM_cons, Res.foldlM_nil, m.addIn]
    · have : Net.entries s'.log l = Net.entries s.log l := by simp [Net.entries, hl, Ne.symm e]
      rw [this, m.nIn l e]; exact h.nIn l
  · by_cases e : l = a
    · subst e
      have : Net.exits s'.log l = Net.exits s.log l ++ [(n + 1, 1)] := by simp [Net.exits, hl]
      rw [this, flows_append, Res.foldlM_append, h.nOut l, flows_one]
      simp only [Res.ok_bind, Res.foldlM_cons, Res.foldlM_nil, m.addOut]
    · have : Net.exits s'.log l = Net.exits s.log l := by simp [Net.exits, hl, Ne.symm e]
      rw [this, m.nOut l e]; exact h.nOut l
  · rw [hv, List.map_append, flows_append, Res.foldlM_append, h.charged]
    simp only [List.map_cons, List.map_nil]
    rw [flows_one]
    simp only [Res.ok_bind, Res.foldlM_cons, Res.foldlM_nil, m.add]
  · rw [hv]
    intro x hx
    rcases List.mem_append.1 hx with hx | hx
    · exact h.times x hx
    · simp only [List.mem_singleton] at hx; subst hx; simp
  · rw [hv, List.pairwise_append]
    refine ⟨h.order, by simp, fun x hx y hy => ?_⟩
    simp only [List.mem_singleton] at hy; subst hy
    have := h.times x hx
    simp only; omega
  · rw [hl, hv]; simp [h.same]

theorem Ledger.frame {c : Cfg} {m : ℕ} {s s' : State} (h : Ledger c m s) (h1 : s'.nIn = s.nIn) (h2 : s'.nOut = s.nOut)
    (h3 : s'.charged = s.charged) (h4 : s'.leaves = s.leaves) (h5 : s'.log = s.log) : Ledger c m s' :=
  ⟨by rw [h1, h5]; exact h.nIn, by rw [h2, h5]; exact h.nOut, by rw [h3, h4]; exact h.charged,
    by rw [h4]; exact h.times, by rw [h4]; exact h.order, by rw [h4, h5]; exact h.same⟩

theorem Ledger.serve {c : Cfg} {n i : ℕ} {s s' : State} (h : Ledger c (n + 1) s) (hi : i < s.pool.length)
    (hs : serveSlot c n s i = .ok s') : Ledger c (n + 1) s' := by
  rcases serveSlot_ok hi hs with ⟨_, rfl⟩ | ⟨p, rest, _, ⟨_, rfl⟩ | ⟨_, a, o, m⟩⟩
  · exact h
  · exact h.frame rfl rfl rfl rfl rfl
  · exact h.leaves m

theorem serveSlot_length {c : Cfg} {n i : ℕ} {s s' : State} (hi : i < s.pool.length)
    (hs : serveSlot c n s i = .ok s') : s'.pool.length = s.pool.length := by
  rcases serveSlot_ok hi hs with ⟨_, rfl⟩ | ⟨p, rest, _, ⟨_, rfl⟩ | ⟨_, a, o, m⟩⟩
  · rfl
  · rfl
  · rw [m.eq]; simp

/-- Something all slots keep is kept by serving. -/
theorem serve_inv {c : Cfg} {n : ℕ} (P : ℕ → State → Prop)
    (hP : ∀ s s' i, i < s.pool.length → P i s → serveSlot c n s i = .ok s' → P (i + 1) s') :
    ∀ (k : ℕ) (s s' : State), k ≤ s.pool.length → P 0 s → Res.foldlM (serveSlot c n) s (List.range k) = .ok s' →
      P k s' ∧ s'.pool.length = s.pool.length
  | 0, s, s', _, h, hs => by
    simp only [List.range_zero, Res.foldlM_nil, Res.ok.injEq] at hs
    subst hs
    exact ⟨h, rfl⟩
  | k + 1, s, s', hk, h, hs => by
    rw [List.range_succ, Res.foldlM_append, Res.bind_eq_ok] at hs
    obtain ⟨t, h1, h2⟩ := hs
    obtain ⟨g1, g2⟩ := serve_inv P hP k s t (by omega) h h1
    simp only [Res.foldlM_cons, Res.foldlM_nil, Res.bind_eq_ok, Res.ok.injEq, exists_eq_right] at h2
    exact ⟨hP t s' k (by omega) g1 h2, by rw [serveSlot_length (by omega) h2, g2]⟩

/-! ### Attributes of vehicles -/

/-- What serving did to the vehicles. -/
structure Changed (n : ℕ) (s s' : State) : Prop where
  left : ∀ p, (∃ i, (n, p, i) ∈ s'.leaves) → s'.veh p = { (s.veh p).charge with cur := (s.veh p).next }
  stay : ∀ p, (¬ ∃ i, (n, p, i) ∈ s'.leaves) → s'.veh p = { s.veh p with timer := (s'.veh p).timer }
  out : ∀ p, (∀ i, p ∉ s.queue i) → s'.veh p = s.veh p
  sub : ∀ p i, p ∈ s'.queue i → p ∈ s.queue i
  gone : ∀ p, (∃ i, (n, p, i) ∈ s'.leaves) → ∀ i, p ∉ s'.queue i
  uniq : ∀ i j p, p ∈ s'.queue i → p ∈ s'.queue j → i = j
  nodup : ∀ i, (s'.queue i).Nodup
  joins : s'.joins = s.joins
  finished : s'.finished = s.finished
  record : s'.record = s.record

theorem Changed.serve {c : Cfg} {n i : ℕ} {s t t' : State} (h : Changed n s t) (hi : i < t.pool.length)
    (hs : serveSlot c n t i = .ok t') : Changed n s t' := by
  rcases serveSlot_ok hi hs with ⟨_, rfl⟩ | ⟨p, rest, hq, ⟨_, rfl⟩ | ⟨_, a, o, m⟩⟩
  · exact h
  · have hp : p ∈ t.queue i := by rw [hq]; simp
    have hn : ¬ ∃ i, (n, p, i) ∈ t.leaves := fun hl => h.gone p hl i hp
    refine ⟨fun q hl => ?_, fun q hl => ?_, fun q ho => ?_, h.sub, h.gone, h.uniq, h.nodup, h.joins, h.finished, h.record⟩
    · have e : q ≠ p := by rintro rfl; exact hn hl
      simp only [upd_other _ _ _ _ e]
      exact h.left q hl
    · by_cases e : q = p
      · subst e
        simp only [upd_same]
        rw [h.stay q hl]
      · simp only [upd_other _ _ _ _ e]
        exact h.stay q hl
    · have e : q ≠ p := by rintro rfl; exact ho i (h.sub q i hp)
      simp only [upd_other _ _ _ _ e]
      exact h.out q ho
  · have hp : p ∈ t.queue i := by rw [hq]; simp
    have hn : ¬ ∃ i, (n, p, i) ∈ t.leaves := fun hl => h.gone p hl i hp
    have hv : t'.leaves = t.leaves ++ [(n, p, i)] := by rw [m.eq]
    have hve : t'.veh = upd t.veh p { (t.veh p).charge with cur := some o } := by rw [m.eq]
    have hqu := queue_set hi (by rw [m.eq] : t'.pool = t.pool.set i rest)
    have hnd := h.nodup i
    rw [hq, List.nodup_cons] at hnd
    have hsub : ∀ q j, q ∈ t'.queue j → q ∈ t.queue j := fun q j hj => by
      rw [hqu] at hj
      split at hj
      · rename_i e; subst e; rw [hq]; exact List.mem_cons_of_mem _ hj
      · exact hj
    have hl : ∀ q, (∃ i, (n, q, i) ∈ t'.leaves) ↔ q = p ∨ ∃ i, (n, q, i) ∈ t.leaves := fun q => by
      rw [hv]
      simp only [List.mem_append, List.mem_singleton, Prod.mk.injEq, true_and, exists_or]
      constructor
      · rintro (h | ⟨_, h, _⟩)
        · exact .inr h
        · exact .inl h
      · rintro (h | h)
        · exact .inr ⟨i, h, rfl⟩
        · exact .inl h
    have hpn : ∀ j, p ∉ t'.queue j := fun j hj => by
      have e := h.uniq i j p hp (hsub p j hj)
      subst e
      rw [hqu, if_pos rfl] at hj
      exact hnd.1 hj
    refine ⟨fun q hq' => ?_, fun q hq' => ?_, fun q ho => ?_, fun q j hj => h.sub q j (hsub q j hj), fun q hq' j hj => ?_,
      fun j k q h1 h2 => h.uniq j k q (hsub q j h1) (hsub q k h2), fun j => ?_, by rw [m.eq]; exact h.joins,
      by rw [m.eq]; exact h.finished, by rw [m.eq]; exact h.record⟩
    · rw [hl] at hq'
      by_cases e : q = p
      · subst e
        have hst := h.stay q hn
        rw [hve, upd_same]
        have hnx := m.next
        rw [hst] at hnx ⊢
        simp only at hnx
        simp [Ev.charge, hnx]
      · rw [hve, upd_other _ _ _ _ e]
        exact h.left q (hq'.resolve_left e)
    · rw [hl, not_or] at hq'
      rw [hve, upd_other _ _ _ _ hq'.1]
      exact h.stay q hq'.2
    · have e : q ≠ p := by rintro rfl; exact ho i (h.sub q i hp)
      rw [hve, upd_other _ _ _ _ e]
      exact h.out q ho
    · rw [hl] at hq'
      rcases hq' with rfl | hq'
      · exact hpn j hj
      · exact h.gone q hq' j (hsub q j hj)
    · rw [hqu]
      split
      · exact hnd.2
      · exact h.nodup j

/-! ### Estimates -/

/-- The estimates of waiting times. -/
structure Estimated (c : Cfg) (n : ℕ) (s : State) : Prop where
  keys : s.record.map (·.1) = (List.range (n + 1)).map fun t => (t : ℤ)
  start : ((0 : ℤ), (0 : ℤ)) ∈ s.record
  value : ∀ t v, (((t : ℕ) : ℤ) + 1, v) ∈ s.record → t < n ∧ ∃ i < c.queues,
    v = c.time * s.waiting i (t + 1) ∧ ∀ j < c.queues, s.waiting i (t + 1) ≤ s.waiting j (t + 1)

theorem before_append (L M : List (ℕ × ℕ × ℕ)) (i t : ℕ) (h : ∀ x ∈ M, t ≤ x.1) : before (L ++ M) i t = before L i t := by
  unfold before
  rw [List.countP_append]
  have : M.countP (fun x => decide (x.2.2 = i ∧ x.1 < t)) = 0 := by
    rw [List.countP_eq_zero]
    intro x hx
    have := h x hx
    simp only [decide_eq_true_eq, not_and, not_lt]
    intro _; exact this
  omega

/-! ### One interval -/

theorem evolve_ok {c : Cfg} {order : List ℕ} {n : ℕ} {s s' : State} (h : evolve c order n s = .ok s') :
    ∃ s1 s2 q, Res.foldlM (joinLink c n) s order = .ok s1 ∧
      Res.foldlM (serveSlot c n) s1 (List.range s1.pool.length) = .ok s2 ∧
      s2.pool[shortest s2.pool]? = some q ∧ s' = { s2 with record :=
        if (s2.record.any fun x => x.1 = (n : ℤ) + 1) then s2.record
        else s2.record ++ [((n : ℤ) + 1, q.length * c.time)] } := by
  simp only [evolve, estimate, Res.bind_eq_ok', Res.ok.injEq] at h
  obtain ⟨s1, h1, s2, h2, e, h3, h4⟩ := h
  split at h3
  · simp at h3
  · rename_i q hq
    simp only [Res.ok.injEq] at h3
    subst h3
    exact ⟨s1, s2, q, h1, h2, hq, h4.symm⟩

/-- The station between intervals. -/
structure Inv (c : Cfg) (n : ℕ) (s : State) : Prop where
  station : Station c n s
  ledger : Ledger c n s
  est : Estimated c n s

/-- What happened in interval `n`, `s` being the station after the rest of the network. -/
structure Interval (c : Cfg) (n : ℕ) (order : List ℕ) (s s' : State) : Prop where
  came : (s'.joins.map fun x => (x.1, x.2.1)) = (s.joins.map fun x => (x.1, x.2.1)) ++
    order.flatMap fun l => (s.finished l).map fun p => (n, p)
  left : ∀ p, (∃ i, (n, p, i) ∈ s'.leaves) → s'.veh p = { (s.veh p).charge with cur := (s.veh p).next }
  stay : ∀ p, (¬ ∃ i, (n, p, i) ∈ s'.leaves) → s'.veh p = { s.veh p with timer := (s'.veh p).timer }
  out : ∀ p, ¬ s.there p → s'.veh p = s.veh p

theorem mem_append_of_map {A B : List (ℕ × ℕ × ℕ)} {C : List (ℕ × ℕ)} {n : ℕ}
    (h : (B.map fun x => (x.1, x.2.1)) = (A.map fun x => (x.1, x.2.1)) ++ C) (hA : A <+: B)
    (hC : ∀ x ∈ C, x.1 = n) : ∃ D, B = A ++ D ∧ ∀ x ∈ D, x.1 = n := by
  obtain ⟨D, rfl⟩ := hA
  refine ⟨D, rfl, fun x hx => ?_⟩
  rw [List.map_append, List.append_cancel_left_eq] at h
  exact hC (x.1, x.2.1) (by rw [← h]; exact List.mem_map_of_mem (f := fun x : ℕ × ℕ × ℕ => (x.1, x.2.1)) hx)

theorem join_prefix {c : Cfg} {n : ℕ} : ∀ (L : List ℕ) (s s' : State), Res.foldlM (join c n) s L = .ok s' →
    s.joins <+: s'.joins
  | [], s, s', hs => by
    simp only [Res.foldlM_nil, Res.ok.injEq] at hs
    subst hs; exact List.prefix_rfl
  | p :: L, s, s', hs => by
    simp only [Res.foldlM_cons, Res.bind_eq_ok] at hs
    obtain ⟨t, h1, h2⟩ := hs
    obtain ⟨q, _, he⟩ := join_ok h1
    refine List.IsPrefix.trans ?_ (join_prefix L t s' h2)
    rw [he]
    exact List.prefix_append _ _

theorem joinLinks_prefix {c : Cfg} {n : ℕ} : ∀ (order : List ℕ) (s s' : State),
    Res.foldlM (joinLink c n) s order = .ok s' → s.joins <+: s'.joins
  | [], s, s', hs => by
    simp only [Res.foldlM_nil, Res.ok.injEq] at hs
    subst hs; exact List.prefix_rfl
  | p :: L, s, s', hs => by
    simp only [Res.foldlM_cons, Res.bind_eq_ok, joinLink] at hs
    obtain ⟨t, h1, h2⟩ := hs
    rw [Res.bind_eq_ok'] at h1
    obtain ⟨u, h1, h1'⟩ := h1
    simp only [Res.ok.injEq] at h1'
    refine (join_prefix _ _ _ h1).trans ?_
    refine List.IsPrefix.trans ?_ (joinLinks_prefix L t s' h2)
    rw [← h1']
    exact List.prefix_rfl

theorem join_mem {c : Cfg} {n : ℕ} : ∀ (L : List ℕ) (s s' : State), Res.foldlM (join c n) s L = .ok s' →
    ∀ i, ∀ p ∈ s'.queue i, p ∈ s.queue i ∨ p ∈ L
  | [], s, s', hs, i, p, hp => by
    simp only [Res.foldlM_nil, Res.ok.injEq] at hs
    subst hs; exact .inl hp
  | x :: L, s, s', hs, i, p, hp => by
    simp only [Res.foldlM_cons, Res.bind_eq_ok] at hs
    obtain ⟨t, h1, h2⟩ := hs
    obtain ⟨q, hq, he⟩ := join_ok h1
    rcases join_mem L t s' h2 i p hp with hp | hp
    · rw [queue_set (List.getElem?_eq_some_iff.1 hq).1 (by rw [he] : t.pool = _)] at hp
      split at hp
      · rename_i e
        subst e
        rw [queue_of_get hq]
        rcases List.mem_append.1 (by assumption : p ∈ q ++ [x]) with hp | hp
        · exact .inl hp
        · exact .inr (by simp only [List.mem_singleton] at hp; subst hp; simp)
      · exact .inl hp
    · exact .inr (List.mem_cons_of_mem _ hp)

theorem joinLinks_mem {c : Cfg} {n : ℕ} : ∀ (order : List ℕ) (s s' : State),
    Res.foldlM (joinLink c n) s order = .ok s' → ∀ i, ∀ p ∈ s'.queue i, p ∈ s.queue i ∨ ∃ l ∈ order, p ∈ s.finished l
  | [], s, s', hs, i, p, hp => by
    simp only [Res.foldlM_nil, Res.ok.injEq] at hs
    subst hs; exact .inl hp
  | l :: L, s, s', hs, i, p, hp => by
    simp only [Res.foldlM_cons, Res.bind_eq_ok, joinLink] at hs
    obtain ⟨t, h1, h2⟩ := hs
    rw [Res.bind_eq_ok'] at h1
    obtain ⟨u, h1, h1'⟩ := h1
    simp only [Res.ok.injEq] at h1'
    rcases joinLinks_mem L t s' h2 i p hp with hp | ⟨l', hl', hp⟩
    · have : t.queue i = u.queue i := by rw [← h1']; rfl
      rw [this] at hp
      rcases join_mem _ s u h1 i p hp with hp | hp
      · exact .inl hp
      · exact .inr ⟨l, by simp, hp⟩
    · rw [← h1', join_frame _ _ _ h1] at hp
      simp only at hp
      by_cases e : l' = l
      · subst e; simp at hp
      · rw [upd_other _ _ _ _ e] at hp
        exact .inr ⟨l', List.mem_cons_of_mem _ hl', hp⟩

theorem serveSlot_prefix {c : Cfg} {n i : ℕ} {s s' : State} (hi : i < s.pool.length)
    (hs : serveSlot c n s i = .ok s') : ∃ D, s'.leaves = s.leaves ++ D ∧ ∀ x ∈ D, x.1 = n := by
  rcases serveSlot_ok hi hs with ⟨_, rfl⟩ | ⟨p, rest, _, ⟨_, rfl⟩ | ⟨_, a, o, m⟩⟩
  · exact ⟨[], by simp⟩
  · exact ⟨[], by simp⟩
  · exact ⟨[(n, p, i)], by rw [m.eq], by simp⟩

/-- The number of vehicles in a queue after interval `n`. -/
theorem Slot.waiting {c : Cfg} {n i : ℕ} {J K : List (ℕ × ℕ)} {s : State} (h : Slot c n i J K s)
    (hj : ∀ x ∈ s.joins, x.1 < n) : s.waiting i n = (s.queue i).length := by
  have h1 := before_eq h.left
  have h2 : before s.joins i n = (atSlot s.joins i).length := by
    rw [atSlot_length]
    refine List.countP_congr fun x hx => ?_
    have := hj x hx
    simp [this]
  have := h.length
  unfold State.waiting
  omega

theorem queue_mem {s : State} {i : ℕ} (h : i < s.pool.length) : s.queue i ∈ s.pool := by
  have : s.pool[i]? = some s.pool[i] := List.getElem?_eq_getElem h
  rw [queue_of_get this]
  exact List.getElem_mem h

theorem Inv.step {c : Cfg} (hl : c.inLinks.Nodup) {n : ℕ} {s s' : State} (h : Inv c n s) {a : Around}
    (ha : a.Ok c s) (he : evolve c a.order n (s.around a) = .ok s') :
    Inv c (n + 1) s' ∧ Interval c n a.order (s.around a) s' := by
  obtain ⟨s1, s2, q, h1, h2, hq, he⟩ := evolve_ok he
  have w0 := h.station.around hl ha
  obtain ⟨w1, came⟩ := joinLinks a.order _ s1 (ha.order.nodup_iff.2 hl) w0 h1
  have f1 := joinLinks_frame a.order _ s1 h1
  have hlen : s1.pool.length = c.queues := w1.len
  rw [hlen] at h2
  have w2 := Whole.serveAll c.queues s1 s2 le_rfl w1 h2
  have l0 : Ledger c (n + 1) (s.around a) := (h.ledger.mono (Nat.le_succ n)).frame (by rw [around_eq, arrive_frame])
    (by rw [around_eq, arrive_frame]) (by rw [around_eq, arrive_frame]) (by rw [around_eq, arrive_frame])
    (by rw [around_eq, arrive_frame])
  have l1 : Ledger c (n + 1) s1 := l0.frame (by rw [f1]) (by rw [f1]) (by rw [f1]) (by rw [f1]) (by rw [f1])
  have hlv1 : s1.leaves = s.leaves := by rw [f1]; rw [around_eq, arrive_frame]
  have hold : ∀ p, ¬ ∃ i, (n, p, i) ∈ s1.leaves := by
    rintro p ⟨i, hi⟩
    rw [hlv1] at hi
    exact lt_irrefl _ (h.ledger.times _ hi)
  have c1 : Changed n s1 s1 := ⟨fun p hp => absurd hp (hold p), fun p _ => rfl, fun p _ => rfl, fun p i hp => hp,
    fun p hp => absurd hp (hold p), w1.uniq, w1.nodup, rfl, rfl, rfl⟩
  obtain ⟨⟨l2, c2, D, hD, hDn⟩, hlen2⟩ := serve_inv (c := c) (n := n) (fun _ t => Ledger c (n + 1) t ∧ Changed n s1 t ∧
    ∃ D, t.leaves = s1.leaves ++ D ∧ ∀ x ∈ D, x.1 = n)
    (fun t t' i hi P hs => ⟨P.1.serve hi hs, P.2.1.serve hi hs, by
      obtain ⟨D, hD, hDn⟩ := P.2.2
      obtain ⟨E, hE, hEn⟩ := serveSlot_prefix hi hs
      refine ⟨D ++ E, by rw [hE, hD, List.append_assoc], fun x hx => ?_⟩
      rcases List.mem_append.1 hx with hx | hx
      · exact hDn x hx
      · exact hEn x hx⟩) c.queues s1 s2 hlen.ge ⟨l1, c1, [], by simp, by simp⟩ h2
  have hj2 : s2.joins = s1.joins := c2.joins
  have hr2 : s2.record = s.record := by rw [c2.record, f1]; rw [around_eq, arrive_frame]
  have hj0 : (s.around a).joins = s.joins := by rw [around_eq, arrive_frame]
  obtain ⟨E, hE, hEn⟩ := mem_append_of_map (n := n) came (joinLinks_prefix _ _ _ h1) (by
    intro x hx
    simp only [List.mem_flatMap, List.mem_map] at hx
    obtain ⟨l, _, p, _, rfl⟩ := hx
    rfl)
  rw [hj0] at hE
  have hjt : ∀ x ∈ s2.joins, x.1 < n + 1 := fun x hx => Nat.lt_succ_of_le (w2.times x hx)
  have hfin2 : ∀ l, s2.finished l = [] := fun l => by
    rw [c2.finished, f1]
    simp only
    split
    · rfl
    · rename_i hlo
      rw [around_eq, arrive_finished]
      simp only [h.station.empty l, List.nil_append]
      rw [List.map_eq_nil_iff, List.filter_eq_nil_iff]
      intro x hx e
      simp only [decide_eq_true_eq] at e
      subst e
      exact hlo (ha.order.mem_iff.2 (ha.links x hx))
  have hveh1 : s1.veh = (s.around a).veh := by rw [f1]
  -- the final state
  have hw : ∀ i < c.queues, s2.waiting i (n + 1) = (s2.queue i).length := fun i hi => by
    obtain ⟨J, K, S⟩ := w2.slot i hi
    rw [if_pos hi] at S
    exact S.waiting hjt
  have hwold : ∀ i t, t ≤ n → s2.waiting i t = s.waiting i t := fun i t ht => by
    unfold State.waiting
    rw [hD, hlv1, hj2, hE, before_append s.leaves D _ _ fun x hx => by rw [hDn x hx]; exact ht,
      before_append s.joins E _ _ fun x hx => by rw [hEn x hx]; exact ht]
  have hnot : s2.record.any (fun x => x.1 = (n : ℤ) + 1) = false := by
    rw [List.any_eq_false]
    intro x hx e
    simp only [decide_eq_true_eq] at e
    rw [hr2] at hx
    obtain ⟨y, v⟩ := x
    simp only at e
    subst e
    exact lt_irrefl _ (h.est.value n v hx).1
  rw [hnot] at he
  simp only [Bool.false_eq_true, if_false] at he
  refine ⟨⟨⟨?_, fun l => by rw [he]; exact hfin2 l⟩, ?_, ?_⟩, ?_⟩
  · rw [he]
    refine ⟨w2.len, w2.uniq, w2.nodup, fun i hi => ?_, by simp, by simp, by simp, w2.slots, fun x hx => (hjt x hx).le, w2.fair⟩
    obtain ⟨J, K, S⟩ := w2.slot i hi
    rw [if_pos hi] at S
    exact ⟨J, K, S.frame rfl rfl rfl fun _ _ => rfl⟩
  · rw [he]
    exact l2.frame rfl rfl rfl rfl rfl
  · rw [he]
    refine ⟨?_, ?_, fun t v hv => ?_⟩
    · simp only [List.map_append, hr2, h.est.keys, List.map_cons, List.map_nil]
      rw [List.range_succ (n := n + 1)]
      simp
    · simp only [hr2, List.mem_append]; exact .inl h.est.start
    · simp only [hr2, List.mem_append, List.mem_singleton, Prod.mk.injEq] at hv
      change t < n + 1 ∧ ∃ i < c.queues, v = c.time * s2.waiting i (t + 1) ∧
        ∀ j < c.queues, s2.waiting i (t + 1) ≤ s2.waiting j (t + 1)
      rcases hv with hv | ⟨hv, rfl⟩
      · obtain ⟨g1, i, hi, g2, g3⟩ := h.est.value t v hv
        refine ⟨by omega, i, hi, ?_, fun j hj => ?_⟩
        · rw [hwold _ _ (by omega)]; exact g2
        · rw [hwold _ _ (by omega), hwold _ _ (by omega)]; exact g3 j hj
      · have : t = n := by omega
        subst this
        have hlt : shortest s2.pool < c.queues := by
          have := List.getElem?_eq_some_iff.1 hq
          obtain ⟨hh, _⟩ := this
          omega
        obtain ⟨k1, _⟩ := shortest_spec _ _ hq
        refine ⟨by omega, shortest s2.pool, hlt, ?_, fun j hj => ?_⟩
        · rw [hw _ hlt, queue_of_get hq, mul_comm]
        · rw [hw _ hlt, hw _ hj, queue_of_get hq]
          exact_mod_cast k1 _ (queue_mem (by omega))
  · refine ⟨?_, fun p hp => ?_, fun p hp => ?_, fun p hp => ?_⟩
    · rw [he]; simp only [hj2]; exact came
    · rw [he] at hp ⊢
      simp only
      rw [c2.left p hp, hveh1]
    · rw [he] at hp ⊢
      simp only
      rw [← hveh1]
      exact c2.stay p hp
    · rw [he]
      simp only
      rw [← hveh1]
      refine c2.out p fun i hi => hp ?_
      rcases joinLinks_mem _ _ _ h1 i p hi with hi | ⟨l, _, hi⟩
      · exact .inl (queue_mem_pool hi)
      · exact .inr ⟨l, hi⟩

/-! ### Runs -/

theorem Inv.init (c : Cfg) (veh : ℕ → Ev) : Inv c 0 (State.init c veh) := by
  have hq : ∀ i, (State.init c veh).queue i = [] := fun i => by
    unfold State.queue State.init
    simp only [List.getD_eq_getElem?_getD, List.getElem?_replicate]
    split <;> rfl
  refine ⟨⟨⟨by simp [State.init], by simp [hq], by simp [hq], fun i _ => ⟨[], [], ?_⟩, by simp, by simp, by simp,
    by simp [State.init], by simp [State.init], ?_⟩, fun l => rfl⟩, ?_, ?_⟩
  · exact ⟨rfl, rfl, hq i, le_rfl, by simp, by simp, by simp⟩
  · intro came t p i rest h
    simp [State.init] at h
  · exact ⟨fun l => rfl, fun l => rfl, rfl, by simp [State.init], by simp [State.init], rfl⟩
  · refine ⟨by simp [State.init], by simp [State.init], fun t v hv => ?_⟩
    simp only [State.init, List.mem_singleton, Prod.mk.injEq] at hv
    omega

theorem Interval.arrivals {c : Cfg} {n : ℕ} {s s' : State} {a : Around} (h : Inv c n s)
    (i : Interval c n a.order (s.around a) s') :
    (s'.joins.map fun x => (x.1, x.2.1)) = (s.joins.map fun x => (x.1, x.2.1)) ++
      a.order.flatMap fun l => (a.arrive.filter fun x => decide (x.1 = l)).map fun x => (n, x.2.1) := by
  have hj0 : (s.around a).joins = s.joins := by rw [around_eq, arrive_frame]
  rw [i.came, hj0]
  congr 1
  rw [List.flatMap_def, List.flatMap_def]
  congr 1
  refine List.map_congr_left fun l _ => ?_
  rw [around_eq, arrive_finished]
  simp [h.station.empty l, Function.comp_def]

theorem run_inv {c : Cfg} (hl : c.inLinks.Nodup) : ∀ (as : List Around) (n : ℕ) (s s' : State), Inv c n s → Ok c as n s →
    run c as n s = .ok s' → Inv c (n + as.length) s' ∧
      (s'.joins.map fun x => (x.1, x.2.1)) = (s.joins.map fun x => (x.1, x.2.1)) ++ arrivals as n
  | [], n, s, s', h, _, hr => by
    simp only [run, Res.ok.injEq] at hr
    subst hr
    exact ⟨h, by simp [arrivals]⟩
  | a :: as, n, s, s', h, ho, hr => by
    simp only [run, Res.bind_eq_ok'] at hr
    obtain ⟨t, h1, h2⟩ := hr
    obtain ⟨g1, g2⟩ := h.step hl ho.1 h1
    obtain ⟨k1, k2⟩ := run_inv hl as (n + 1) t s' g1 (ho.2 t h1) h2
    refine ⟨by rw [List.length_cons, show n + (as.length + 1) = n + 1 + as.length by omega]; exact k1, ?_⟩
    rw [k2, g2.arrivals h, List.append_assoc]
    rfl

theorem arrivals_ge : ∀ (as : List Around) (n : ℕ), ∀ x ∈ arrivals as n, n ≤ x.1
  | [], n, x, hx => by simp [arrivals] at hx
  | a :: as, n, x, hx => by
    rcases List.mem_append.1 hx with hx | hx
    · simp only [List.mem_flatMap, List.mem_map] at hx
      obtain ⟨l, _, p, _, rfl⟩ := hx
      exact le_rfl
    · have := arrivals_ge as (n + 1) x hx
      omega

theorem arrivals_order : ∀ (as : List Around) (n : ℕ), (arrivals as n).Pairwise fun a b => a.1 ≤ b.1
  | [], n => by simp [arrivals]
  | a :: as, n => by
    have h0 : ∀ x ∈ (a.order.flatMap fun l => (a.arrive.filter fun x => decide (x.1 = l)).map fun x => (n, x.2.1)),
        x.1 = n := fun x hx => by
      simp only [List.mem_flatMap, List.mem_map] at hx
      obtain ⟨l, _, p, _, rfl⟩ := hx
      rfl
    refine List.pairwise_append.2 ⟨?_, arrivals_order as (n + 1), fun x hx y hy => ?_⟩
    · refine List.pairwise_of_forall_mem_list fun x hx y hy => ?_
      rw [h0 x hx, h0 y hy]
    · have := arrivals_ge as (n + 1) y hy
      have := h0 x hx
      omega

/-- What left a slot is what the schedule says, up to now. -/
theorem Slot.schedule {c : Cfg} {n i : ℕ} {J K : List (ℕ × ℕ)} {s : State} (h : Slot c n i J K s) :
    atSlot s.leaves i = (Chg.schedule c.time.toNat 0 (atSlot s.joins i)).filter fun x => decide (x.1 < n) := by
  rw [h.joins, schedule_append, List.filter_append]
  have h1 : (Chg.schedule c.time.toNat 0 J).filter (fun x => decide (x.1 < n)) = Chg.schedule c.time.toNat 0 J := by
    rw [List.filter_eq_self]
    intro x hx
    rw [decide_eq_true_eq]
    exact lt_of_lt_of_le (schedule_lt _ _ _ x hx) h.free
  have h2 : (Chg.schedule c.time.toNat (freeAfter c.time.toNat 0 J) K).filter (fun x => decide (x.1 < n)) = [] := by
    rw [List.filter_eq_nil_iff]
    intro x hx e
    rw [decide_eq_true_eq] at e
    cases K with
    | nil => simp [Chg.schedule] at hx
    | cons y K =>
      have hy := (h.head y (by simp)).1
      simp only [Chg.schedule, List.mem_cons] at hx
      rcases hx with rfl | hx
      · simp only at e; omega
      · have := schedule_ge _ _ _ x hx
        omega
  rw [h1, h2, List.append_nil, h.leaves]

/-! ### Waiting is bounded -/

theorem freeAfter_le (time t : ℕ) (J : List (ℕ × ℕ)) (h : ∀ x ∈ J, x.1 ≤ t) :
    freeAfter time 0 J ≤ t + ((Chg.schedule time 0 J).countP fun x => decide (t ≤ x.1)) * (time + 1) := by
  induction J using List.reverseRecOn with
  | nil => simp [freeAfter]
  | append_singleton J x ih =>
    have hx := h x (by simp)
    have ih := ih fun y hy => h y (by simp [hy])
    rw [freeAfter_append, schedule_append, List.countP_append]
    simp only [freeAfter, Chg.schedule, List.countP_cons, List.countP_nil]
    by_cases e : t ≤ max x.1 (freeAfter time 0 J) + time
    · rw [if_pos (by simpa using e), Nat.zero_add, Nat.add_mul]
      generalize ((Chg.schedule time 0 J).countP fun x => decide (t ≤ x.1)) * (time + 1) = k at *
      omega
    · have := Nat.zero_le (((Chg.schedule time 0 J).countP fun x => decide (t ≤ x.1)) * (time + 1))
      rw [if_neg (by simpa using e), Nat.zero_add, Nat.add_zero]
      omega

theorem schedule_le (time : ℕ) : ∀ (K : List (ℕ × ℕ)) (free t : ℕ) (p : ℕ), ∀ x ∈ Chg.schedule time free ((t, p) :: K),
    t ≤ x.1
  | K, free, t, p, x, hx => by
    simp only [Chg.schedule, List.mem_cons] at hx
    rcases hx with rfl | hx
    · simp only; omega
    · have := schedule_ge _ _ _ x hx
      omega

/-! ### A station does not fail -/

theorem join_total {c : Cfg} {n p : ℕ} {s : State} (h : (s.veh p).Routed c) (hq : s.pool ≠ []) :
    ∃ s', join c n s p = .ok s' := by
  obtain ⟨o, ho, hn⟩ := h.next
  unfold join
  rw [hn]
  simp only
  rw [if_neg (by simpa using ho), if_neg (by simp [h.electrified, h.adaptive, h.station])]
  rw [List.getElem?_eq_getElem (shortest_lt _ hq)]
  exact ⟨_, rfl⟩

theorem join_length {c : Cfg} {n p : ℕ} {s s' : State} (h : join c n s p = .ok s') : s'.pool.length = s.pool.length := by
  obtain ⟨q, _, he⟩ := join_ok h
  rw [he]; simp

theorem joins_total {c : Cfg} {n : ℕ} : ∀ (L : List ℕ) (s : State), (∀ p ∈ L, (s.veh p).Routed c) → s.pool ≠ [] →
    ∃ s', Res.foldlM (join c n) s L = .ok s' ∧ s'.pool ≠ []
  | [], s, _, hq => ⟨s, rfl, hq⟩
  | p :: L, s, h, hq => by
    obtain ⟨t, ht⟩ := join_total (n := n) (h p (by simp)) hq
    have hv : t.veh = s.veh := by obtain ⟨q, _, he⟩ := join_ok ht; rw [he]
    have hl := join_length ht
    obtain ⟨s', h1, h2⟩ := joins_total (n := n) L t (fun x hx => by rw [hv]; exact h x (List.mem_cons_of_mem _ hx))
      (fun e => by rw [e] at hl; exact hq (List.eq_nil_of_length_eq_zero hl.symm))
    exact ⟨s', by rw [Res.foldlM_cons, ht, Res.ok_bind]; exact h1, h2⟩

theorem joinLinks_total {c : Cfg} {n : ℕ} : ∀ (order : List ℕ) (s : State),
    (∀ l, ∀ p ∈ s.finished l, (s.veh p).Routed c) → s.pool ≠ [] → ∃ s', Res.foldlM (joinLink c n) s order = .ok s'
  | [], s, _, _ => ⟨s, rfl⟩
  | l :: order, s, h, hq => by
    obtain ⟨t, h1, h2⟩ := joins_total (n := n) (s.finished l) s (h l) hq
    have hf := join_frame _ _ _ h1
    obtain ⟨s', h3⟩ := joinLinks_total (n := n) order { t with finished := upd t.finished l [] } (fun l' p hp => by
      have hv : t.veh = s.veh := by rw [hf]
      have hfi : t.finished = s.finished := by rw [hf]
      simp only [hv]
      simp only [hfi] at hp
      by_cases e : l' = l
      · subst e; simp at hp
      · rw [upd_other _ _ _ _ e] at hp
        exact h l' p hp) h2
    refine ⟨s', ?_⟩
    rw [Res.foldlM_cons, joinLink, h1, Res.bind_ok', Res.ok_bind]
    exact h3

/-- The next increment is accepted. -/
theorem increment_total {σ : ℚ} (hσ : 0 < σ) {n : ℕ} (hn : n + 1 < 10000) {h : List (ℕ × ℕ)} {k : Curve}
    (hh : ∀ x ∈ h, 1 ≤ x.1 ∧ x.1 ≤ n + 1) (ho : h.Pairwise fun a b => a.1 ≤ b.1)
    (hk : Res.foldlM addIncrement install (Tt.flows σ h) = .ok k) :
    ∃ k', addIncrement k ((n : ℚ) + 1, 1 / σ) = .ok k' := by
  obtain ⟨k', h1, _⟩ := Tt.run_holds (h := h ++ [(n + 1, 1)]) hσ hn ⟨fun x hx => by
    rcases List.mem_append.1 hx with hx | hx
    · exact hh x hx
    · simp only [List.mem_singleton] at hx; subst hx; simp, List.pairwise_append.2 ⟨ho, by simp, fun x hx y hy => by
      simp only [List.mem_singleton] at hy; subst hy
      exact (hh x hx).2⟩⟩
  rw [flows_append, Res.foldlM_append, hk, Res.ok_bind, flows_one, Res.foldlM_cons, Res.bind_eq_ok] at h1
  obtain ⟨b, hb, _⟩ := h1
  exact ⟨b, hb⟩

theorem Ledger.log {c : Cfg} {m : ℕ} {s : State} (h : Ledger c m s) (f : Net.Event → Bool) :
    (∀ x ∈ ((s.log.filter f).map fun e => (e.t + 1, 1)), 1 ≤ x.1 ∧ x.1 ≤ m) ∧
    ((s.log.filter f).map fun e => (e.t + 1, 1)).Pairwise fun a b => a.1 ≤ b.1 := by
  have h1 : ∀ e ∈ s.log, e.t < m := fun e he => by
    have : (e.t, e.veh) ∈ s.leaves.map fun x => (x.1, x.2.1) := by
      rw [← h.same]; exact List.mem_map_of_mem (f := fun e : Net.Event => (e.t, e.veh)) he
    obtain ⟨x, hx, e'⟩ := List.mem_map.1 this
    simp only [Prod.mk.injEq] at e'
    rw [← e'.1]
    exact h.times x hx
  have h2 : s.log.Pairwise fun a b => a.t ≤ b.t := by
    have g : (s.leaves.map fun x => (x.1, x.2.1)).Pairwise fun a b => a.1 ≤ b.1 := by
      rw [List.pairwise_map]; exact h.order
    rw [← h.same, List.pairwise_map] at g
    exact g
  refine ⟨fun x hx => ?_, ?_⟩
  · obtain ⟨e, he, rfl⟩ := List.mem_map.1 hx
    have := h1 e (List.mem_of_mem_filter he)
    exact ⟨by simp, by simp only; omega⟩
  · rw [List.pairwise_map]
    refine (h2.filter f).imp fun {a b} hab => ?_
    simp only; omega

theorem serveSlot_total {c : Cfg} (hσ : 0 < c.scalar) {n i : ℕ} (hn : n + 1 < 10000) {s : State} (l : Ledger c (n + 1) s)
    (h : ∀ p ∈ s.queue i, (s.veh p).cur ≠ none ∧ (s.veh p).next ≠ none) : ∃ s', serveSlot c n s i = .ok s' := by
  unfold serveSlot
  split
  · rename_i p rest hq
    obtain ⟨h1, h2⟩ := h p (by rw [queue_of_get hq]; simp)
    obtain ⟨a, ha⟩ := Option.ne_none_iff_exists'.1 h1
    obtain ⟨o, ho⟩ := Option.ne_none_iff_exists'.1 h2
    unfold serve
    simp only
    generalize (if (s.veh p).timer < 0 then 0 else (s.veh p).timer) = tm
    split
    · unfold moveOut
      simp only [upd_same, Ev.charge, ha, ho]
      obtain ⟨k1, hk1⟩ := increment_total hσ hn (l.log _).1 (l.log _).2 (l.nOut a)
      obtain ⟨k2, hk2⟩ := increment_total hσ hn (l.log _).1 (l.log _).2 (l.nIn o)
      obtain ⟨k3, hk3⟩ := increment_total hσ hn (h := s.leaves.map fun x => (x.1 + 1, 1)) (fun x hx => by
        obtain ⟨y, hy, rfl⟩ := List.mem_map.1 hx
        have := l.times y hy
        exact ⟨by simp, by simp only; omega⟩) (by
        rw [List.pairwise_map]
        refine l.order.imp fun {a b} hab => ?_
        simp only; omega) l.charged
      simp only [hk1, hk2, hk3, Res.bind_ok']
      exact ⟨_, rfl⟩
    · exact ⟨_, rfl⟩
  · exact ⟨_, rfl⟩

/-- Vehicles in queues know their links. -/
def Known (s : State) : Prop := ∀ i, ∀ p ∈ s.queue i, (s.veh p).cur ≠ none ∧ (s.veh p).next ≠ none

theorem Changed.known {n : ℕ} {s s' : State} (h : Changed n s s') (hk : Known s) : Known s' := fun i p hp => by
  have hst := h.stay p fun hl => h.gone p hl i hp
  rw [hst]
  exact hk i p (h.sub p i hp)

theorem serveAll_total {c : Cfg} (hσ : 0 < c.scalar) {n : ℕ} (hn : n + 1 < 10000) {s : State} (hk : Known s)
    (l : Ledger c (n + 1) s) (ch : Changed n s s) : ∀ (k : ℕ), k ≤ s.pool.length →
    ∃ s', Res.foldlM (serveSlot c n) s (List.range k) = .ok s' ∧ Known s' ∧ s'.pool.length = s.pool.length
  | 0, _ => ⟨s, rfl, hk, rfl⟩
  | k + 1, hkl => by
    obtain ⟨t, h1, h2, h3⟩ := serveAll_total hσ hn hk l ch k (by omega)
    obtain ⟨⟨l', c'⟩, _⟩ := serve_inv (c := c) (n := n) (fun _ t => Ledger c (n + 1) t ∧ Changed n s t)
      (fun t t' i hi P hs => ⟨P.1.serve hi hs, P.2.serve hi hs⟩) k s t (by omega) ⟨l, ch⟩ h1
    obtain ⟨s', hs'⟩ := serveSlot_total hσ hn l' (h2 k)
    refine ⟨s', ?_, (c'.serve (by omega) hs').known hk, by rw [serveSlot_length (by omega) hs', h3]⟩
    rw [List.range_succ, Res.foldlM_append, h1, Res.ok_bind, Res.foldlM_cons, hs']
    rfl

theorem Inv.total {c : Cfg} (hl : c.inLinks.Nodup) (hσ : 0 < c.scalar) (hq : 0 < c.queues) {n : ℕ} (hn : n + 1 < 10000)
    {s : State} (h : Inv c n s) (hk : Known s) {a : Around} (ha : a.Ok c s) (hr : ∀ x ∈ a.arrive, x.2.2.Routed c) :
    ∃ s', evolve c a.order n (s.around a) = .ok s' ∧ Known s' := by
  have w0 := h.station.around hl ha
  have hveh := fun p => arrive_veh a.arrive { s with incoming := fun l => (s.incoming l).drop (a.take l) } p ha.nodup
  have hfin : ∀ l, (s.around a).finished l = (a.arrive.filter fun x => decide (x.1 = l)).map fun x => x.2.1 := fun l => by
    rw [around_eq, arrive_finished]
    simp [h.station.empty l]
  have hrt : ∀ l, ∀ p ∈ (s.around a).finished l, ((s.around a).veh p).Routed c ∧ ((s.around a).veh p).cur ≠ none := fun l p hp => by
    rw [hfin] at hp
    obtain ⟨x, hx, rfl⟩ := List.mem_map.1 hp
    have hx := (List.mem_filter.1 hx).1
    rw [around_eq, (hveh _).2 x hx rfl]
    have r := hr x hx
    exact ⟨⟨r.electrified, r.adaptive, r.station, r.next⟩, by simp⟩
  have hne : ∀ {t : State}, t.pool.length = c.queues → t.pool ≠ [] := fun ht e => by rw [e] at ht; simp at ht; omega
  obtain ⟨s1, h1⟩ := joinLinks_total (c := c) (n := n) a.order (s.around a) (fun l p hp => (hrt l p hp).1) (hne w0.len)
  obtain ⟨w1, came⟩ := joinLinks a.order _ s1 (ha.order.nodup_iff.2 hl) w0 h1
  have f1 := joinLinks_frame a.order _ s1 h1
  have l0 : Ledger c (n + 1) (s.around a) := (h.ledger.mono (Nat.le_succ n)).frame (by rw [around_eq, arrive_frame])
    (by rw [around_eq, arrive_frame]) (by rw [around_eq, arrive_frame]) (by rw [around_eq, arrive_frame])
    (by rw [around_eq, arrive_frame])
  have l1 : Ledger c (n + 1) s1 := l0.frame (by rw [f1]) (by rw [f1]) (by rw [f1]) (by rw [f1]) (by rw [f1])
  have hlv1 : s1.leaves = s.leaves := by rw [f1]; rw [around_eq, arrive_frame]
  have hold : ∀ p, ¬ ∃ i, (n, p, i) ∈ s1.leaves := by
    rintro p ⟨i, hi⟩
    rw [hlv1] at hi
    exact lt_irrefl _ (h.ledger.times _ hi)
  have c1 : Changed n s1 s1 := ⟨fun p hp => absurd hp (hold p), fun p _ => rfl, fun p _ => rfl, fun p i hp => hp,
    fun p hp => absurd hp (hold p), w1.uniq, w1.nodup, rfl, rfl, rfl⟩
  have hveh1 : s1.veh = (s.around a).veh := by rw [f1]
  have k1 : Known s1 := fun i p hp => by
    rw [hveh1]
    rcases joinLinks_mem _ _ _ h1 i p hp with hp | ⟨l, _, hp⟩
    · have hqe : (s.around a).queue i = s.queue i := by rw [around_eq, arrive_frame]; rfl
      rw [hqe] at hp
      rw [around_eq, (hveh p).1]
      · exact hk i p hp
      · intro hp'
        obtain ⟨x, hx, rfl⟩ := List.mem_map.1 hp'
        exact ha.away x hx (.inl (queue_mem_pool hp))
    · obtain ⟨g1, g2⟩ := hrt l p hp
      obtain ⟨o, _, ho⟩ := g1.next
      exact ⟨g2, by simp [ho]⟩
  obtain ⟨s2, h2, k2, hlen⟩ := serveAll_total hσ hn k1 l1 c1 s1.pool.length le_rfl
  have hlt := shortest_lt s2.pool (hne (hlen.trans w1.len))
  refine ⟨_, by
    unfold evolve estimate
    rw [h1, Res.bind_ok', h2, Res.bind_ok', List.getElem?_eq_getElem hlt]
    simp only [Res.bind_ok']
    rfl, ?_⟩
  exact k2

theorem run_total {c : Cfg} (hl : c.inLinks.Nodup) (hσ : 0 < c.scalar) (hq : 0 < c.queues) :
    ∀ (as : List Around) (n : ℕ) (s : State), Inv c n s → Known s → Ok c as n s → n + as.length < 10000 →
    (∀ a ∈ as, ∀ x ∈ a.arrive, x.2.2.Routed c) → ∃ s', run c as n s = .ok s'
  | [], n, s, _, _, _, _, _ => ⟨s, rfl⟩
  | a :: as, n, s, h, hk, ho, hn, hr => by
    simp only [List.length_cons] at hn
    obtain ⟨t, ht, hkt⟩ := h.total hl hσ hq (by omega) hk ho.1 (hr a (by simp))
    obtain ⟨s', hs'⟩ := run_total hl hσ hq as (n + 1) t (h.step hl ho.1 ht).1 hkt (ho.2 t ht) (by omega)
      fun b hb => hr b (List.mem_cons_of_mem _ hb)
    exact ⟨s', by rw [run, ht, Res.bind_ok', hs']⟩

/-! ### Examples -/

/-- A check for `Ok`. -/
def okB (c : Cfg) : List Around → ℕ → State → Bool
  | [], _, _ => true
  | a :: as, ts, s =>
    a.order.isPerm c.inLinks && decide ((a.arrive.map fun x => x.2.1).Nodup) &&
    (a.arrive.all fun x => (s.pool.all fun q => !q.contains x.2.1) && c.inLinks.contains x.1 && decide (x.2.2.timer ≤ 0)) &&
    match evolve c a.order ts (s.around a) with
    | .ok s' => okB c as (ts + 1) s'
    | _ => true

theorem okB_ok {c : Cfg} (hl : c.inLinks.Nodup) : ∀ (as : List Around) (n : ℕ) (s : State), Inv c n s →
    okB c as n s = true → Ok c as n s
  | [], _, _, _, _ => trivial
  | a :: as, n, s, h, hb => by
    simp only [okB, Bool.and_eq_true, decide_eq_true_eq, List.all_eq_true] at hb
    obtain ⟨⟨⟨h1, h2⟩, h3⟩, h4⟩ := hb
    have ha : a.Ok c s := ⟨List.isPerm_iff.1 h1, h2, fun x hx ht => by
      rcases ht with ⟨q, hq, hp⟩ | ⟨l, hp⟩
      · have := (h3 x hx).1.1 q hq
        simp [hp] at this
      · rw [h.station.empty l] at hp
        simp at hp, fun x hx => by simpa using (h3 x hx).1.2, fun x hx => (h3 x hx).2⟩
    refine ⟨ha, fun s' hs' => ?_⟩
    rw [hs'] at h4
    exact okB_ok hl as (n + 1) s' (h.step hl ha hs').1 h4

end Verif.Chg

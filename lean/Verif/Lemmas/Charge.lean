import Verif.Spec.Charge
import Mathlib.Data.List.Nodup

/-!
# Lemmas about charging stations
-/

namespace Verif.Chg
open Ults Curve

/-! ### Schedules -/

/-- When the slot is free after the vehicles `J`. -/
def freeAfter (time : ℕ) : ℕ → List (ℕ × ℕ) → ℕ
  | free, [] => free
  | free, (a, _) :: rest => freeAfter time (max a free + time + 1) rest

theorem schedule_append (time : ℕ) : ∀ (J K : List (ℕ × ℕ)) (free : ℕ),
    schedule time free (J ++ K) = schedule time free J ++ schedule time (freeAfter time free J) K
  | [], _, _ => rfl
  | (a, p) :: J, K, free => by simp [schedule, freeAfter, schedule_append time J K]

theorem freeAfter_append (time : ℕ) : ∀ (J K : List (ℕ × ℕ)) (free : ℕ),
    freeAfter time free (J ++ K) = freeAfter time (freeAfter time free J) K
  | [], _, _ => rfl
  | (a, p) :: J, K, free => by simp [freeAfter, freeAfter_append time J K]

theorem le_freeAfter (time : ℕ) : ∀ (J : List (ℕ × ℕ)) (free : ℕ), free ≤ freeAfter time free J
  | [], _ => le_rfl
  | (a, p) :: J, free => by
    have := le_freeAfter time J (max a free + time + 1)
    simp only [freeAfter]
    omega

theorem schedule_lt (time : ℕ) : ∀ (J : List (ℕ × ℕ)) (free : ℕ), ∀ x ∈ schedule time free J,
    x.1 < freeAfter time free J
  | [], _, x, hx => by simp [schedule] at hx
  | (a, p) :: J, free, x, hx => by
    simp only [schedule, List.mem_cons] at hx
    simp only [freeAfter]
    rcases hx with rfl | hx
    · have := le_freeAfter time J (max a free + time + 1)
      simp only
      omega
    · exact schedule_lt time J _ x hx

theorem schedule_ge (time : ℕ) : ∀ (J : List (ℕ × ℕ)) (free : ℕ), ∀ x ∈ schedule time free J,
    free + time ≤ x.1
  | [], _, x, hx => by simp [schedule] at hx
  | (a, p) :: J, free, x, hx => by
    simp only [schedule, List.mem_cons] at hx
    rcases hx with rfl | hx
    · simp only; omega
    · have := schedule_ge time J _ x hx
      omega

/-! ### Queues -/

/-- The queue of slot `i`. -/
def State.queue (s : State) (i : ℕ) : List ℕ := s.pool.getD i []

theorem queue_of_get {s : State} {i : ℕ} {q : List ℕ} (h : s.pool[i]? = some q) : s.queue i = q := by
  simp [State.queue, List.getD_eq_getElem?_getD, h]

theorem queue_set {s s' : State} {k : ℕ} {q : List ℕ} (hk : k < s.pool.length) (h : s'.pool = s.pool.set k q) (i : ℕ) :
    s'.queue i = if i = k then q else s.queue i := by
  simp only [State.queue, List.getD_eq_getElem?_getD, h]
  by_cases e : i = k
  · subst e; simp [hk]
  · rw [List.getElem?_set_ne (Ne.symm e), if_neg e]

theorem shortest_spec : ∀ (P : List (List ℕ)) (q : List ℕ), P[shortest P]? = some q →
    (∀ r ∈ P, q.length ≤ r.length) ∧ ∀ j < shortest P, ∀ r, P[j]? = some r → q.length < r.length
  | [], q, h => by simp [shortest] at h
  | p :: P, q, h => by
    unfold shortest at h ⊢
    split at h
    · rename_i hp
      simp only [List.getElem?_cons_zero, Option.some.injEq] at h
      subst h
      rw [if_pos hp]
      exact ⟨by simpa using hp, by simp⟩
    · rename_i hp
      rw [List.getElem?_cons_succ] at h
      obtain ⟨h1, h2⟩ := shortest_spec P q h
      rw [if_neg hp]
      push Not at hp
      obtain ⟨r, hr, hlt⟩ := hp
      have hq : q.length < p.length := lt_of_le_of_lt (h1 r hr) hlt
      refine ⟨by simpa using ⟨hq.le, h1⟩, fun j hj r' hr' => ?_⟩
      cases j with
      | zero => simp only [List.getElem?_cons_zero, Option.some.injEq] at hr'; subst hr'; exact hq
      | succ j => exact h2 j (by omega) r' (by simpa using hr')

theorem shortest_lt : ∀ (P : List (List ℕ)), P ≠ [] → shortest P < P.length
  | [], h => absurd rfl h
  | p :: P, _ => by
    unfold shortest
    split
    · simp
    · rename_i hp
      have : P ≠ [] := by rintro rfl; simp at hp
      have := shortest_lt P this
      simp only [List.length_cons]; omega

/-! ### One slot -/

/-- The state of slot `i` before it is served in interval `n`: of the vehicles `J ++ K` that have come, those
in `J` have left. -/
structure Slot (c : Cfg) (n i : ℕ) (J K : List (ℕ × ℕ)) (s : State) : Prop where
  joins : atSlot s.joins i = J ++ K
  leaves : atSlot s.leaves i = schedule c.time.toNat 0 J
  queue : s.queue i = K.map (·.2)
  free : freeAfter c.time.toNat 0 J ≤ n
  head : ∀ x ∈ K.head?, n ≤ max x.1 (freeAfter c.time.toNat 0 J) + c.time.toNat ∧
    max 0 (s.veh x.2).timer + max x.1 (freeAfter c.time.toNat 0 J) = n
  tail : ∀ x ∈ K.tail, (s.veh x.2).timer ≤ 0
  past : ∀ x ∈ K, x.1 ≤ n

theorem Slot.frame {c : Cfg} {n i : ℕ} {J K : List (ℕ × ℕ)} {s s' : State} (h : Slot c n i J K s)
    (h1 : atSlot s'.joins i = atSlot s.joins i) (h2 : atSlot s'.leaves i = atSlot s.leaves i)
    (h3 : s'.queue i = s.queue i) (h4 : ∀ p ∈ s.queue i, (s'.veh p).timer = (s.veh p).timer) :
    Slot c n i J K s' := by
  have hK : ∀ x ∈ K, (s'.veh x.2).timer = (s.veh x.2).timer := fun x hx => h4 _ (by
    rw [h.queue]; exact List.mem_map_of_mem hx)
  refine ⟨h1.trans h.joins, h2.trans h.leaves, h3.trans h.queue, h.free, fun x hx => ?_, fun x hx => ?_, h.past⟩
  · rw [hK x (List.mem_of_mem_head? hx)]; exact h.head x hx
  · rw [hK x (List.mem_of_mem_tail hx)]; exact h.tail x hx

theorem atSlot_append (L M : List (ℕ × ℕ × ℕ)) (i : ℕ) : atSlot (L ++ M) i = atSlot L i ++ atSlot M i := by
  simp [atSlot]

theorem atSlot_one (t p k i : ℕ) : atSlot [(t, p, k)] i = if k = i then [(t, p)] else [] := by
  unfold atSlot
  by_cases h : k = i <;> simp [h]

/-- A vehicle joins the queue. -/
theorem Slot.join {c : Cfg} {n i : ℕ} {J K : List (ℕ × ℕ)} {s s' : State} {p : ℕ} (h : Slot c n i J K s)
    (h1 : s'.joins = s.joins ++ [(n, p, i)]) (h2 : s'.leaves = s.leaves) (h3 : s'.queue i = s.queue i ++ [p])
    (h4 : s'.veh = s.veh) (h5 : (s.veh p).timer ≤ 0) : Slot c n i J (K ++ [(n, p)]) s' := by
  refine ⟨?_, by rw [h2]; exact h.leaves, by rw [h3, h.queue]; simp, h.free, ?_, ?_, ?_⟩
  · rw [h1, atSlot_append, atSlot_one, if_pos rfl, h.joins, List.append_assoc]
  · rw [h4]
    cases K with
    | nil =>
      simp only [List.nil_append, List.head?_cons, Option.mem_def, Option.some.injEq]
      rintro x rfl
      have := h.free
      refine ⟨by simp only; omega, ?_⟩
      simp only
      omega
    | cons k K => simpa using h.head
  · rw [h4]
    cases K with
    | nil => simp
    | cons k K =>
      intro x hx
      simp only [List.cons_append, List.tail_cons, List.mem_append, List.mem_singleton] at hx
      rcases hx with hx | rfl
      · exact h.tail x hx
      · exact h5
  · intro x hx
    rcases List.mem_append.1 hx with hx | hx
    · exact h.past x hx
    · rw [List.mem_singleton.1 hx]

/-! ### What the operations do -/

theorem join_ok {c : Cfg} {ts : ℕ} {s s' : State} {p : ℕ} (h : join c ts s p = .ok s') :
    ∃ q, s.pool[shortest s.pool]? = some q ∧ s' = { s with
      pool := s.pool.set (shortest s.pool) (q ++ [p])
      joins := s.joins ++ [(ts, p, shortest s.pool)] } := by
  unfold join at h
  split at h
  · simp at h
  · split at h
    · simp at h
    · split at h
      · simp at h
      · split at h
        · simp at h
        · rename_i q hq
          simp only [Res.ok.injEq] at h
          exact ⟨q, hq, h.symm⟩

/-- The vehicle at the front of the queue leaves. -/
structure Leaves (c : Cfg) (ts i p : ℕ) (rest : List ℕ) (a o : ℕ) (s s' : State) : Prop where
  cur : (s.veh p).cur = some a
  next : (s.veh p).next = some o
  eq : s' = { s with
    veh := upd s.veh p { (s.veh p).charge with cur := some o }
    pool := s.pool.set i rest
    leaves := s.leaves ++ [(ts, p, i)]
    log := s.log ++ [⟨ts, p, some a, some o⟩]
    incoming := upd s.incoming o (s.incoming o ++ [p])
    nIn := s'.nIn, nOut := s'.nOut, charged := s'.charged }
  nIn : ∀ l, l ≠ o → s'.nIn l = s.nIn l
  nOut : ∀ l, l ≠ a → s'.nOut l = s.nOut l
  addIn : addIncrement (s.nIn o) ((ts : ℚ) + 1, 1 / c.scalar) = .ok (s'.nIn o)
  addOut : addIncrement (s.nOut a) ((ts : ℚ) + 1, 1 / c.scalar) = .ok (s'.nOut a)
  add : addIncrement s.charged ((ts : ℚ) + 1, 1 / c.scalar) = .ok s'.charged

theorem serveSlot_ok {c : Cfg} {ts i : ℕ} {s s' : State} (hi : i < s.pool.length)
    (h : serveSlot c ts s i = .ok s') :
    (s.queue i = [] ∧ s' = s) ∨ ∃ p rest, s.queue i = p :: rest ∧
      ((max 0 (s.veh p).timer < c.time ∧
        s' = { s with veh := upd s.veh p { s.veh p with timer := max 0 (s.veh p).timer + 1 } }) ∨
      (c.time ≤ max 0 (s.veh p).timer ∧ ∃ a o, Leaves c ts i p rest a o s s')) := by
  unfold serveSlot at h
  split at h
  · rename_i p rest hq
    refine .inr ⟨p, rest, queue_of_get hq, ?_⟩
    have ht : (if (s.veh p).timer < 0 then 0 else (s.veh p).timer) = max 0 (s.veh p).timer := by
      split <;> omega
    unfold serve at h
    rw [ht] at h
    simp only at h
    split at h
    · rename_i hge
      refine .inr ⟨hge, ?_⟩
      simp only [Res.bind_eq_ok', Res.ok.injEq] at h
      obtain ⟨t, h1, k, h2, rfl⟩ := h
      unfold moveOut at h1
      simp only [upd_same, Ev.charge] at h1
      split at h1
      · rename_i a o ha ho
        simp only [Res.bind_eq_ok', Res.ok.injEq] at h1
        obtain ⟨k1, g1, k2, g2, rfl⟩ := h1
        refine ⟨a, o, ha, ho, ?_, ?_, ?_, ?_, ?_, h2⟩
        · simp only [Ev.charge, State.mk.injEq, and_true, true_and]
          funext x
          by_cases e : x = p
          · subst e; simp
          · simp [upd_other _ _ _ _ e]
        · intro l hl; simp [upd_other _ _ _ _ hl]
        · intro l hl; simp [upd_other _ _ _ _ hl]
        · simpa using g2
        · simpa using g1
      · simp at h1
    · rename_i hge
      simp only [Res.ok.injEq] at h
      exact .inl ⟨by omega, h.symm⟩
  · rename_i hne
    simp only [Res.ok.injEq] at h
    refine .inl ⟨?_, h.symm⟩
    have : s.pool[i]? = some s.pool[i] := List.getElem?_eq_getElem hi
    rw [queue_of_get this]
    cases e : s.pool[i] with
    | nil => rfl
    | cons p rest => exact absurd (this.trans (congrArg some e)) (hne p rest)

/-! ### Serving one slot -/

theorem Slot.idle {c : Cfg} {n i : ℕ} {J K : List (ℕ × ℕ)} {s : State} (h : Slot c n i J K s)
    (hq : s.queue i = []) : Slot c (n + 1) i J K s := by
  have : K = [] := by simpa [hq] using h.queue
  subst this
  exact ⟨h.joins, h.leaves, h.queue, by have := h.free; omega, by simp, by simp, by simp⟩

theorem Slot.wait {c : Cfg} {n i : ℕ} {J K : List (ℕ × ℕ)} {s s' : State} {p : ℕ} {rest : List ℕ}
    (h : Slot c n i J K s) (hq : s.queue i = p :: rest) (hn : (s.queue i).Nodup)
    (ht : max 0 (s.veh p).timer < c.time)
    (he : s' = { s with veh := upd s.veh p { s.veh p with timer := max 0 (s.veh p).timer + 1 } }) :
    Slot c (n + 1) i J K s' := by
  obtain ⟨⟨a, p'⟩, K', rfl⟩ : ∃ x K', K = x :: K' := by
    cases K with
    | nil => have := h.queue; rw [hq] at this; simp at this
    | cons x K' => exact ⟨x, K', rfl⟩
  have hq' := h.queue
  rw [hq, List.map_cons] at hq'
  simp only [List.cons.injEq] at hq'
  obtain ⟨rfl, rfl⟩ := hq'
  rw [hq, List.nodup_cons] at hn
  have hd := h.head (a, p) (by simp)
  simp only at hd
  subst he
  refine ⟨h.joins, h.leaves, by simpa [State.queue] using h.queue, by have := h.free; omega, ?_, ?_,
    fun x hx => (h.past x hx).trans (Nat.le_succ n)⟩
  · simp only [List.head?_cons, Option.mem_def, Option.some.injEq]
    rintro x rfl
    simp only [upd_same]
    omega
  · intro x hx
    simp only [List.tail_cons] at hx
    have : x.2 ≠ p := by rintro rfl; exact hn.1 (List.mem_map_of_mem hx)
    simp only [upd_other _ _ _ _ this]
    exact h.tail x hx

theorem Slot.leave {c : Cfg} {n i : ℕ} {J K : List (ℕ × ℕ)} {s s' : State} {p a o : ℕ} {rest : List ℕ}
    (h : Slot c n i J K s) (hq : s.queue i = p :: rest) (hn : (s.queue i).Nodup) (hi : i < s.pool.length)
    (ht : c.time ≤ max 0 (s.veh p).timer) (he : Leaves c n i p rest a o s s') :
    ∃ J' K', Slot c (n + 1) i J' K' s' := by
  obtain ⟨⟨b, p'⟩, K', rfl⟩ : ∃ x K', K = x :: K' := by
    cases K with
    | nil => have := h.queue; rw [hq] at this; simp at this
    | cons x K' => exact ⟨x, K', rfl⟩
  have hq' := h.queue
  rw [hq, List.map_cons] at hq'
  simp only [List.cons.injEq] at hq'
  obtain ⟨rfl, rfl⟩ := hq'
  rw [hq, List.nodup_cons] at hn
  have hd := h.head (b, p) (by simp)
  simp only at hd
  have hfree : freeAfter c.time.toNat 0 (J ++ [(b, p)]) = n + 1 := by
    rw [freeAfter_append]
    simp only [freeAfter]
    omega
  refine ⟨J ++ [(b, p)], K', ?_, ?_, ?_, hfree.le, ?_, ?_, fun x hx => ?_⟩
  · rw [he.eq]; simpa using h.joins
  · rw [he.eq]
    simp only [atSlot_append, atSlot_one, if_true, h.leaves, schedule_append, schedule]
    congr 3
    omega
  · rw [queue_set hi (by rw [he.eq]), if_pos rfl]
  · intro x hx
    have hm := List.mem_of_mem_head? hx
    have h1 := h.past x (List.mem_cons_of_mem _ hm)
    have h2 := h.tail x hm
    have : x.2 ≠ p := by rintro rfl; exact hn.1 (List.mem_map_of_mem hm)
    rw [hfree, he.eq]
    simp only [upd_other _ _ _ _ this]
    omega
  · intro x hx
    have hm := List.mem_of_mem_tail hx
    have : x.2 ≠ p := by rintro rfl; exact hn.1 (List.mem_map_of_mem hm)
    rw [he.eq]
    simp only [upd_other _ _ _ _ this]
    exact h.tail x hm
  · exact (h.past x (List.mem_cons_of_mem _ hx)).trans (Nat.le_succ n)

theorem schedule_length (time : ℕ) : ∀ (J : List (ℕ × ℕ)) (free : ℕ), (schedule time free J).length = J.length
  | [], _ => rfl
  | (a, p) :: J, free => by simp [schedule, schedule_length time J]

theorem Slot.length {c : Cfg} {n i : ℕ} {J K : List (ℕ × ℕ)} {s : State} (h : Slot c n i J K s) :
    (s.queue i).length + (atSlot s.leaves i).length = (atSlot s.joins i).length := by
  rw [h.joins, h.leaves, h.queue, schedule_length]
  simp [add_comm]

theorem Slot.left {c : Cfg} {n i : ℕ} {J K : List (ℕ × ℕ)} {s : State} (h : Slot c n i J K s) :
    ∀ x ∈ atSlot s.leaves i, x.1 < n := by
  rw [h.leaves]
  exact fun x hx => lt_of_lt_of_le (schedule_lt _ _ _ x hx) h.free

theorem atSlot_length (L : List (ℕ × ℕ × ℕ)) (i : ℕ) : (atSlot L i).length = L.countP fun x => decide (x.2.2 = i) := by
  simp [atSlot, List.countP_eq_length_filter]

/-! ### All slots -/

/-- The slots: slot `i` before it is served in interval `f i`; the vehicles `pend` have come and do not have
joined a queue. -/
structure Whole (c : Cfg) (n : ℕ) (f : ℕ → ℕ) (pend : List ℕ) (s : State) : Prop where
  len : s.pool.length = c.queues
  uniq : ∀ i j p, p ∈ s.queue i → p ∈ s.queue j → i = j
  nodup : ∀ i, (s.queue i).Nodup
  slot : ∀ i < c.queues, ∃ J K, Slot c (f i) i J K s
  come : pend.Nodup
  away : ∀ p ∈ pend, ∀ i, p ∉ s.queue i
  quiet : ∀ p ∈ pend, (s.veh p).timer ≤ 0
  slots : ∀ x ∈ s.leaves, x.2.2 < c.queues
  times : ∀ x ∈ s.joins, x.1 ≤ n
  fair : Fair c s

theorem before_eq {L : List (ℕ × ℕ × ℕ)} {i t : ℕ} (h : ∀ x ∈ atSlot L i, x.1 < t) :
    before L i t = (atSlot L i).length := by
  rw [atSlot_length]
  refine List.countP_congr fun x hx => ?_
  simp only [decide_eq_true_eq, and_iff_left_iff_imp]
  intro e
  exact h (x.1, x.2.1) (List.mem_map.2 ⟨x, List.mem_filter.2 ⟨hx, by simpa using e⟩, rfl⟩)

theorem Whole.join {c : Cfg} {n p : ℕ} {ps : List ℕ} {s s' : State} (h : Whole c n (fun _ => n) (p :: ps) s)
    (hj : join c n s p = .ok s') : Whole c n (fun _ => n) ps s' := by
  obtain ⟨q, hq, he⟩ := join_ok hj
  have hk : shortest s.pool < s.pool.length := by
    by_contra hge
    rw [List.getElem?_eq_none (by omega)] at hq
    cases hq
  have hs := queue_set (s := s) (s' := s') (q := q ++ [p]) hk (by rw [he])
  have hq' := queue_of_get hq
  have hpend := List.nodup_cons.1 h.come
  have hp := h.away p List.mem_cons_self
  have hmem : ∀ {x i}, x ∈ s'.queue i ↔ x ∈ s.queue i ∨ (x = p ∧ i = shortest s.pool) := by
    intro x i
    rw [hs]
    by_cases e : i = shortest s.pool
    · subst e; simp [hq']
    · simp [upd_other _ _ _ _ e, e]
  refine ⟨by rw [he]; simpa using h.len, fun i j x hi hj => ?_, fun i => ?_, fun i hi => ?_, hpend.2,
    fun x hx i => ?_, by rw [he]; exact fun x hx => h.quiet x (List.mem_cons_of_mem _ hx), by rw [he]; exact h.slots, ?_, ?_⟩
  · rw [hmem] at hi hj
    rcases hi with hi | ⟨rfl, rfl⟩
    · rcases hj with hj | ⟨rfl, rfl⟩
      · exact h.uniq i j x hi hj
      · exact absurd hi (hp i)
    · rcases hj with hj | ⟨_, rfl⟩
      · exact absurd hj (hp j)
      · rfl
  · rw [hs]
    split
    · rw [List.nodup_append]
      refine ⟨hq' ▸ h.nodup _, by simp, ?_⟩
      rintro x hx y hy rfl
      rw [List.mem_singleton.1 hy] at hx
      exact hp _ (hq' ▸ hx)
    · exact h.nodup i
  · obtain ⟨J, K, S⟩ := h.slot i hi
    by_cases e : i = shortest s.pool
    · subst e
      exact ⟨J, _, S.join (by rw [he]) (by rw [he]) (by rw [hs, if_pos rfl, hq']) (by rw [he])
        (h.quiet p List.mem_cons_self)⟩
    · refine ⟨J, K, S.frame ?_ (by rw [he]) (by rw [hs, if_neg e]) (by rw [he]; exact fun _ _ => rfl)⟩
      rw [he, atSlot_append, atSlot_one, if_neg (Ne.symm e), List.append_nil]
  · rw [hmem]
    rintro (hx' | ⟨rfl, _⟩)
    · exact h.away x (List.mem_cons_of_mem _ hx) i hx'
    · exact hpend.1 hx
  · rw [he]
    intro x hx
    rcases List.mem_append.1 hx with hx | hx
    · exact h.times x hx
    · rw [List.mem_singleton.1 hx]
  · intro came t x i rest hjoins
    have hlv : s'.leaves = s.leaves := by rw [he]
    simp only [State.ahead, hlv]
    rw [show s'.joins = s.joins ++ [(n, p, shortest s.pool)] by rw [he]] at hjoins
    rcases List.eq_nil_or_concat rest with rfl | ⟨rest', y, rfl⟩
    · obtain ⟨rfl, e⟩ := List.append_inj' hjoins rfl
      simp only [List.cons.injEq, Prod.mk.injEq, and_true] at e
      obtain ⟨rfl, rfl, rfl⟩ := e
      have key : ∀ j < c.queues, ((s.joins.countP fun x => decide (x.2.2 = j) : ℕ) : ℤ) - (before s.leaves j n : ℕ)
          = (s.queue j).length := fun j hj => by
        obtain ⟨J, K, S⟩ := h.slot j hj
        have := S.length
        rw [before_eq S.left, ← atSlot_length]
        omega
      refine ⟨h.len ▸ hk, fun j hj => ?_⟩
      rw [key j hj, key _ (h.len ▸ hk)]
      obtain ⟨a, b⟩ := shortest_spec _ _ hq
      have hjl : j < s.pool.length := by rw [h.len]; exact hj
      have hg : s.pool[j]? = some s.pool[j] := List.getElem?_eq_getElem hjl
      rw [queue_of_get hg, hq']
      exact ⟨by exact_mod_cast a _ (List.getElem_mem hjl), fun hlt => by exact_mod_cast b j hlt _ hg⟩
    · rw [List.concat_eq_append, ← List.cons_append, ← List.append_assoc] at hjoins
      obtain ⟨e, _⟩ := List.append_inj' hjoins rfl
      exact h.fair came t x i rest' e

theorem Whole.serve {c : Cfg} {n i : ℕ} {f : ℕ → ℕ} {s s' : State} (h : Whole c n f [] s) (hi : i < c.queues)
    (hf : f i = n) (hj : serveSlot c n s i = .ok s') : Whole c n (upd f i (n + 1)) [] s' := by
  have hil : i < s.pool.length := by rw [h.len]; exact hi
  rcases serveSlot_ok hil hj with ⟨h1, rfl⟩ | ⟨p, rest, hq, ⟨ht, he⟩ | ⟨ht, a, o, he⟩⟩
  · refine ⟨h.len, h.uniq, h.nodup, fun j hj => ?_, h.come, by simp, by simp, h.slots, h.times, h.fair⟩
    obtain ⟨J, K, S⟩ := h.slot j hj
    by_cases e : j = i
    · subst e
      rw [upd_same]
      exact ⟨J, K, (hf ▸ S).idle h1⟩
    · rw [upd_other _ _ _ _ e]; exact ⟨J, K, S⟩
  · have hqs : ∀ j, s'.queue j = s.queue j := fun j => by rw [he]; rfl
    refine ⟨by rw [he]; exact h.len, by simpa only [hqs] using h.uniq, by simpa only [hqs] using h.nodup,
      fun j hj => ?_, h.come, by simp, by simp, by rw [he]; exact h.slots, by rw [he]; exact h.times,
      by rw [he]; exact h.fair⟩
    obtain ⟨J, K, S⟩ := h.slot j hj
    by_cases e : j = i
    · subst e
      rw [upd_same]
      exact ⟨J, K, (hf ▸ S).wait hq (h.nodup _) ht he⟩
    · rw [upd_other _ _ _ _ e]
      refine ⟨J, K, S.frame (by rw [he]) (by rw [he]) (hqs j) fun x hx => ?_⟩
      have : x ≠ p := by rintro rfl; exact e (h.uniq j i x hx (by rw [hq]; simp))
      rw [he]; simp only [upd_other _ _ _ _ this]
  · have hqs := queue_set (s := s) (s' := s') (q := rest) hil (by rw [he.eq])
    have hsub : ∀ {x j}, x ∈ s'.queue j → x ∈ s.queue j := by
      intro x j hx
      rw [hqs] at hx
      split at hx
      · rename_i e; subst e; rw [hq]; exact List.mem_cons_of_mem _ hx
      · exact hx
    refine ⟨by rw [he.eq]; simpa using h.len, fun j k x hj hk => h.uniq j k x (hsub hj) (hsub hk), fun j => ?_,
      fun j hj => ?_, h.come, by simp, by simp, ?_, by rw [he.eq]; exact h.times, ?_⟩
    · rw [hqs]
      split
      · rename_i e; subst e
        have := h.nodup j
        rw [hq, List.nodup_cons] at this
        exact this.2
      · exact h.nodup j
    · obtain ⟨J, K, S⟩ := h.slot j hj
      by_cases e : j = i
      · subst e
        rw [upd_same]
        exact (hf ▸ S).leave hq (h.nodup _) hil ht he
      · rw [upd_other _ _ _ _ e]
        refine ⟨J, K, S.frame (by rw [he.eq]) ?_ (by rw [hqs, if_neg e]) fun x hx => ?_⟩
        · rw [he.eq, atSlot_append, atSlot_one, if_neg (Ne.symm e), List.append_nil]
        · have : x ≠ p := by rintro rfl; exact e (h.uniq j i x hx (by rw [hq]; simp))
          rw [he.eq]; simp only [upd_other _ _ _ _ this]
    · rw [he.eq]
      intro x hx
      rcases List.mem_append.1 hx with hx | hx
      · exact h.slots x hx
      · rw [List.mem_singleton.1 hx]; exact hi
    · intro came t x k rest' hjoins
      rw [show s'.joins = s.joins by rw [he.eq]] at hjoins
      have htn : t ≤ n := h.times (t, x, k) (by rw [hjoins]; simp)
      have hb : ∀ j, before s'.leaves j t = before s.leaves j t := fun j => by
        rw [he.eq]
        simp only [before, List.countP_append, List.countP_singleton]
        rw [if_neg (by simp; omega), add_zero]
      simpa only [State.ahead, hb] using h.fair came t x k rest' hjoins

theorem Whole.serveAll {c : Cfg} {n : ℕ} : ∀ (k : ℕ) (s s' : State), k ≤ c.queues →
    Whole c n (fun _ => n) [] s → Res.foldlM (serveSlot c n) s (List.range k) = .ok s' →
    Whole c n (fun i => if i < k then n + 1 else n) [] s'
  | 0, s, s', _, h, hs => by
    simp only [List.range_zero, Res.foldlM_nil, Res.ok.injEq] at hs
    subst hs
    simpa using h
  | k + 1, s, s', hk, h, hs => by
    rw [List.range_succ, Res.foldlM_append, Res.bind_eq_ok] at hs
    obtain ⟨t, h1, h2⟩ := hs
    simp only [Res.foldlM_cons, Res.foldlM_nil, Res.bind_eq_ok, Res.ok.injEq] at h2
    obtain ⟨u, h2, rfl⟩ := h2
    have := (Whole.serveAll k s t (by omega) h h1).serve (i := k) (by omega) (by simp) h2
    convert this using 1
    funext i
    by_cases e : i = k
    · subst e; simp
    · rw [upd_other _ _ _ _ e]
      have : i < k + 1 ↔ i < k := by omega
      simp [this]

/-! ### Joining -/

theorem join_pend {c : Cfg} {n : ℕ} {R : List ℕ} : ∀ (L : List ℕ) (s s' : State),
    Whole c n (fun _ => n) (L ++ R) s → Res.foldlM (join c n) s L = .ok s' →
    Whole c n (fun _ => n) R s' ∧
    (s'.joins.map fun x => (x.1, x.2.1)) = (s.joins.map fun x => (x.1, x.2.1)) ++ L.map fun p => (n, p)
  | [], s, s', h, hs => by
    simp only [Res.foldlM_nil, Res.ok.injEq] at hs
    subst hs
    exact ⟨h, by simp⟩
  | p :: L, s, s', h, hs => by
    simp only [Res.foldlM_cons, Res.bind_eq_ok] at hs
    obtain ⟨t, h1, h2⟩ := hs
    obtain ⟨g1, g2⟩ := join_pend L t s' (Whole.join h h1) h2
    obtain ⟨q, _, he⟩ := join_ok h1
    refine ⟨g1, ?_⟩
    rw [g2, he]
    simp

/-- Only queues and joins change. -/
theorem join_frame {c : Cfg} {n : ℕ} : ∀ (L : List ℕ) (s s' : State), Res.foldlM (join c n) s L = .ok s' →
    s' = { s with pool := s'.pool, joins := s'.joins }
  | [], s, s', hs => by
    simp only [Res.foldlM_nil, Res.ok.injEq] at hs
    subst hs; rfl
  | p :: L, s, s', hs => by
    simp only [Res.foldlM_cons, Res.bind_eq_ok] at hs
    obtain ⟨t, h1, h2⟩ := hs
    obtain ⟨q, _, he⟩ := join_ok h1
    rw [join_frame L t s' h2, he]

theorem Whole.finished {c : Cfg} {n : ℕ} {f : ℕ → ℕ} {pend : List ℕ} {s : State} (h : Whole c n f pend s)
    (g : ℕ → List ℕ) : Whole c n f pend { s with finished := g } := by
  refine ⟨h.len, h.uniq, h.nodup, fun i hi => ?_, h.come, h.away, h.quiet, h.slots, h.times, h.fair⟩
  obtain ⟨J, K, S⟩ := h.slot i hi
  exact ⟨J, K, S.frame rfl rfl rfl fun _ _ => rfl⟩

theorem joinLinks {c : Cfg} {n : ℕ} : ∀ (order : List ℕ) (s s' : State), order.Nodup →
    Whole c n (fun _ => n) (order.map s.finished).flatten s → Res.foldlM (joinLink c n) s order = .ok s' →
    Whole c n (fun _ => n) [] s' ∧
    (s'.joins.map fun x => (x.1, x.2.1)) = (s.joins.map fun x => (x.1, x.2.1)) ++
      order.flatMap fun l => (s.finished l).map fun p => (n, p)
  | [], s, s', _, h, hs => by
    simp only [Res.foldlM_nil, Res.ok.injEq] at hs
    subst hs
    exact ⟨by simpa using h, by simp⟩
  | l :: order, s, s', hn, h, hs => by
    rw [List.nodup_cons] at hn
    simp only [Res.foldlM_cons, Res.bind_eq_ok, joinLink] at hs
    obtain ⟨t, h1, h2⟩ := hs
    rw [Res.bind_eq_ok'] at h1
    obtain ⟨u, h1, h1'⟩ := h1
    simp only [Res.ok.injEq] at h1'
    obtain ⟨g1, g2⟩ := join_pend _ s u (by simpa using h) h1
    have hf := join_frame _ _ _ h1
    have hfin : ∀ l' ∈ order, t.finished l' = s.finished l' := fun l' hl' => by
      have : l' ≠ l := by rintro rfl; exact hn.1 hl'
      rw [← h1']
      simp only [upd_other _ _ _ _ this]
      rw [hf]
    have hmap : order.map t.finished = order.map s.finished := List.map_congr_left hfin
    obtain ⟨k1, k2⟩ := joinLinks order t s' hn.2 (by rw [hmap, ← h1']; exact g1.finished _) h2
    refine ⟨k1, ?_⟩
    rw [k2, ← h1']
    simp only [g2, List.flatMap_cons, List.append_assoc]
    congr 2
    rw [List.flatMap_def, List.flatMap_def]
    congr 1
    refine List.map_congr_left fun l' hl' => ?_
    rw [← hfin l' hl', ← h1']

theorem joinLinks_frame {c : Cfg} {n : ℕ} : ∀ (order : List ℕ) (s s' : State),
    Res.foldlM (joinLink c n) s order = .ok s' → s' = { s with
      pool := s'.pool, joins := s'.joins, finished := fun l => if l ∈ order then [] else s.finished l }
  | [], s, s', hs => by
    simp only [Res.foldlM_nil, Res.ok.injEq] at hs
    subst hs; simp
  | l :: order, s, s', hs => by
    simp only [Res.foldlM_cons, Res.bind_eq_ok, joinLink] at hs
    obtain ⟨t, h1, h2⟩ := hs
    rw [Res.bind_eq_ok'] at h1
    obtain ⟨u, h1, h1'⟩ := h1
    simp only [Res.ok.injEq] at h1'
    have e1 := join_frame _ _ _ h1
    rw [joinLinks_frame order t s' h2, ← h1', e1]
    simp only [State.mk.injEq, true_and, and_true]
    funext x
    by_cases e : x = l
    · subst e; simp
    · simp [upd_other _ _ _ _ e, e]

/-! ### What the rest of the network does -/

/-- One vehicle reaches the end of a link. -/
def State.arrive (s : State) (x : ℕ × ℕ × Ev) : State :=
  { s with
    finished := upd s.finished x.1 (s.finished x.1 ++ [x.2.1])
    veh := upd s.veh x.2.1 { x.2.2 with cur := some x.1 } }

theorem around_eq (s : State) (a : Around) :
    s.around a = a.arrive.foldl State.arrive { s with incoming := fun l => (s.incoming l).drop (a.take l) } := rfl

theorem arrive_frame : ∀ (A : List (ℕ × ℕ × Ev)) (s : State), A.foldl State.arrive s =
    { s with finished := (A.foldl State.arrive s).finished, veh := (A.foldl State.arrive s).veh }
  | [], s => rfl
  | x :: A, s => by
    rw [List.foldl_cons, arrive_frame A]
    rfl

theorem arrive_finished : ∀ (A : List (ℕ × ℕ × Ev)) (s : State) (l : ℕ),
    (A.foldl State.arrive s).finished l = s.finished l ++ (A.filter fun x => decide (x.1 = l)).map fun x => x.2.1
  | [], s, l => by simp
  | x :: A, s, l => by
    rw [List.foldl_cons, arrive_finished A, List.filter_cons]
    by_cases e : x.1 = l
    · subst e; simp [State.arrive]
    · simp [State.arrive, upd_other _ _ _ _ (Ne.symm e), e]

theorem arrive_veh : ∀ (A : List (ℕ × ℕ × Ev)) (s : State) (p : ℕ), (A.map fun x => x.2.1).Nodup →
    (p ∉ (A.map fun x => x.2.1) → (A.foldl State.arrive s).veh p = s.veh p) ∧
    ∀ x ∈ A, x.2.1 = p → (A.foldl State.arrive s).veh p = { x.2.2 with cur := some x.1 }
  | [], s, p, _ => by simp
  | x :: A, s, p, hn => by
    simp only [List.map_cons, List.nodup_cons] at hn
    obtain ⟨h1, h2⟩ := arrive_veh A (s.arrive x) p hn.2
    rw [List.foldl_cons]
    refine ⟨fun hp => ?_, fun y hy e => ?_⟩
    · simp only [List.map_cons, List.mem_cons, not_or] at hp
      rw [h1 hp.2]
      simp only [State.arrive, upd_other _ _ _ _ hp.1]
    · rcases List.mem_cons.1 hy with rfl | hy
      · subst e
        rw [h1 hn.1]
        simp [State.arrive]
      · exact h2 y hy e

/-- Between intervals. -/
structure Station (c : Cfg) (n : ℕ) (s : State) : Prop where
  whole : Whole c n (fun _ => n) [] s
  empty : ∀ l, s.finished l = []

theorem queue_mem_pool {s : State} {i p : ℕ} (h : p ∈ s.queue i) : ∃ q ∈ s.pool, p ∈ q := by
  unfold State.queue at h
  rw [List.getD_eq_getElem?_getD] at h
  cases e : s.pool[i]? with
  | none => rw [e] at h; simp at h
  | some q =>
    rw [e] at h
    exact ⟨q, List.mem_of_getElem? e, h⟩

theorem Station.around {c : Cfg} (hl : c.inLinks.Nodup) {n : ℕ} {s : State} (h : Station c n s) {a : Around}
    (ha : a.Ok c s) : Whole c n (fun _ => n) (a.order.map (s.around a).finished).flatten (s.around a) := by
  have hfin : ∀ l, (s.around a).finished l = (a.arrive.filter fun x => decide (x.1 = l)).map fun x => x.2.1 := fun l => by
    rw [around_eq, arrive_finished]
    simp [h.empty l]
  have hmem : ∀ p ∈ (a.order.map (s.around a).finished).flatten, ∃ x ∈ a.arrive, x.2.1 = p := fun p hp => by
    simp only [List.mem_flatten, List.mem_map, hfin] at hp
    obtain ⟨_, ⟨l, _, rfl⟩, hp⟩ := hp
    obtain ⟨x, hx, rfl⟩ := List.mem_map.1 hp
    exact ⟨x, (List.mem_filter.1 hx).1, rfl⟩
  have hq : ∀ i, (s.around a).queue i = s.queue i := fun i => by rw [around_eq, arrive_frame]; rfl
  have hveh := fun p => arrive_veh a.arrive { s with incoming := fun l => (s.incoming l).drop (a.take l) } p ha.nodup
  have haway : ∀ x ∈ a.arrive, ∀ i, x.2.1 ∉ s.queue i := fun x hx i hi => ha.away x hx (.inl (queue_mem_pool hi))
  have hj : (s.around a).joins = s.joins := by rw [around_eq, arrive_frame]
  have hlv : (s.around a).leaves = s.leaves := by rw [around_eq, arrive_frame]
  have hp : (s.around a).pool = s.pool := by rw [around_eq, arrive_frame]
  have w := h.whole
  refine ⟨by rw [hp]; exact w.len, by simpa only [hq] using w.uniq, by simpa only [hq] using w.nodup, fun i hi => ?_, ?_,
    fun p hp i => ?_, fun p hp => ?_, by rw [hlv]; exact w.slots, by rw [hj]; exact w.times, ?_⟩
  · obtain ⟨J, K, S⟩ := w.slot i hi
    refine ⟨J, K, S.frame (by rw [hj]) (by rw [hlv]) (hq i) fun p hp => ?_⟩
    rw [around_eq, (hveh p).1]
    intro hp'
    obtain ⟨x, hx, rfl⟩ := List.mem_map.1 hp'
    exact haway x hx i hp
  · rw [List.nodup_flatten]
    refine ⟨fun L hL => ?_, ?_⟩
    · obtain ⟨l, _, rfl⟩ := List.mem_map.1 hL
      rw [hfin]
      exact ha.nodup.sublist (List.Sublist.map _ List.filter_sublist)
    · rw [List.pairwise_map]
      refine List.Pairwise.imp ?_ ((ha.order.nodup_iff).2 hl)
      intro l l' hne p h1 h2
      rw [hfin] at h1 h2
      obtain ⟨x, hx, rfl⟩ := List.mem_map.1 h1
      obtain ⟨y, hy, e⟩ := List.mem_map.1 h2
      simp only [List.mem_filter, decide_eq_true_eq] at hx hy
      have : y = x := List.inj_on_of_nodup_map ha.nodup hy.1 hx.1 e
      subst this
      exact hne (hx.2.symm.trans hy.2)
  · obtain ⟨x, hx, rfl⟩ := hmem p hp
    rw [hq]
    exact haway x hx i
  · obtain ⟨x, hx, rfl⟩ := hmem p hp
    rw [around_eq, (hveh _).2 x hx rfl]
    exact ha.timer x hx
  · unfold Fair State.ahead
    rw [hj, hlv]
    exact w.fair

end Verif.Chg

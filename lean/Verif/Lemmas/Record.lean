import Verif.Spec.Record
import Verif.Lemmas.MHistory
import Verif.Lemmas.MLinkWait

/-! # Lemmas: the records of a loading with cars and trucks -/

namespace Verif.Rec
open Ults Curve MNet
open Net (Event)

/-! ### The loading itself -/

theorem loadOnceR_load {c : Cfg} {o : StepOracle} {ts assign : ℕ} {p q : State × Books}
    (h : loadOnceR c o ts assign p = .ok q) : loadOnce c o ts assign p.1 = .ok q.1 := by
  unfold loadOnceR at h
  rw [Res.bind_eq_ok'] at h
  obtain ⟨s0, r0, h⟩ := h
  rw [Res.bind_eq_ok'] at h
  obtain ⟨s1, r1, h⟩ := h
  rw [Res.bind_eq_ok'] at h
  obtain ⟨s2, r2, h⟩ := h
  rw [Res.bind_eq_ok'] at h
  obtain ⟨s3, r3, h⟩ := h
  simp only at h
  rw [Res.bind_eq_ok'] at h
  obtain ⟨s4, r4, h⟩ := h
  rw [Res.bind_eq_ok'] at h
  obtain ⟨s5, r5, h⟩ := h
  cases h
  unfold loadOnce
  simp only [r0, r1, r2, r3, r4, r5, Res.bind_ok']

theorem loadOnceR_ok {c : Cfg} {o : StepOracle} {ts assign : ℕ} {s s' : State} (b : Books)
    (h : loadOnce c o ts assign s = .ok s') : ∃ b', loadOnceR c o ts assign (s, b) = .ok (s', b') := by
  unfold loadOnce at h
  rw [Res.bind_eq_ok'] at h
  obtain ⟨s0, r0, h⟩ := h
  rw [Res.bind_eq_ok'] at h
  obtain ⟨s1, r1, h⟩ := h
  rw [Res.bind_eq_ok'] at h
  obtain ⟨s2, r2, h⟩ := h
  rw [Res.bind_eq_ok'] at h
  obtain ⟨s3, r3, h⟩ := h
  rw [Res.bind_eq_ok'] at h
  obtain ⟨s4, r4, r5⟩ := h
  unfold loadOnceR
  simp only [r0, r1, r2, r3, r4, r5, Res.bind_ok']
  exact ⟨_, rfl⟩

theorem loadManyR_load {c : Cfg} : ∀ (os : List StepOracle) (ts assign : ℕ) (p : State × Books)
    (r : (State × Books) × ℕ × ℕ), loadManyR c os ts assign p = .ok r →
    loadMany c os ts assign p.1 = .ok (r.1.1, r.2)
  | [], ts, assign, p, r, e => by
    simp only [loadManyR, Res.ok.injEq] at e
    subst e
    rfl
  | o :: os, ts, assign, p, r, e => by
    simp only [loadManyR] at e
    rw [Res.bind_eq_ok'] at e
    obtain ⟨q, e1, e2⟩ := e
    simp only [loadMany]
    rw [loadOnceR_load e1, Res.bind_ok']
    exact loadManyR_load os _ _ q r e2

theorem loadManyR_ok {c : Cfg} : ∀ (os : List StepOracle) (ts assign : ℕ) (s : State) (b : Books)
    (r : State × ℕ × ℕ), loadMany c os ts assign s = .ok r →
    ∃ b', loadManyR c os ts assign (s, b) = .ok ((r.1, b'), r.2)
  | [], ts, assign, s, b, r, e => by
    simp only [loadMany, Res.ok.injEq] at e
    subst e
    exact ⟨b, rfl⟩
  | o :: os, ts, assign, s, b, r, e => by
    simp only [loadMany] at e
    rw [Res.bind_eq_ok'] at e
    obtain ⟨s1, e1, e2⟩ := e
    obtain ⟨b1, h1⟩ := loadOnceR_ok b e1
    obtain ⟨b2, h2⟩ := loadManyR_ok os _ _ s1 b1 r e2
    refine ⟨b2, ?_⟩
    simp only [loadManyR, h1, Res.bind_ok']
    exact h2

theorem loadManyR_snoc {c : Cfg} (o : StepOracle) : ∀ (os : List StepOracle) (ts assign : ℕ) (p : State × Books)
    (r : (State × Books) × ℕ × ℕ), loadManyR c (os ++ [o]) ts assign p = .ok r →
    ∃ q, loadManyR c os ts assign p = .ok q ∧ loadOnceR c o q.2.1 q.2.2 q.1 = .ok r.1 ∧ q.2.1 = ts + os.length ∧
      r.2.1 = ts + os.length + 1
  | [], ts, assign, p, r, e => by
    simp only [List.nil_append, loadManyR] at e
    rw [Res.bind_eq_ok'] at e
    obtain ⟨q, e1, e2⟩ := e
    cases e2
    exact ⟨_, rfl, e1, rfl, rfl⟩
  | o' :: os, ts, assign, p, r, e => by
    simp only [List.cons_append, loadManyR] at e
    rw [Res.bind_eq_ok'] at e
    obtain ⟨q, e1, e2⟩ := e
    obtain ⟨q', f1, f2, f3, f4⟩ := loadManyR_snoc o os _ _ q r e2
    refine ⟨q', ?_, f2, ?_, ?_⟩
    · simp only [loadManyR, e1, Res.bind_ok']; exact f1
    · rw [f3]; simp only [List.length_cons]; omega
    · rw [f4]; simp only [List.length_cons]; omega

/-! ### Recording queues -/

theorem bookQueues {s : State} : ∀ (ls : List ℕ) (p : ℕ × Books), ls.Nodup →
    (ls.foldl (bookQueue s) p).1 = p.1 + ((ls.filter fun l => !isPq (s.links l).link).map
      fun l => (s.fin l).length).sum ∧
    (ls.foldl (bookQueue s) p).2.enroute = p.2.enroute ∧ (ls.foldl (bookQueue s) p).2.queueNum = p.2.queueNum ∧
    (∀ l, (ls.foldl (bookQueue s) p).2.queue l
      = if l ∈ ls then p.2.queue l ++ [(s.fin l).length] else p.2.queue l) ∧
    (∀ x l, (ls.foldl (bookQueue s) p).2.queueOf x l
      = if l ∈ ls then p.2.queueOf x l ++ [cls s.truck x (s.fin l)] else p.2.queueOf x l)
  | [], p, _ => by simp
  | a :: ls, p, hn => by
    rw [List.nodup_cons] at hn
    obtain ⟨h1, h2, h3, h4, h5⟩ := bookQueues ls (bookQueue s p a) hn.2
    simp only [List.foldl_cons]
    refine ⟨?_, h2, h3, ?_, ?_⟩
    · rw [h1]
      unfold bookQueue
      simp only [List.filter_cons]
      by_cases hp : isPq (s.links a).link
      · simp [hp]
      · simp only [hp, if_false, Bool.not_false, if_true, Bool.false_eq_true, List.map_cons, List.sum_cons]
        show p.1 + (s.fin a).length + _ = _
        omega
    · intro l
      rw [h4]
      unfold bookQueue
      by_cases e : l = a
      · subst e
        simp [hn.1, State.fin]
      · simp [e, upd_other _ _ _ _ e]
    · intro x l
      rw [h5]
      unfold bookQueue Books.queueOf
      by_cases e : l = a
      · subst e
        cases x
        · simp [hn.1, cls_false, State.fin]
        · simp [hn.1, cls_true, State.fin]
      · cases x <;> simp [e, upd_other _ _ _ _ e]

/-! ### What links keep -/

/-- Waiting times, scalar, length of an interval and kind of a link. -/
structure Same (x y : MLnk.Link ℕ) : Prop where
  unit : y.unit = x.unit
  scalar : y.scalar = x.scalar
  pq : isPq y = isPq x

theorem Same.refl (x : MLnk.Link ℕ) : Same x x := ⟨rfl, rfl, rfl⟩

theorem Same.trans {x y z : MLnk.Link ℕ} (h : Same x y) (k : Same y z) : Same x z :=
  ⟨k.unit.trans h.unit, k.scalar.trans h.scalar, k.pq.trans h.pq⟩

theorem modify_pq {a : MLnk.Args} {x y : MLnk.Link ℕ} (h : x.modify a = .ok y) : isPq y = isPq x := by
  cases x <;> simp only [MLnk.Link.modify] at h
  · rw [Res.bind_eq_ok'] at h; obtain ⟨_, _, h⟩ := h; cases h; rfl
  · rw [Res.bind_eq_ok'] at h; obtain ⟨_, _, h⟩ := h; cases h; rfl
  · cases h; rfl

theorem clear_pq {truck : ℕ → Bool} {x y : MLnk.Link ℕ} (h : x.clear truck = .ok y) : isPq y = isPq x := by
  cases x <;> simp only [MLnk.Link.clear] at h
  · rw [Res.bind_eq_ok'] at h; obtain ⟨_, _, h⟩ := h; cases h; rfl
  · cases h; rfl
  · cases h; rfl

theorem evolve_pq {truck hasNext : ℕ → Bool} {u : MLnk.Draws} {x y : MLnk.Link ℕ}
    (h : x.evolve truck hasNext u = .ok y) : isPq y = isPq x := by
  cases x <;> simp only [MLnk.Link.evolve] at h
  · rw [Res.bind_eq_ok'] at h; obtain ⟨_, _, h⟩ := h; cases h; rfl
  · rw [Res.bind_eq_ok'] at h; obtain ⟨_, _, h⟩ := h; cases h; rfl
  · cases h; rfl

theorem setAttrs_same {c : Cfg} {s s' : State} {ps : List (ℕ × MLnk.Args)}
    (h : Res.foldlM (setAttr c) s ps = .ok s') (l : ℕ) :
    Same (s.links l).link (s'.links l).link ∧ (s'.links l).link.com = (s.links l).link.com := by
  refine Res.foldlM_inv (P := fun t => Same (s.links l).link (t.links l).link ∧
    (t.links l).link.com = (s.links l).link.com) ?_ _ _ _ ⟨Same.refl _, rfl⟩ h
  intro b p b' hb he
  unfold setAttr at he
  split at he
  swap
  · simp at he
  rw [Res.bind_eq_ok'] at he
  obtain ⟨x, hx, he⟩ := he
  cases he
  by_cases e : l = p.1
  · subst e
    obtain ⟨a1, a2, a3⟩ := MLnk.modify_keep hx
    simp only [upd_same]
    exact ⟨hb.1.trans ⟨a1, a2, modify_pq hx⟩, a3.trans hb.2⟩
  · simp only [upd_other _ _ _ _ e]; exact hb

theorem setBoth_same (x : MLnk.Link ℕ) (a b : List ℕ) :
    Same x ((x.setFinished a).setIncoming b) ∧
      ((x.setFinished a).setIncoming b).com.wait = x.com.wait ∧
      ((x.setFinished a).setIncoming b).com.waitCar = x.com.waitCar ∧
      ((x.setFinished a).setIncoming b).com.waitTruck = x.com.waitTruck := by
  cases x <;> exact ⟨⟨rfl, rfl, rfl⟩, rfl, rfl, rfl⟩

/-- What one interval does to a link. -/
structure Evolved (truck : ℕ → Bool) (x y : MLnk.Link ℕ) : Prop extends Same x y where
  wait : y.com.wait = x.com.wait + (y.finished.length : ℚ) / x.scalar * x.unit
  waitCar : y.com.waitCar = x.com.waitCar + (cls truck false y.finished : ℚ) / x.scalar * x.unit
  waitTruck : y.com.waitTruck = x.com.waitTruck + (cls truck true y.finished : ℚ) / x.scalar * x.unit

theorem linkStep_evolved {o : StepOracle} {s s' : State} {l : ℕ} (h : linkStep o s l = .ok s') :
    s'.truck = s.truck ∧ (∀ k, k ≠ l → s'.links k = s.links k) ∧
      Evolved s.truck (s.links l).link (s'.links l).link := by
  unfold linkStep at h
  rw [Res.bind_eq_ok'] at h
  obtain ⟨x, hx, h⟩ := h
  rw [Res.bind_eq_ok'] at h
  obtain ⟨y, hy, h⟩ := h
  cases h
  obtain ⟨a1, a2, a3, a4, a5⟩ := MLnk.clear_keep hx
  obtain ⟨b1, b2, b3, b4, b5⟩ := MLnk.evolve_keep hy
  refine ⟨rfl, fun k hk => upd_other _ _ _ _ hk, ?_⟩
  simp only [upd_same]
  refine ⟨⟨b1.trans a1, b2.trans a2, (evolve_pq hy).trans (clear_pq hx)⟩, ?_, ?_, ?_⟩
  · rw [b3, a3, a1, a2]
  · rw [b4, a4, a1, a2, cls_false]
  · rw [b5, a5, a1, a2, cls_true]

theorem linksStep_evolved {o : StepOracle} : ∀ (ls : List ℕ) (s s' : State), ls.Nodup →
    Res.foldlM (linkStep o) s ls = .ok s' →
    s'.truck = s.truck ∧ (∀ k, k ∉ ls → s'.links k = s.links k) ∧
      ∀ l ∈ ls, Evolved s.truck (s.links l).link (s'.links l).link
  | [], s, s', _, h => by
    simp only [Res.foldlM_nil, Res.ok.injEq] at h
    subst h
    exact ⟨rfl, fun _ _ => rfl, by simp⟩
  | a :: ls, s, s', hn, h => by
    rw [Res.foldlM_cons, Res.bind_eq_ok] at h
    obtain ⟨s1, h1, h2⟩ := h
    rw [List.nodup_cons] at hn
    obtain ⟨a1, a2, a3⟩ := linkStep_evolved h1
    obtain ⟨b1, b2, b3⟩ := linksStep_evolved ls s1 s' hn.2 h2
    refine ⟨b1.trans a1, ?_, ?_⟩
    · intro k hk
      simp only [List.mem_cons, not_or] at hk
      rw [b2 k hk.2, a2 k hk.1]
    · intro l hl
      by_cases e : l = a
      · subst e
        rw [b2 l hn.1]; exact a3
      · have hl' : l ∈ ls := by simpa [e] using hl
        have := b3 l hl'
        rw [a1, a2 l e] at this
        exact this

theorem receives_links {c : Cfg} {ts : ℕ} {s s' : State} {ds : List ℕ}
    (h : Res.foldlM (receive c ts) s ds = .ok s') :
    s'.links = s.links ∧ s'.truck = s.truck ∧ s'.log = s.log := by
  refine Res.foldlM_inv (P := fun t => t.links = s.links ∧ t.truck = s.truck ∧ t.log = s.log) ?_ _ _ _ ⟨rfl, rfl, rfl⟩ h
  intro b d b' hb he
  have he' := he
  obtain ⟨V, R⟩ := receive_view he
  refine ⟨R.links.trans hb.1, R.truck.trans hb.2.1, ?_⟩
  unfold receive at he
  rw [Res.bind_eq_ok'] at he
  obtain ⟨s1, h1, h⟩ := he
  cases h
  refine (?_ : s1.log = b.log).trans hb.2.2
  refine Res.foldlM_inv (P := fun t => t.log = b.log) ?_ _ _ _ rfl h1
  intro x v x' hx hxe
  unfold receiveVeh at hxe
  split at hxe
  · simp at hxe
  unfold State.removeFinished at hxe
  split at hxe
  all_goals (try split at hxe)
  all_goals (try (simp at hxe; done))
  all_goals (cases hxe; exact hx)

/-! ### One interval -/

/-- What one interval does to state and records. -/
structure Booked (c : Cfg) (ts : ℕ) (p p' : State × Books) (q : Bool → ℕ → ℕ) : Prop where
  enroute : p'.2.enroute = p.2.enroute ++ [p'.1.enroute]
  queueNum : p'.2.queueNum = p.2.queueNum ++ [((c.net.linkIds.filter fun l => !isPq (p.1.links l).link).map
    fun l => q false l + q true l).sum]
  queue : ∀ l ∈ c.net.linkIds, p'.2.queue l = p.2.queue l ++ [q false l + q true l]
  queueOf : ∀ l ∈ c.net.linkIds, ∀ x, p'.2.queueOf x l = p.2.queueOf x l ++ [q x l]
  log : ∃ es : List Event, p'.1.log = p.1.log ++ es ∧ ∀ e ∈ es, e.t = ts
  truck : ∀ v, v ≤ p.1.numVeh → p'.1.truck v = p.1.truck v
  fin : ∀ l ∈ c.net.linkIds, ∀ x, cls p'.1.truck x (p.1.fin l) = q x l + leftIn p'.1 x l ts
  left : ∀ l ∈ c.net.linkIds, ∀ x, left p'.1 x l = left p.1 x l + leftIn p'.1 x l ts
  on : ∀ l ∈ c.net.linkIds, ∀ x, q x l ≤ cls p'.1.truck x (p'.1.on l)
  link : ∀ l ∈ c.net.linkIds, Evolved p'.1.truck (p.1.links l).link (p'.1.links l).link
  curve : ∀ l x, ((p'.1.links l).nIn x).isSome = ((p.1.links l).nIn x).isSome

theorem fin_on {c : Cfg} {s s' : State} (L : LStep c s s') (l : ℕ) (x : Bool) :
    cls s.truck x (s.fin l) ≤ cls s'.truck x (s'.on l) := by
  rw [L.truck, cls_perm (L.on l)]
  unfold State.on
  rw [cls_append, cls_append]
  omega

theorem loadOnceR_booked {c : Cfg} (hc : c.net.Ok) (hsc : c.net.scalar ≠ 0) {o : StepOracle} (ho : o.Ok c)
    {ts assign : ℕ} {p p' : State × Books} (h : MInv c ts p.1) (H : MHistInv c ts p.1)
    (r : loadOnceR c o ts assign p = .ok p') : ∃ q, Booked c ts p p' q := by
  obtain ⟨s, b⟩ := p
  obtain ⟨s', b'⟩ := p'
  unfold loadOnceR at r
  rw [Res.bind_eq_ok'] at r
  obtain ⟨s0, r0, r⟩ := r
  rw [Res.bind_eq_ok'] at r
  obtain ⟨s1, r1, r⟩ := r
  rw [Res.bind_eq_ok'] at r
  obtain ⟨s2, r2, r⟩ := r
  rw [Res.bind_eq_ok'] at r
  obtain ⟨s3, r3, r⟩ := r
  simp only at r
  rw [Res.bind_eq_ok'] at r
  obtain ⟨s4, r4, r⟩ := r
  rw [Res.bind_eq_ok'] at r
  obtain ⟨s5, r5, r⟩ := r
  cases r
  simp only at h H r0
  have L0 := setAttrs_step h.inv r0
  have S0 := setAttrs_same r0
  have h0 := h.attrs L0
  obtain ⟨k, R⟩ := stepRelease_rel ho r1
  have h1 := h0.toMCore.rel hc R
  obtain ⟨T, Te, _⟩ := update_routed r2
  have h2 := h1.routed T Te
  have N := stepNodes_step hc ho r3
  obtain ⟨es, HS⟩ := stepNodes_hist hc ho r3
  have h3 := h2.node hsc N
  have L := linksStep_all h3.inv r4
  obtain ⟨E1, _, E3⟩ := linksStep_evolved _ _ _ hc.links r4
  obtain ⟨F1, F2, F3⟩ := receives_links r5
  obtain ⟨Q1, Q2, Q3, Q4, Q5⟩ := bookQueues (s := s3) c.net.linkIds (0, b) hc.links
  -- classes
  have t0 : s0.truck = s.truck := L0.truck
  have n0 : s0.numVeh = s.numVeh := by rw [L0.rest]
  have t2 : s2.truck = s1.truck := by rw [Te]
  have t3 : s3.truck = s2.truck := N.rest.truck
  have t5 : s'.truck = s1.truck := by rw [F2, E1, t3, t2]
  have ht : ∀ v, v ≤ s.numVeh → s'.truck v = s.truck v := by
    intro v hv
    rw [t5, R.truck v (by rw [n0]; exact hv), t0]
  -- links up to the nodes
  have l2 : s2.links = s0.links := by rw [Te]; exact R.links
  have fin2 : ∀ l, s2.fin l = s.fin l := by
    intro l
    show (s2.links l).link.com.finished = (s.links l).link.com.finished
    rw [l2, (S0 l).2]
  have same3 : ∀ l, Same (s.links l).link (s3.links l).link ∧
      (s3.links l).link.com.wait = (s.links l).link.com.wait ∧
      (s3.links l).link.com.waitCar = (s.links l).link.com.waitCar ∧
      (s3.links l).link.com.waitTruck = (s.links l).link.com.waitTruck := by
    intro l
    obtain ⟨a1, a2, a3, a4⟩ := setBoth_same (s2.links l).link (s3.fin l) (s3.inc l)
    rw [← N.link l] at a1 a2 a3 a4
    rw [l2] at a1 a2 a3 a4
    rw [(S0 l).2] at a2 a3 a4
    exact ⟨(S0 l).1.trans a1, a2, a3, a4⟩
  -- the log
  have g2 : s2.log = s.log := by
    have e1 : s2.log = s1.log := by rw [Te]
    have e2 : s1.log = s0.log := R.view.log
    have e3 : s0.log = s.log := by rw [L0.rest]
    rw [e1, e2, e3]
  have g4 : s4.log = s3.log := by rw [L.rest]
  have g5 : s'.log = s.log ++ es := by rw [F3, g4, HS.log, g2]
  have old : ∀ e ∈ s.log, e.t ≠ ts := fun e he => (H.time e he).ne
  have hleftIn : ∀ x l, leftIn s' x l ts = (es.filter fun e => decide (e.src = some l ∧ s2.truck e.veh = x)).length := by
    intro x l
    unfold leftIn
    rw [g5, List.countP_append, List.countP_eq_zero.2, Nat.zero_add, List.countP_eq_length_filter]
    · congr 1
      apply List.filter_congr
      intro e he
      rw [t5, ← t2]
      simp [HS.time e he]
    · intro e he
      simp [old e he]
  refine ⟨fun x l => cls s3.truck x (s3.fin l), ?_, ?_, ?_, ?_, ⟨es, g5, HS.time⟩, ht, ?_, ?_, ?_, ?_, ?_⟩
  · simp only [recordQueue]; rw [Q2]
  · simp only [recordQueue]; rw [Q3, Q1]
    simp only [Nat.zero_add]
    have e : (c.net.linkIds.filter fun l => !isPq (s3.links l).link)
        = c.net.linkIds.filter fun l => !isPq (s.links l).link := by
      apply List.filter_congr
      intro l _
      rw [(same3 l).1.pq]
    rw [e]
    congr 3
    apply List.map_congr_left
    intro l _
    rw [cls_add]
  · intro l hl
    simp only [recordQueue]; rw [Q4, if_pos hl, cls_add]
  · intro l hl x
    have := Q5 x l
    rw [if_pos hl] at this
    exact this
  · intro l hl x
    simp only
    rw [hleftIn, t5, ← t2, ← fin2 l, HS.fin l x, t3]
  · intro l hl x
    simp only
    unfold left
    rw [g5, List.countP_append, hleftIn, List.countP_eq_length_filter (l := es)]
    congr 1
    · apply List.countP_congr
      intro e he
      rw [ht e.veh (H.moved e he).1.2]
    · rw [t5, ← t2]
  · intro l hl x
    simp only
    have e : s'.on l = s4.on l := by unfold State.on State.fin State.inc; rw [F1]
    rw [e, F2]
    exact fin_on L l x
  · intro l hl
    obtain ⟨a1, a2, a3, a4⟩ := same3 l
    obtain ⟨b1, b2, b3, b4⟩ := E3 l hl
    simp only
    rw [F1, F2, E1]
    refine ⟨a1.trans b1, ?_, ?_, ?_⟩
    · rw [b2, a2, a1.scalar, a1.unit]
    · rw [b3, a3, a1.scalar, a1.unit]
    · rw [b4, a4, a1.scalar, a1.unit]
  · intro l x
    simp only
    rw [F1, L.nIn, (N.nIn l x).1, l2, L0.nIn]

/-! ### Whole loadings -/

/-- What the records say of interval `i`, which turned `before` into `after`. -/
structure Entry (c : Cfg) (i : ℕ) (before after : State) (b : Books) (q : Bool → ℕ → ℕ) : Prop where
  enroute : b.enroute[i]? = some after.enroute
  queueNum : b.queueNum[i]? = some ((c.net.linkIds.filter fun l => !isPq (before.links l).link).map
    fun l => q false l + q true l).sum
  queue : ∀ l ∈ c.net.linkIds, (b.queue l)[i]? = some (q false l + q true l)
  queueOf : ∀ l ∈ c.net.linkIds, ∀ x, (b.queueOf x l)[i]? = some (q x l)
  fin : ∀ l ∈ c.net.linkIds, ∀ x, cls after.truck x (before.fin l) = q x l + leftIn after x l i
  on : ∀ l ∈ c.net.linkIds, ∀ x, q x l ≤ cls after.truck x (after.on l)

/-- What the records say after a loading. -/
structure RunInv (c : Cfg) (os : List StepOracle) (assign : ℕ) (s : State) (p : State × Books) : Prop where
  lenE : p.2.enroute.length = os.length
  lenN : p.2.queueNum.length = os.length
  lenQ : ∀ l ∈ c.net.linkIds, (p.2.queue l).length = os.length
  lenO : ∀ l ∈ c.net.linkIds, ∀ x, (p.2.queueOf x l).length = os.length
  split : ∀ l ∈ c.net.linkIds, (p.2.queue l).sum = (p.2.queueOf false l).sum + (p.2.queueOf true l).sum
  entry : ∀ i < os.length, ∃ before after q, loadMany c (os.take i) 0 assign s = .ok before ∧
    loadMany c (os.take (i + 1)) 0 assign s = .ok after ∧ Entry c i before.1 after.1 p.2 q
  same : ∀ l ∈ c.net.linkIds, Same (s.links l).link (p.1.links l).link
  waitOf : ∀ l ∈ c.net.linkIds, ∀ x, waitOf p.1 x l = (((p.2.queueOf x l).sum + left p.1 x l
    + cls p.1.truck x (p.1.fin l) : ℕ) : ℚ) / (s.links l).link.scalar * (s.links l).link.unit
  wait : ∀ l ∈ c.net.linkIds, (p.1.links l).link.com.wait = Rec.waitOf p.1 false l + Rec.waitOf p.1 true l
  curve : ∀ l x, ((p.1.links l).nIn x).isSome = ((s.links l).nIn x).isSome

theorem getElem?_grow {α : Type} {l : List α} {i : ℕ} {a x : α} (h : l[i]? = some a) : (l ++ [x])[i]? = some a := by
  obtain ⟨hi, e⟩ := List.getElem?_eq_some_iff.1 h
  rw [List.getElem?_append_left hi]; exact h

theorem getElem?_new {α : Type} {l : List α} {i : ℕ} {x : α} (h : l.length = i) : (l ++ [x])[i]? = some x := by
  subst h; simp

theorem run_inv {c : Cfg} (hc : c.net.Ok) (hsc : c.net.scalar ≠ 0) {s : State} (hs : Fresh s) {assign : ℕ}
    (os : List StepOracle) : (∀ o ∈ os, o.Ok c) → ∀ r, loadManyR c os 0 assign (s, Books.empty) = .ok r →
    RunInv c os assign s r.1 ∧ MInv c os.length r.1.1 ∧ MHistInv c os.length r.1.1 ∧ r.2.1 = os.length := by
  induction os using List.reverseRecOn with
  | nil =>
    intro _ r h
    simp only [loadManyR, Res.ok.injEq] at h
    subst h
    refine ⟨?_, fresh_inv hs, fresh_hist hs, rfl⟩
    obtain ⟨links, rfl, hl⟩ := hs
    have hf : ∀ l, (links l).link.com.wait = 0 ∧ (links l).link.com.waitCar = 0 ∧ (links l).link.com.waitTruck = 0 ∧
        (links l).link.com.finished = [] := by
      intro l
      obtain ⟨k, a, hk⟩ := (hl l).1
      rw [(MLnk.mkLink_inv (truck := fun _ => false) hk).2.2]
      exact ⟨rfl, rfl, rfl, rfl⟩
    refine ⟨rfl, rfl, fun _ _ => rfl, fun _ _ x => by cases x <;> rfl, fun _ _ => rfl, by simp, fun _ _ => Same.refl _, ?_, ?_, fun _ _ => rfl⟩
    · intro l _ x
      obtain ⟨h0, h1, h2, h3⟩ := hf l
      have e : (State.init links).fin l = [] := h3
      simp only
      rw [e]
      cases x <;> simp [waitOf, State.init, Books.empty, Books.queueOf, left, h1, h2]
    · intro l _
      obtain ⟨h0, h1, h2, h3⟩ := hf l
      simp [waitOf, State.init, h0, h1, h2]
  | append_singleton os o ih =>
    intro ho r h
    obtain ⟨p, e1, e2, e3, e4⟩ := loadManyR_snoc o os 0 assign _ r h
    obtain ⟨I, M, H, hn⟩ := ih (fun x hx => ho x (by simp [hx])) p e1
    rw [hn] at e2
    have M' := loadOnce_inv hc hsc (ho o (by simp)) M (loadOnceR_load e2)
    have H' := loadOnce_hist hc hsc (ho o (by simp)) M H (loadOnceR_load e2)
    obtain ⟨q, B⟩ := loadOnceR_booked hc hsc (ho o (by simp)) M H e2
    have hlen : (os ++ [o]).length = os.length + 1 := by simp
    rw [hlen]
    refine ⟨?_, M', H', by rw [e4]; omega⟩
    refine ⟨?_, ?_, ?_, ?_, ?_, ?_, ?_, ?_, ?_, fun l x => (B.curve l x).trans (I.curve l x)⟩
    · rw [B.enroute, List.length_append, I.lenE]; simp
    · rw [B.queueNum, List.length_append, I.lenN]; simp
    · intro l hl; rw [B.queue l hl, List.length_append, I.lenQ l hl]; simp
    · intro l hl x; rw [B.queueOf l hl, List.length_append, I.lenO l hl]; simp
    · intro l hl
      rw [B.queue l hl, B.queueOf l hl, B.queueOf l hl, List.sum_append, List.sum_append, List.sum_append, I.split l hl]
      simp only [List.sum_cons, List.sum_nil]
      omega
    · intro i hi
      rw [hlen] at hi
      rcases Nat.lt_or_ge i os.length with hlt | hge
      · obtain ⟨before, after, q', f1, f2, E⟩ := I.entry i hlt
        refine ⟨before, after, q', ?_, ?_, ?_, ?_, ?_, ?_, E.fin, E.on⟩
        · rw [List.take_append_of_le_length (by omega)]; exact f1
        · rw [List.take_append_of_le_length (by omega)]; exact f2
        · rw [B.enroute]; exact getElem?_grow E.enroute
        · rw [B.queueNum]; exact getElem?_grow E.queueNum
        · intro l hl; rw [B.queue l hl]; exact getElem?_grow (E.queue l hl)
        · intro l hl x; rw [B.queueOf l hl]; exact getElem?_grow (E.queueOf l hl x)
      · have hi' : i = os.length := by omega
        subst hi'
        refine ⟨(p.1.1, p.2), (r.1.1, r.2), q, ?_, ?_, ?_, ?_, ?_, ?_, B.fin, B.on⟩
        · rw [List.take_append_of_le_length (le_refl _), List.take_length]
          exact loadManyR_load _ _ _ _ _ e1
        · rw [← hlen, List.take_length]
          exact loadManyR_load _ _ _ _ _ h
        · rw [B.enroute]; exact getElem?_new I.lenE
        · rw [B.queueNum]; exact getElem?_new I.lenN
        · intro l hl; rw [B.queue l hl]; exact getElem?_new (I.lenQ l hl)
        · intro l hl x; rw [B.queueOf l hl]; exact getElem?_new (I.lenO l hl x)
    · intro l hl; exact (I.same l hl).trans (B.link l hl).toSame
    · intro l hl x
      have S := I.same l hl
      have Ev := B.link l hl
      have w := I.waitOf l hl x
      have hfin : (cls p.1.1.truck x (p.1.1.fin l) : ℕ) = q x l + leftIn r.1.1 x l os.length := by
        rw [← B.fin l hl x]
        apply cls_congr
        intro v hv
        refine (B.truck v ?_).symm
        refine M.toMCore.on_old hl ?_
        unfold State.on
        simp [hv]
      have hw : Rec.waitOf r.1.1 x l = Rec.waitOf p.1.1 x l
          + (cls r.1.1.truck x (r.1.1.fin l) : ℚ) / (s.links l).link.scalar * (s.links l).link.unit := by
        rw [← S.scalar, ← S.unit]
        cases x
        · exact Ev.waitCar
        · exact Ev.waitTruck
      rw [hw, w, B.queueOf l hl, List.sum_append, B.left l hl, hfin]
      simp only [List.sum_cons, List.sum_nil]
      push_cast
      ring
    · intro l hl
      have Ev := B.link l hl
      have w := I.wait l hl
      unfold Rec.waitOf at w ⊢
      simp only [Bool.false_eq_true, if_false, if_true] at w ⊢
      rw [Ev.wait, Ev.waitCar, Ev.waitTruck, w, ← cls_add r.1.1.truck (r.1.1.links l).link.finished]
      push_cast
      ring

end Verif.Rec

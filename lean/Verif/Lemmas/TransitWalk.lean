import Verif.Lemmas.TransitArrive

/-!
# How long passengers walk
-/

namespace Verif.Tr
open Ults Curve

/-- The last movement of a passenger. -/
def lastMove (s : State) (p : ℕ) : Option Net.Event := (moves s.log p).getLast?

theorem Continuous.last {a b : Option ℕ} : ∀ {L : List Net.Event} {e : Net.Event}, Continuous a b L →
    L.getLast? = some e → e.dst = b
  | [], _, _, h => by simp at h
  | [x], e, hc, h => by
    simp only [List.getLast?_singleton, Option.some.injEq] at h
    subst h
    exact hc.2
  | x :: y :: L, e, hc, h => by
    rw [List.getLast?_cons_cons] at h
    exact Continuous.last (L := y :: L) hc.2 h

theorem Trips.last {s : State} (h : Trips s) {p : ℕ} {e : Net.Event} (he : lastMove s p = some e) :
    e.dst = (s.pax p).cur := (h p).last he

theorem lastMove_append (s s' : State) (e : Net.Event) (h : s'.log = s.log ++ [e]) (p : ℕ) :
    lastMove s' p = if e.veh = p then some e else lastMove s p := by
  unfold lastMove
  rw [h, moves_append]
  split <;> simp

/-- What a step of a part of the interval in which nobody walks does to the passengers on the walking link `l`. -/
structure Apart (c : Cfg) (ts : ℕ) (ph : Phase) (l : ℕ) (s s' : State) : Prop where
  inc : ∀ p ∈ s'.loc (.incoming l), (p ∈ s.loc (.incoming l) ∧ lastMove s' p = lastMove s p) ∨
    ∃ src, lastMove s' p = some ⟨ts, p, src, some l⟩ ∧ (ph.stops = true ∨ src = none)
  walk : ∀ p ∈ s'.loc (.walking l), p ∈ s.loc (.walking l) ∧ lastMove s' p = lastMove s p ∧
    s'.stamp l p = s.stamp l p
  fin : ∀ p ∈ s'.loc (.finished l), (p ∈ s.loc (.finished l) ∧ lastMove s' p = lastMove s p) ∨
    ∃ src, lastMove s' p = some ⟨ts, p, src, some l⟩ ∧ ¬ onFoot c ⟨ts, p, src, some l⟩
  log : ∀ p e, moves s'.log p = moves s.log p ++ [e] → e.src = some l →
    ph.stops = true ∧ p ∈ s.loc (.finished l)

theorem Apart.same {c : Cfg} {ts : ℕ} {ph : Phase} {l : ℕ} {s s' : State}
    (h1 : ∀ p, p ∈ s'.loc (.incoming l) → p ∈ s.loc (.incoming l))
    (h2 : ∀ p, p ∈ s'.loc (.walking l) → p ∈ s.loc (.walking l))
    (h3 : ∀ p, p ∈ s'.loc (.finished l) → p ∈ s.loc (.finished l))
    (h4 : s'.log = s.log) (h5 : ∀ p, s'.stamp l p = s.stamp l p) : Apart c ts ph l s s' := by
  have e : ∀ p, lastMove s' p = lastMove s p := fun p => by unfold lastMove; rw [h4]
  exact ⟨fun p hp => .inl ⟨h1 p hp, e p⟩, fun p hp => ⟨h2 p hp, e p, h5 p⟩, fun p hp => .inl ⟨h3 p hp, e p⟩,
    fun p e h => by rw [h4] at h; simp at h⟩

theorem Apart.of_eq {c : Cfg} {ts : ℕ} {ph : Phase} {l : ℕ} {s s' : State} (h1 : s'.loc = s.loc)
    (h4 : s'.log = s.log) (h5 : s'.stamp = s.stamp) : Apart c ts ph l s s' :=
  .same (by rw [h1]; exact fun _ h => h) (by rw [h1]; exact fun _ h => h) (by rw [h1]; exact fun _ h => h) h4
    (by rw [h5]; exact fun _ => rfl)

theorem Micro.apart {c : Cfg} (hc : c.Wf) {R : Routes} {strict : Prop} {ts : ℕ} {ph : Phase} {s s' : State}
    (hw : ph.walks = false) (hi : Inv c R strict s) {l : ℕ} (hl : (c.link l).kind = .normal)
    (m : Micro c R strict ts ph s s') : Apart c ts ph l s s' := by
  have hp := hi.placed
  have norm : ∀ {l'}, (ph.walks = true ∨ (c.link l').kind ≠ .normal) → l' ≠ l := by
    rintro l' (h | h) rfl
    · rw [hw] at h; simp at h
    · exact h hl
  cases m with
  | release o ad junk d assign => exact .same (by simp [upd]) (by simp [upd]) (by simp [upd]) rfl fun _ => rfl
  | park orc k car _ =>
    have e : ∀ x, (∀ j, x ≠ .lot j) → (parkCar orc ts k s car).loc x = s.loc x := fun x hx => by
      unfold parkCar
      simp only
      split
      · simp [upd_other _ _ _ _ (hx k), State.makePax]
      · rfl
    refine .same (by rw [e _ (by simp)]; exact fun _ h => h) (by rw [e _ (by simp)]; exact fun _ h => h)
      (by rw [e _ (by simp)]; exact fun _ h => h) ?_ ?_
    · unfold parkCar; simp only; split <;> rfl
    · unfold parkCar; simp only; split <;> exact fun _ => rfl
  | enterLink p l' mem _ who =>
    have hne := norm who
    have h : ∀ x, x ≠ .walking l' → ∀ q, q ∈ (s.shift p (.incoming l') (.walking l')).loc x → q ∈ s.loc x :=
      fun x hx q hq => by
        rcases (hp.shift_mem (by simp) mem q x).1 hq with ⟨_, e⟩ | ⟨_, h⟩
        · exact absurd e hx
        · exact h
    refine .same (h (.incoming l) (by simp)) (h (.walking l) (by simpa using Ne.symm hne)) (h (.finished l) (by simp)) rfl fun q => ?_
    show upd s.stamp l' _ l q = _
    rw [upd_other _ _ _ _ (Ne.symm hne)]
  | stamp p l' mem who =>
    refine .same (fun _ h => h) (fun _ h => h) (fun _ h => h) rfl fun q => ?_
    show upd s.stamp l' _ l q = _
    rw [upd_other _ _ _ _ (Ne.symm (norm who))]
  | finishLink p l' mem _ who =>
    have h : ∀ x, x ≠ .finished l' → ∀ q, q ∈ (s.shift p (.walking l') (.finished l')).loc x → q ∈ s.loc x :=
      fun x hx q hq => by
        rcases (hp.shift_mem (by simp) mem q x).1 hq with ⟨_, e⟩ | ⟨_, h⟩
        · exact absurd e hx
        · exact h
    exact .same (h (.incoming l) (by simp)) (h (.walking l) (by simp)) (h (.finished l) (by simpa using Ne.symm (norm who))) rfl fun _ => rfl
  | move p a b src dst s' mem phase who legal cross =>
    have eloc : s'.loc = (s.shift p a b).loc := by rw [cross.eq]
    have elog : s'.log = s.log ++ [⟨ts, p, src, dst⟩] := by rw [cross.eq]; rfl
    have est : s'.stamp = s.stamp := by rw [cross.eq]; rfl
    have hm := hp.shift_mem legal.ne mem
    have hlast : ∀ q, q ≠ p → lastMove s' q = lastMove s q := fun q hq => by
      rw [lastMove_append _ _ _ elog, if_neg (Ne.symm hq)]
    have hself : lastMove s' p = some ⟨ts, p, src, dst⟩ := by rw [lastMove_append _ _ _ elog, if_pos rfl]
    refine ⟨fun q hq => ?_, fun q hq => ?_, fun q hq => ?_, fun q => ?_⟩
    · rw [eloc] at hq
      rcases (hm _ _).1 hq with ⟨rfl, rfl⟩ | ⟨hne, hq⟩
      · right
        refine ⟨src, ?_, who.imp id fun h => (h l hl).2 rfl⟩
        rw [hself]
        cases legal <;> rfl
      · exact .inl ⟨hq, hlast q hne⟩
    · rw [eloc] at hq
      rcases (hm _ _).1 hq with ⟨rfl, rfl⟩ | ⟨hne, hq⟩
      · exact nomatch legal
      · exact ⟨hq, hlast q hne, by rw [est]⟩
    · rw [eloc] at hq
      rcases (hm _ _).1 hq with ⟨rfl, rfl⟩ | ⟨hne, hq⟩
      · right
        refine ⟨src, ?_, fun hf => ?_⟩
        · rw [hself]
          cases legal <;> rfl
        · cases legal with
          | pass l' _ next ne walk door =>
            rcases door with d | d
            · rw [hl] at d; simp at d
            · rcases hf l' rfl with h | h
              · exact d.1 h
              · exact d.2 h
          | alight b v i _ next walk alight in_ at_ =>
            have := (hc.busIn v (hi.stops.known v b at_) i in_).1
            rcases hf i rfl with h | h <;> rw [h] at this <;> simp [Kind.walking] at this
      · exact .inl ⟨hq, hlast q hne⟩
    · intro ev hq (e : ev.src = some l)
      rw [elog, moves_append] at hq
      split at hq
      · rename_i e'
        simp only at e'
        subst e'
        rw [List.append_right_inj, List.cons.injEq] at hq
        obtain ⟨rfl, _⟩ := hq
        simp only at e
        refine ⟨?_, ?_⟩
        · rcases who with h | h
          · exact h
          · exact absurd e (h l hl).1
        · subst e
          cases legal with
          | alight b v i _ next walk alight in_ at_ =>
            have := (hc.busIn v (hi.stops.known v b at_) l in_).1
            rw [hl] at this; simp [Kind.walking] at this
          | _ => exact mem
      · simp at hq
  | ride p b v i o s' mem at_ in_ out next cur cross =>
    have eloc : s'.loc = s.loc := by rw [cross.eq]
    have elog : s'.log = s.log ++ [⟨ts, p, some i, some o⟩] := by rw [cross.eq]
    have est : s'.stamp = s.stamp := by rw [cross.eq]
    have hb : ∀ x, (∀ b, x ≠ .bus b) → ∀ q, q ∈ s.loc x → q ≠ p := by
      rintro x hx q hq rfl
      exact hx b (hp.uniq _ _ _ hq mem)
    have hlast : ∀ q, q ≠ p → lastMove s' q = lastMove s q := fun q hq => by
      rw [lastMove_append _ _ _ elog, if_neg (Ne.symm hq)]
    refine ⟨fun q hq => ?_, fun q hq => ?_, fun q hq => ?_, fun q => ?_⟩
    · rw [eloc] at hq; exact .inl ⟨hq, hlast q (hb _ (by simp) q hq)⟩
    · rw [eloc] at hq; exact ⟨hq, hlast q (hb _ (by simp) q hq), by rw [est]⟩
    · rw [eloc] at hq; exact .inl ⟨hq, hlast q (hb _ (by simp) q hq)⟩
    · intro ev hq e
      rw [elog, moves_append] at hq
      split at hq
      · rw [List.append_right_inj, List.cons.injEq] at hq
        obtain ⟨rfl, _⟩ := hq
        simp only [Option.some.injEq] at e
        subst e
        have := (hc.busIn v (hi.stops.known v b at_) i in_).1
        rw [hl] at this; simp [Kind.walking] at this
      · simp at hq
  | shuffle a L perm =>
    have h : ∀ x q, q ∈ upd s.loc a L x → q ∈ s.loc x := fun x q hq => by
      by_cases e : x = a
      · subst e; rw [upd_same] at hq; exact perm.mem_iff.1 hq
      · rwa [upd_other _ _ _ _ e] at hq
    exact .same (h _) (h _) (h _) rfl fun _ => rfl
  | leave p d s' mem h =>
    obtain ⟨_, _, rfl⟩ := receivePax_ok h
    have h : ∀ x, x ≠ .gone → ∀ q, q ∈ (s.shift p (.dest d) .gone).loc x → q ∈ s.loc x :=
      fun x hx q hq => by
        rcases (hp.shift_mem (by simp) mem q x).1 hq with ⟨_, e⟩ | ⟨_, h⟩
        · exact absurd e hx
        · exact h
    exact .same (h (.incoming l) (by simp)) (h (.walking l) (by simp)) (h (.finished l) (by simp)) rfl fun _ => rfl
  | _ => exact .of_eq rfl rfl rfl

/-- The passengers on the walking link `l`: `ts` is the interval to come as far as walking is concerned, `b` is
later than all movements, and with `fr` passengers may have come to the link in the interval before `b`. -/
structure WalkAt (c : Cfg) (b : ℕ) (fr : Prop) (ts : ℕ) (l : ℕ) (s : State) : Prop where
  inc : ∀ p ∈ s.loc (.incoming l), ∃ e, lastMove s p = some e ∧ e.t < b ∧ (e.src ≠ none → fr ∧ e.t + 1 = b)
  walk : ∀ p ∈ s.loc (.walking l), ∃ e, lastMove s p = some e ∧ s.stamp l p ≤ (ts : ℤ) - e.t ∧
    s.stamp l p ≤ c.walkTime l - 1 ∧ (e.src ≠ none → s.stamp l p = (ts : ℤ) - e.t)
  fin : ∀ p ∈ s.loc (.finished l), ∃ e, lastMove s p = some e ∧ (onFoot c e →
    (e.t : ℤ) + c.walkTime l ≤ ts ∧ (e.src ≠ none → c.leads l → (e.t : ℤ) + c.walkTime l = ts))

theorem WalkAt.apart {c : Cfg} {b ts t : ℕ} {fr : Prop} {ph : Phase} {l : ℕ} {s s' : State}
    (h : WalkAt c b fr t l s) (hb : ts + 1 = b) (hfr : ph.stops = true → fr) (a : Apart c ts ph l s s') :
    WalkAt c b fr t l s' := by
  refine ⟨fun p hp => ?_, fun p hp => ?_, fun p hp => ?_⟩
  · rcases a.inc p hp with ⟨h1, h2⟩ | ⟨src, h1, h2⟩
    · rw [h2]; exact h.inc p h1
    · exact ⟨_, h1, by simp; omega, fun hs => ⟨hfr (h2.resolve_right hs), hb⟩⟩
  · obtain ⟨h1, h2, h3⟩ := a.walk p hp
    rw [h2, h3]
    exact h.walk p h1
  · rcases a.fin p hp with ⟨h1, h2⟩ | ⟨src, h1, h2⟩
    · rw [h2]; exact h.fin p h1
    · exact ⟨_, h1, fun h => absurd h h2⟩

/-- The walking times of the past. -/
def Walked (c : Cfg) (s : State) : Prop := ∀ p, (moves s.log p).IsChain (Paced c)

theorem chain_snoc {α : Type} {r : α → α → Prop} {L : List α} {e : α} (h : L.IsChain r)
    (he : ∀ x, L.getLast? = some x → r x e) : (L ++ [e]).IsChain r := by
  rw [List.isChain_append]
  exact ⟨h, .singleton _, fun x hx y hy => by
    simp only [List.head?_cons, Option.mem_def, Option.some.injEq] at hy
    subst hy
    exact he x hx⟩

theorem Eff.log {c : Cfg} {ts : ℕ} {s s' : State} (m : Eff c ts s s') (p : ℕ) :
    moves s'.log p = moves s.log p ∨
    ∃ e, moves s'.log p = moves s.log p ++ [e] ∧ e.t = ts ∧ e.src = (s.pax p).cur := by
  cases m with
  | quiet q => exact .inl (by rw [q.log])
  | made q => exact .inl (by rw [q.log])
  | leave p' d mem q => exact .inl (by rw [q.log])
  | cross q a src dst t mem cur quiet h =>
    rw [h.eq]
    simp only [moves_append, quiet.log]
    by_cases e : q = p
    · subst e
      rw [if_pos rfl]
      exact .inr ⟨_, rfl, rfl, cur.symm⟩
    · rw [if_neg e, List.append_nil]
      exact .inl rfl

theorem Walked.micro {c : Cfg} (hc : c.Wf) {R : Routes} {strict : Prop} {ts : ℕ} {ph : Phase} {s s' : State}
    (hw : ph.walks = false) (hi : Inv c R strict s) (ht : Trips s) (h : Walked c s)
    (hat : ∀ l ∈ c.linkIds, (c.link l).kind = .normal → ph.stops = true → ∃ b fr, WalkAt c b fr ts l s)
    (m : Micro c R strict ts ph s s') : Walked c s' := by
  intro p
  rcases (m.eff hi.located hi.stops).log p with e | ⟨e, h1, h2, h3⟩
  · rw [e]; exact h p
  · rw [h1]
    refine chain_snoc (h p) fun x hx l hm hd hl hf => ?_
    have hcx := ht.last (p := p) hx
    rw [hd] at hcx
    obtain ⟨g1, g2⟩ := (m.apart hc hw hi hl).log p e h1 (h3.trans hcx.symm)
    obtain ⟨b, fr, W⟩ := hat l hm hl g1
    obtain ⟨x', k1, k2⟩ := W.fin p g2
    rw [show lastMove s p = some x from hx] at k1
    obtain rfl := Option.some.inj k1
    rw [h2]
    exact k2 hf

/-! ### Waiting times -/

/-- Passenger `p` in container `a` does not have to wait. -/
def CalmAt (s : State) (p : ℕ) : Place → Prop
  | .origin _ => True
  | .lot _ => True
  | .incoming _ => ∀ e, lastMove s p = some e → e.src ≠ none → (s.pax p).wait ≤ 0
  | _ => (s.pax p).wait ≤ 0

/-- Only passengers who have just set out have to wait. -/
def Calm (s : State) : Prop := ∀ a p, p ∈ s.loc a → CalmAt s p a

theorem Calm.frame {s s' : State} (h : Calm s) (hf : ∀ a p, p ∈ s'.loc a → CalmAt s' p a ∨
    (p ∈ s.loc a ∧ ((s'.pax p).wait ≤ 0 ∨ (s'.pax p).wait ≤ (s.pax p).wait) ∧ lastMove s' p = lastMove s p)) :
    Calm s' := by
  intro a p hp
  rcases hf a p hp with h' | ⟨h1, h2, h3⟩
  · exact h'
  · have := h a p h1
    have k : (s.pax p).wait ≤ 0 → (s'.pax p).wait ≤ 0 := fun h => h2.elim id fun h' => h'.trans h
    cases a <;> simp only [CalmAt] at this ⊢
    case incoming l => rw [h3]; exact fun e h1 h2 => k (this e h1 h2)
    all_goals exact k this

theorem Calm.same {s s' : State} (h : Calm s) (h1 : ∀ a p, p ∈ s'.loc a → p ∈ s.loc a)
    (h2 : ∀ p, (s'.pax p).wait = (s.pax p).wait) (h3 : s'.log = s.log) : Calm s' :=
  h.frame fun a p hp => .inr ⟨h1 a p hp, .inr (h2 p).le, by unfold lastMove; rw [h3]⟩

theorem Calm.shift {s s' : State} (h : Calm s) (hp : Placed s) {p : ℕ} {a b : Place} (hab : a ≠ b) (hm : p ∈ s.loc a)
    (h1 : s'.loc = (s.shift p a b).loc) (h2 : ∀ p, (s'.pax p).wait = (s.pax p).wait)
    (h3 : ∀ q, q ≠ p → lastMove s' q = lastMove s q) (h4 : CalmAt s p a → CalmAt s' p b) : Calm s' := by
  refine h.frame fun x q hq => ?_
  rw [h1] at hq
  rcases (hp.shift_mem hab hm q x).1 hq with ⟨rfl, rfl⟩ | ⟨hne, hq⟩
  · exact .inl (h4 (h a q hm))
  · exact .inr ⟨hq, .inr (h2 q).le, h3 q hne⟩

theorem Calm.micro {c : Cfg} {R : Routes} {strict : Prop} {ts : ℕ} {ph : Phase} {s s' : State} (h : Calm s)
    (hp : Placed s) (m : Micro c R strict ts ph s s') : Calm s' := by
  have hnew : ∀ a, s.num + 1 ∉ s.loc a := fun a ha => by
    have := (hp.mem _).1 ⟨a, ha⟩
    omega
  cases m with
  | release o ad junk d assign =>
    refine h.frame fun a q hq => ?_
    by_cases e' : a = .origin o
    · subst e'; exact .inl trivial
    · simp only [upd_other _ _ _ _ e'] at hq
      have e : q ≠ s.num + 1 := by rintro rfl; exact hnew a hq
      exact .inr ⟨hq, .inr (by simp [State.makePax, upd_other _ _ _ _ e]), rfl⟩
  | park orc k car _ =>
    have elog : (parkCar orc ts k s car).log = s.log := by unfold parkCar; simp only; split <;> rfl
    refine h.frame fun a q hq => ?_
    rcases parkCar_num orc ts k s car with ⟨_, e⟩ | ⟨_, _, e⟩
    · rw [e] at hq
      have e : q ≠ s.num + 1 := by rintro rfl; exact hnew a hq
      exact .inr ⟨hq, .inr (by rw [parkCar_pax orc ts k s car e]), by unfold lastMove; rw [elog]⟩
    · rw [e] at hq
      by_cases e' : a = .lot k
      · subst e'; exact .inl trivial
      · simp only [upd_other _ _ _ _ e'] at hq
        have e : q ≠ s.num + 1 := by rintro rfl; exact hnew a hq
        exact .inr ⟨hq, .inr (by rw [parkCar_pax orc ts k s car e]), by unfold lastMove; rw [elog]⟩
  | wait p w less =>
    refine h.frame fun a q hq => .inr ⟨hq, ?_, rfl⟩
    by_cases e : q = p
    · subst e; simpa [State.setWait] using less
    · exact .inr (by simp [State.setWait, upd_other _ _ _ _ e])
  | enterLink p l mem calm who =>
    exact h.shift hp (a := .incoming l) (b := .walking l) (by simp) mem rfl (fun _ => rfl) (fun _ _ => rfl)
      fun _ => calm
  | finishLink p l mem _ who =>
    exact h.shift hp (a := .walking l) (b := .finished l) (by simp) mem rfl (fun _ => rfl) (fun _ _ => rfl)
      fun h => h
  | move p a b src dst s' mem phase _ legal cross =>
    have elog : s'.log = s.log ++ [⟨ts, p, src, dst⟩] := by rw [cross.eq]; rfl
    have ewait : ∀ q, (s'.pax q).wait = (s.pax q).wait := cross.field Pax.wait rfl
    refine h.shift hp legal.ne mem (by rw [cross.eq]) ewait (fun q hq => ?_) ?_
    · rw [lastMove_append _ _ _ elog, if_neg (Ne.symm hq)]
    · have hself : lastMove s' p = some ⟨ts, p, src, dst⟩ := by rw [lastMove_append _ _ _ elog, if_pos rfl]
      cases legal <;> simp only [CalmAt, ewait]
      · intro _ e h1 h2
        rw [hself] at h1
        obtain rfl := Option.some.inj h1
        simp at h2
      · intro _ e h1 h2
        rw [hself] at h1
        obtain rfl := Option.some.inj h1
        simp at h2
      · exact fun h _ _ _ => h
      all_goals exact fun h => h
  | ride p b v i o s' mem at_ in_ out next cur cross =>
    have elog : s'.log = s.log ++ [⟨ts, p, some i, some o⟩] := by rw [cross.eq]
    have ewait : ∀ q, (s'.pax q).wait = (s.pax q).wait := cross.field Pax.wait rfl
    have eloc : s'.loc = s.loc := by rw [cross.eq]
    refine h.frame fun a q hq => ?_
    rw [eloc] at hq
    by_cases e : q = p
    · subst e
      obtain rfl := hp.uniq _ _ _ hq mem
      exact .inl (by have := h _ q hq; simp only [CalmAt, ewait] at this ⊢; exact this)
    · exact .inr ⟨hq, .inr (ewait q).le, by rw [lastMove_append _ _ _ elog, if_neg (Ne.symm e)]⟩
  | shuffle a L perm =>
    refine h.same (fun x q hq => ?_) (fun _ => rfl) rfl
    by_cases e : x = a
    · subst e; simp only [upd_same] at hq; exact perm.mem_iff.1 hq
    · simpa only [upd_other _ _ _ _ e] using hq
  | leave p d s' mem h' =>
    obtain ⟨_, _, rfl⟩ := receivePax_ok h'
    exact h.shift hp (a := .dest d) (b := .gone) (by simp) mem rfl (upd_field _ Pax.wait _ _ rfl) (fun _ _ => rfl)
      fun h => by simpa [CalmAt] using h
  | path p q ad => exact h.same (fun _ _ h => h) (upd_field _ Pax.wait _ _ rfl) rfl
  | enroll p a q l rest mem start fixed new known chosen path =>
    exact h.same (fun _ _ h => h) (upd_field _ Pax.wait _ _ rfl) rfl
  | startNext p a l mem start ad => exact h.same (fun _ _ h => h) (upd_field _ Pax.wait _ _ rfl) rfl
  | linkNext p l n mem ad => exact h.same (fun _ _ h => h) (upd_field _ Pax.wait _ _ rfl) rfl
  | busNext p b v i n mem ad at_ in_ cur => exact h.same (fun _ _ h => h) (upd_field _ Pax.wait _ _ rfl) rfl
  | fixNext p l a n rest mem fixed cur next track node =>
    exact h.same (fun _ _ h => h) (upd_field _ Pax.wait _ _ rfl) rfl
  | fixEnd p l mem fixed track node => exact h.same (fun _ _ h => h) (upd_field _ Pax.wait _ _ rfl) rfl
  | fixBus p b v i n rest mem fixed at_ in_ cur next track =>
    exact h.same (fun _ _ h => h) (upd_field _ Pax.wait _ _ rfl) rfl
  | _ => exact h.same (fun _ _ h => h) (fun _ => rfl) rfl

/-! ### Walking -/

/-- No passenger who came on foot is left at the end of link `l`. -/
def Cleared (c : Cfg) (l : ℕ) (s : State) : Prop :=
  ∀ p ∈ s.loc (.finished l), ∀ e, lastMove s p = some e → ¬ onFoot c e

theorem Cleared.apart {c : Cfg} {ts : ℕ} {ph : Phase} {l : ℕ} {s s' : State} (h : Cleared c l s)
    (a : Apart c ts ph l s s') : Cleared c l s' := by
  intro p hp e he
  rcases a.fin p hp with ⟨h1, h2⟩ | ⟨src, h1, h2⟩
  · rw [h2] at he; exact h p h1 e he
  · rw [h1] at he
    obtain rfl := Option.some.inj he
    exact h2

/-- A link between the two steps of walking. -/
structure Stepping (c : Cfg) (ts : ℕ) (l : ℕ) (L : List ℕ) (s : State) : Prop where
  inc : ∀ p ∈ s.loc (.incoming l), ∃ e, lastMove s p = some e ∧ e.t < ts + 1 ∧
    (e.src ≠ none → p ∈ L ∧ e.t + 1 = ts + 1)
  walk : ∀ p ∈ s.loc (.walking l), ∃ e, lastMove s p = some e ∧ s.stamp l p ≤ (ts : ℤ) - e.t ∧
    s.stamp l p ≤ c.walkTime l - 1 ∧ (e.src ≠ none → s.stamp l p = (ts : ℤ) - e.t)

theorem walkClear_walk {c : Cfg} {ts l : ℕ} : ∀ (L : List ℕ) (s s' : State), Placed s → Calm s → L.Nodup →
    (∀ p ∈ L, p ∈ s.loc (.incoming l)) → Stepping c ts l L s → Res.foldlM (clearPax l) s L = .ok s' →
    Stepping c ts l [] s' ∧ Calm s' ∧ Placed s' ∧ s'.log = s.log ∧ s'.loc (.finished l) = s.loc (.finished l) ∧
      (∀ l', l' ≠ l → s'.stamp l' = s.stamp l' ∧ s'.loc (.incoming l') = s.loc (.incoming l') ∧
        s'.loc (.walking l') = s.loc (.walking l') ∧ s'.loc (.finished l') = s.loc (.finished l'))
  | [], s, s', hp, hc, _, _, h, e => by
    simp only [Res.foldlM_nil, Res.ok.injEq] at e
    subst e
    exact ⟨h, hc, hp, rfl, rfl, fun _ _ => ⟨rfl, rfl, rfl, rfl⟩⟩
  | p :: L, s, s', hp, hc, hn, hm, h, e => by
    rw [Res.foldlM_cons, Res.bind_eq_ok] at e
    obtain ⟨t, e1, e⟩ := e
    rw [List.nodup_cons] at hn
    have hpm := hm p List.mem_cons_self
    unfold clearPax at e1
    split at e1
    · rename_i hw
      simp only [Res.ok.injEq] at e1
      have m1 : Micro c ⟨fun _ => [], fun _ _ _ => True⟩ False ts .any s (s.setWait p 0) := .wait p 0 (.inl (le_refl _))
      have p1 : Placed (s.setWait p 0) := hp.of_eq rfl rfl
      have m2 : Micro c ⟨fun _ => [], fun _ _ _ => True⟩ False ts .any (s.setWait p 0) t := by
        rw [← e1]
        exact .enterLink p l hpm (by simp [State.setWait]) (.inl rfl)
      have c2 : Calm t := (hc.micro hp m1).micro p1 m2
      have p2 : Placed t := (p1.shift (a := .incoming l) (b := .walking l) (by simp) hpm).of_eq (by rw [← e1]) (by rw [← e1])
      have eloc : t.loc = (s.shift p (.incoming l) (.walking l)).loc := by rw [← e1]; rfl
      have elog : t.log = s.log := by rw [← e1]; rfl
      have elast : ∀ q, lastMove t q = lastMove s q := fun q => by unfold lastMove; rw [elog]
      have est : t.stamp = upd s.stamp l (upd (s.stamp l) p 0) := by rw [← e1]; rfl
      have hsm := hp.shift_mem (a := .incoming l) (b := .walking l) (by simp) hpm
      obtain ⟨a1, a2, a3, a4, a5, a6⟩ := walkClear_walk (c := c) (ts := ts) L t s' p2 c2 hn.2 (fun q hq => by
          rw [eloc]
          exact (hsm q _).2 (.inr ⟨by rintro rfl; exact hn.1 hq, hm q (List.mem_cons_of_mem _ hq)⟩)) ⟨by
          intro q hq
          rw [eloc] at hq
          rcases (hsm q _).1 hq with ⟨_, e⟩ | ⟨hne, hq⟩
          · simp at e
          · obtain ⟨e, h1, h2, h3⟩ := h.inc q hq
            exact ⟨e, by rw [elast]; exact h1, h2, fun hs => ⟨((List.mem_cons.1 (h3 hs).1).resolve_left hne), (h3 hs).2⟩⟩, by
          intro q hq
          rw [eloc] at hq
          rw [elast, est]
          rcases (hsm q _).1 hq with ⟨rfl, _⟩ | ⟨hne, hq⟩
          · obtain ⟨e, h1, h2, h3⟩ := h.inc q hpm
            simp only [upd_same]
            refine ⟨e, h1, by omega, by unfold Cfg.walkTime; omega, fun hs => ?_⟩
            have := (h3 hs).2
            omega
          · simp only [upd_same, upd_other _ _ _ _ hne]
            exact h.walk q hq⟩ e
      refine ⟨a1, a2, a3, a4.trans elog, a5.trans ?_, fun l' hl' => ?_⟩
      · rw [eloc, shift_loc s p (by simp)]; simp
      · obtain ⟨b1, b2, b3, b4⟩ := a6 l' hl'
        refine ⟨b1.trans (by rw [est, upd_other _ _ _ _ hl']), b2.trans ?_, b3.trans ?_, b4.trans ?_⟩ <;>
          rw [eloc, shift_loc s p (by simp)] <;> simp [hl']
    · rename_i hw
      simp only [Res.ok.injEq] at e1
      have m1 : Micro c ⟨fun _ => [], fun _ _ _ => True⟩ False ts .any s t := by
        rw [← e1]; exact .wait p _ (.inr (by linarith))
      have p1 : Placed t := hp.of_eq (by rw [← e1]; rfl) (by rw [← e1]; rfl)
      have c1 := hc.micro hp m1
      have eloc : t.loc = s.loc := by rw [← e1]; rfl
      have elog : t.log = s.log := by rw [← e1]; rfl
      have elast : ∀ q, lastMove t q = lastMove s q := fun q => by unfold lastMove; rw [elog]
      have est : t.stamp = s.stamp := by rw [← e1]; rfl
      obtain ⟨a1, a2, a3, a4, a5, a6⟩ := walkClear_walk (c := c) (ts := ts) L t s' p1 c1 hn.2 (fun q hq => by
          rw [eloc]; exact hm q (List.mem_cons_of_mem _ hq)) ⟨by
          intro q hq
          rw [eloc] at hq
          obtain ⟨e, h1, h2, h3⟩ := h.inc q hq
          refine ⟨e, by rw [elast]; exact h1, h2, fun hs => ⟨(List.mem_cons.1 (h3 hs).1).resolve_left ?_, (h3 hs).2⟩⟩
          rintro rfl
          exact hw (hc _ q hq e h1 hs), by
          intro q hq
          rw [eloc] at hq
          rw [elast, est]
          exact h.walk q hq⟩ e
      refine ⟨a1, a2, a3, a4.trans elog, a5.trans (by rw [eloc]), fun l' hl' => ?_⟩
      obtain ⟨b1, b2, b3, b4⟩ := a6 l' hl'
      exact ⟨b1.trans (by rw [est]), b2.trans (by rw [eloc]), b3.trans (by rw [eloc]), b4.trans (by rw [eloc])⟩

/-- Passengers of link `l` while it moves them on; those of `L` are still to be moved. -/
structure Aging (c : Cfg) (ts : ℕ) (l : ℕ) (L : List ℕ) (s : State) : Prop where
  walk : ∀ p ∈ s.loc (.walking l), ∃ e, lastMove s p = some e ∧
    s.stamp l p ≤ (ts : ℤ) + (if p ∈ L then 0 else 1) - e.t ∧ s.stamp l p ≤ c.walkTime l - 1 ∧
    (e.src ≠ none → s.stamp l p = (ts : ℤ) + (if p ∈ L then 0 else 1) - e.t)
  fin : ∀ p ∈ s.loc (.finished l), ∃ e, lastMove s p = some e ∧ (onFoot c e →
    (e.t : ℤ) + c.walkTime l ≤ ts + 1 ∧ (e.src ≠ none → c.leads l → (e.t : ℤ) + c.walkTime l = ts + 1))

theorem age_walk {c : Cfg} {ts l : ℕ} : ∀ (L : List ℕ) (s s' : State), Placed s → L.Nodup →
    (∀ p ∈ L, p ∈ s.loc (.walking l)) → Aging c ts l L s →
    Res.foldlM (agePax l (c.link l).maxStamp) s L = .ok s' →
    Aging c ts l [] s' ∧ Placed s' ∧ s'.log = s.log ∧ s'.pax = s.pax ∧ s'.loc (.incoming l) = s.loc (.incoming l) ∧
      (∀ l', l' ≠ l → s'.stamp l' = s.stamp l' ∧ s'.loc (.incoming l') = s.loc (.incoming l') ∧
        s'.loc (.walking l') = s.loc (.walking l') ∧ s'.loc (.finished l') = s.loc (.finished l'))
  | [], s, s', hp, _, _, h, e => by
    simp only [Res.foldlM_nil, Res.ok.injEq] at e
    subst e
    exact ⟨h, hp, rfl, rfl, rfl, fun _ _ => ⟨rfl, rfl, rfl, rfl⟩⟩
  | p :: L, s, s', hp, hn, hm, h, e => by
    rw [Res.foldlM_cons, Res.bind_eq_ok] at e
    obtain ⟨t, e1, e⟩ := e
    rw [List.nodup_cons] at hn
    have hpm := hm p List.mem_cons_self
    obtain ⟨ev, w1, w2, w3, w4⟩ := h.walk p hpm
    simp only [List.mem_cons_self, if_true, add_zero] at w2 w4
    have hmax : max 0 ((c.link l).maxStamp - 1) = c.walkTime l - 1 := by unfold Cfg.walkTime; omega
    unfold agePax at e1
    rw [hmax] at e1
    split at e1
    · rename_i hw
      simp only [Res.ok.injEq] at e1
      subst e1
      have hsm := hp.shift_mem (a := .walking l) (b := .finished l) (by simp) hpm
      obtain ⟨a1, a2, a3, a4, a5, a6⟩ := age_walk (c := c) (ts := ts) L (s.shift p (.walking l) (.finished l)) s'
        (hp.shift (by simp) hpm) hn.2 (fun q hq =>
          (hsm q _).2 (.inr ⟨by rintro rfl; exact hn.1 hq, hm q (List.mem_cons_of_mem _ hq)⟩)) ⟨by
          intro q hq
          rcases (hsm q _).1 hq with ⟨_, e⟩ | ⟨hne, hq⟩
          · simp at e
          · obtain ⟨e, h1, h2, h3, h4⟩ := h.walk q hq
            simp only [List.mem_cons, hne, false_or] at h2 h4
            exact ⟨e, h1, h2, h3, h4⟩, by
          intro q hq
          rcases (hsm q _).1 hq with ⟨rfl, _⟩ | ⟨hne, hq⟩
          · refine ⟨ev, w1, fun _ => ⟨by omega, fun hs _ => ?_⟩⟩
            have := w4 hs
            omega
          · exact h.fin q hq⟩ e
      refine ⟨a1, a2, a3, a4, a5.trans ?_, fun l' hl' => ?_⟩
      · rw [shift_loc s p (by simp)]; simp
      · obtain ⟨b1, b2, b3, b4⟩ := a6 l' hl'
        refine ⟨b1, b2.trans ?_, b3.trans ?_, b4.trans ?_⟩ <;> rw [shift_loc s p (by simp)] <;> simp [hl']
    · rename_i hw
      simp only [Res.ok.injEq] at e1
      subst e1
      obtain ⟨a1, a2, a3, a4, a5, a6⟩ := age_walk (c := c) (ts := ts) L
        { s with stamp := upd s.stamp l (upd (s.stamp l) p (s.stamp l p + 1)) } s'
        (hp.of_eq rfl rfl) hn.2 (fun q hq => hm q (List.mem_cons_of_mem _ hq)) ⟨by
          intro q hq
          by_cases hne : q = p
          · subst hne
            refine ⟨ev, w1, ?_, ?_, fun hs => ?_⟩
            · simp only [upd_same, hn.1, if_false]; omega
            · simp only [upd_same]; omega
            · have := w4 hs
              simp only [upd_same, hn.1, if_false]; omega
          · obtain ⟨e, h1, h2, h3, h4⟩ := h.walk q hq
            simp only [List.mem_cons, hne, false_or] at h2 h4
            simp only [upd_same, upd_other _ _ _ _ hne]
            exact ⟨e, h1, h2, h3, h4⟩, h.fin⟩ e
      refine ⟨a1, a2, a3, a4, a5, fun l' hl' => ?_⟩
      obtain ⟨b1, b2, b3, b4⟩ := a6 l' hl'
      exact ⟨b1.trans (upd_other _ _ _ _ hl'), b2, b3, b4⟩

theorem WalkAt.frame {c : Cfg} {b ts l : ℕ} {fr : Prop} {s s' : State} (h : WalkAt c b fr ts l s)
    (h1 : s'.log = s.log) (h2 : s'.stamp l = s.stamp l) (h3 : s'.loc (.incoming l) = s.loc (.incoming l))
    (h4 : s'.loc (.walking l) = s.loc (.walking l)) (h5 : s'.loc (.finished l) = s.loc (.finished l)) :
    WalkAt c b fr ts l s' := by
  have e : lastMove s' = lastMove s := by funext p; unfold lastMove; rw [h1]
  exact ⟨by rw [h3, e]; exact h.inc, by rw [h4, e, h2]; exact h.walk, by rw [h5, e]; exact h.fin⟩

theorem WalkAt.steps {c : Cfg} {R : Routes} {strict : Prop} (hy : Hyp c R strict) {b ts t : ℕ} {fr : Prop}
    {ph : Phase} (hw : ph.walks = false) {l : ℕ} (hl : (c.link l).kind = .normal) {s s' : State}
    (hi : Inv c R strict s) (h : WalkAt c b fr t l s) (hb : ts + 1 = b) (hfr : ph.stops = true → fr)
    (m : Steps c R strict ts ph s s') : WalkAt c b fr t l s' :=
  (Steps.inv (P := fun s => Inv c R strict s ∧ WalkAt c b fr t l s) (fun _ _ h m =>
    ⟨h.1.micro hy m, h.2.apart hb hfr (m.apart hy.wf hw h.1 hl)⟩) m ⟨hi, h⟩).2

theorem Cleared.steps {c : Cfg} {R : Routes} {strict : Prop} (hy : Hyp c R strict) {ts : ℕ}
    {ph : Phase} (hw : ph.walks = false) {l : ℕ} (hl : (c.link l).kind = .normal) {s s' : State}
    (hi : Inv c R strict s) (h : Cleared c l s) (m : Steps c R strict ts ph s s') : Cleared c l s' :=
  (Steps.inv (P := fun s => Inv c R strict s ∧ Cleared c l s) (fun _ _ h m =>
    ⟨h.1.micro hy m, h.2.apart (m.apart hy.wf hw h.1 hl)⟩) m ⟨hi, h⟩).2

theorem Calm.steps {c : Cfg} {R : Routes} {strict : Prop} (hy : Hyp c R strict) {ts : ℕ}
    {ph : Phase} {s s' : State} (hi : Inv c R strict s) (h : Calm s) (m : Steps c R strict ts ph s s') : Calm s' :=
  (Steps.inv (P := fun s => Inv c R strict s ∧ Calm s) (fun _ _ h m =>
    ⟨h.1.micro hy m, h.2.micro h.1.placed m⟩) m ⟨hi, h⟩).2

/-- One link lets its passengers walk. -/
theorem walkStep_walk {c : Cfg} {R : Routes} {strict : Prop} (hy : Hyp c R strict) {orc : Orc} (ho : orc.Ok R)
    {ts l : ℕ} (hl : (c.link l).kind = .normal) {s s' : State} (hi : Inv c R strict s) (hc : Calm s)
    (h : WalkAt c (ts + 1) True ts l s) (hcl : c.leads l → Cleared c l s) (e : walkStep c orc s l = .ok s') :
    WalkAt c (ts + 1) False (ts + 1) l s' := by
  unfold walkStep at e
  rw [if_pos (by rw [hl]; rfl)] at e
  simp only [Res.bind_eq_ok'] at e
  obtain ⟨s1, h1, s2, h2, e⟩ := e
  obtain ⟨a1, a2, a3, a4, a5, _⟩ := walkClear_walk (c := c) (ts := ts) _ s s1 hi.placed hc (hi.placed.nodup _)
    (fun _ h => h) ⟨fun p hp => by
      obtain ⟨ev, g1, g2, g3⟩ := h.inc p hp
      exact ⟨ev, g1, g2, fun hs => ⟨hp, (g3 hs).2⟩⟩, h.walk⟩ h1
  have elast : lastMove s1 = lastMove s := by funext p; unfold lastMove; rw [a4]
  have hstamp : walkStamp c l = (c.link l).maxStamp := by unfold walkStamp; rw [hl]
  have hperm := ho.order l (s1.loc (.walking l))
  rw [hstamp] at h2
  obtain ⟨b1, b2, b3, b4, b5, _⟩ := age_walk (c := c) (ts := ts) _ s1 s2 a3
    (hperm.nodup_iff.2 (a3.nodup _)) (fun p hp => hperm.mem_iff.1 hp) ⟨fun p hp => by
      obtain ⟨ev, g⟩ := a1.walk p hp
      rw [if_pos (hperm.mem_iff.2 hp), add_zero]
      exact ⟨ev, g⟩, fun p hp => by
      rw [a5] at hp
      obtain ⟨ev, g1, g2⟩ := h.fin p hp
      refine ⟨ev, by rw [elast]; exact g1, fun hf => ⟨by have := (g2 hf).1; omega, fun hs hld => ?_⟩⟩
      exact absurd hf (hcl hld p hp ev g1)⟩ h2
  rw [if_neg (by rw [hl]; simp), Res.ok.injEq] at e
  subst e
  have elast' : lastMove s2 = lastMove s1 := by funext p; unfold lastMove; rw [b3]
  refine ⟨fun p hp => ?_, fun p hp => ?_, fun p hp => ?_⟩
  · rw [b5] at hp
    obtain ⟨ev, g1, g2, g3⟩ := a1.inc p hp
    exact ⟨ev, by rw [elast']; exact g1, g2, fun hs => absurd (g3 hs).1 (by simp)⟩
  · obtain ⟨ev, g⟩ := b1.walk p hp
    rw [if_neg (by simp)] at g
    exact ⟨ev, by exact_mod_cast g⟩
  · obtain ⟨ev, g⟩ := b1.fin p hp
    exact ⟨ev, by exact_mod_cast g⟩

theorem walkStep_frame {c : Cfg} {R : Routes} {strict : Prop} (hy : Hyp c R strict) {orc : Orc} (ho : orc.Ok R)
    {ts x : ℕ} (hx : (c.link x).kind = .normal) {s s' : State} (hi : Inv c R strict s) (hc : Calm s)
    (h : WalkAt c (ts + 1) True ts x s) (e : walkStep c orc s x = .ok s') :
    s'.log = s.log ∧ ∀ l, l ≠ x → s'.stamp l = s.stamp l ∧ s'.loc (.incoming l) = s.loc (.incoming l) ∧
        s'.loc (.walking l) = s.loc (.walking l) ∧ s'.loc (.finished l) = s.loc (.finished l) := by
  unfold walkStep at e
  rw [if_pos (by rw [hx]; rfl)] at e
  simp only [Res.bind_eq_ok'] at e
  obtain ⟨s1, h1, s2, h2, e⟩ := e
  obtain ⟨a1, a2, a3, a4, a5, a6⟩ := walkClear_walk (c := c) (ts := ts) _ s s1 hi.placed hc (hi.placed.nodup _)
    (fun _ h => h) ⟨fun p hp => by
      obtain ⟨ev, g1, g2, g3⟩ := h.inc p hp
      exact ⟨ev, g1, g2, fun hs => ⟨hp, (g3 hs).2⟩⟩, h.walk⟩ h1
  rw [if_neg (by rw [hx]; simp), Res.ok.injEq] at e
  subst e
  have key : ∀ (L : List ℕ) (s s' : State) (m : ℤ), Res.foldlM (agePax x m) s L = .ok s' →
      s'.log = s.log ∧ ∀ l, l ≠ x → s'.stamp l = s.stamp l ∧ s'.loc (.incoming l) = s.loc (.incoming l) ∧
        s'.loc (.walking l) = s.loc (.walking l) ∧ s'.loc (.finished l) = s.loc (.finished l) := by
    intro L
    induction L with
    | nil =>
      intro s s' m e
      simp only [Res.foldlM_nil, Res.ok.injEq] at e
      subst e
      exact ⟨rfl, fun _ _ => ⟨rfl, rfl, rfl, rfl⟩⟩
    | cons p L ih =>
      intro s s' m e
      rw [Res.foldlM_cons, Res.bind_eq_ok] at e
      obtain ⟨t, e1, e⟩ := e
      obtain ⟨b1, b2⟩ := ih t s' m e
      unfold agePax at e1
      split at e1
      · simp only [Res.ok.injEq] at e1
        subst e1
        refine ⟨b1, fun l hl => ?_⟩
        obtain ⟨g1, g2, g3, g4⟩ := b2 l hl
        refine ⟨g1, g2.trans ?_, g3.trans ?_, g4.trans ?_⟩ <;> rw [shift_loc s p (by simp)] <;> simp [hl]
      · simp only [Res.ok.injEq] at e1
        subst e1
        refine ⟨b1, fun l hl => ?_⟩
        obtain ⟨g1, g2, g3, g4⟩ := b2 l hl
        exact ⟨g1.trans (upd_other _ _ _ _ hl), g2, g3, g4⟩
  obtain ⟨b1, b2⟩ := key _ _ _ _ h2
  refine ⟨b1.trans a4, fun l hl => ?_⟩
  obtain ⟨g1, g2, g3, g4⟩ := b2 l hl
  obtain ⟨k1, k2, k3, k4⟩ := a6 l hl
  exact ⟨g1.trans k1, g2.trans k2, g3.trans k3, g4.trans k4⟩

theorem Walked.steps {c : Cfg} {R : Routes} {strict : Prop} (hy : Hyp c R strict) {ts : ℕ} {ph : Phase} {s s' : State}
    (hw : ph.walks = false) (hi : Inv c R strict s) (hm : More c ts s) (h : Walked c s)
    (hat : ph.stops = true → ∀ l ∈ c.linkIds, (c.link l).kind = .normal → WalkAt c (ts + 1) True ts l s)
    (m : Steps c R strict ts ph s s') : Walked c s' := by
  have := Steps.inv (P := fun s => Inv c R strict s ∧ More c ts s ∧ Walked c s ∧
      (ph.stops = true → ∀ l ∈ c.linkIds, (c.link l).kind = .normal → WalkAt c (ts + 1) True ts l s))
    (fun s s' h m => ⟨h.1.micro hy m, h.2.1.micro hy h.1 m,
      h.2.2.1.micro hy.wf hw h.1 h.2.1.trips (fun l hl hk hs => ⟨_, _, h.2.2.2 hs l hl hk⟩) m,
      fun hs l hl hk => (h.2.2.2 hs l hl hk).apart rfl (fun _ => trivial) (m.apart hy.wf hw h.1 hk)⟩) m ⟨hi, hm, h, hat⟩
  exact this.2.2.1

theorem Walked.of_log {c : Cfg} {s s' : State} (h : Walked c s) (e : s'.log = s.log) : Walked c s' := by
  intro p; rw [e]; exact h p

theorem More.steps {c : Cfg} {R : Routes} {strict : Prop} (hy : Hyp c R strict) {ts : ℕ} {ph : Phase} {s s' : State}
    (hi : Inv c R strict s) (hm : More c ts s) (m : Steps c R strict ts ph s s') : More c ts s' :=
  (Steps.inv (P := fun s => Inv c R strict s ∧ More c ts s) (fun _ _ h m =>
    ⟨h.1.micro hy m, h.2.micro hy h.1 m⟩) m ⟨hi, hm⟩).2

/-- All links let their passengers walk; those of `L` are still to do so. -/
theorem walkSteps_walk {c : Cfg} {R : Routes} {strict : Prop} (hy : Hyp c R strict) {orc : Orc} (ho : orc.Ok R)
    {ts : ℕ} : ∀ (L : List ℕ) (s s' : State), L.Nodup → Inv c R strict s → Calm s → More c ts s → Walked c s →
    (∀ l ∈ L, (c.link l).kind = .normal → WalkAt c (ts + 1) True ts l s ∧ (c.leads l → Cleared c l s)) →
    Res.foldlM (walkStep c orc) s L = .ok s' →
    Inv c R strict s' ∧ Calm s' ∧ More c ts s' ∧ Walked c s' ∧ (∀ l ∈ L, (c.link l).kind = .normal → WalkAt c (ts + 1) False (ts + 1) l s') ∧
      ∀ l, l ∉ L → (c.link l).kind = .normal → WalkAt c (ts + 1) False (ts + 1) l s → WalkAt c (ts + 1) False (ts + 1) l s'
  | [], s, s', _, hi, hc, hm, hw, _, e => by
    simp only [Res.foldlM_nil, Res.ok.injEq] at e
    subst e
    exact ⟨hi, hc, hm, hw, by simp, fun _ _ _ h => h⟩
  | x :: L, s, s', hn, hi, hc, hmo, hwa, h, e => by
    rw [Res.foldlM_cons, Res.bind_eq_ok] at e
    obtain ⟨t, e1, e⟩ := e
    rw [List.nodup_cons] at hn
    have st : Steps c R strict ts .any s t := walkStep_steps hy ho (.inl rfl) hi e1
    have i1 := hi.steps hy st
    have c1 := hc.steps hy hi st
    have m1 := hmo.steps hy hi st
    by_cases hx : (c.link x).kind = .normal
    · obtain ⟨w, cl⟩ := h x List.mem_cons_self hx
      obtain ⟨f1, f2⟩ := walkStep_frame hy ho hx hi hc w e1
      have elast : lastMove t = lastMove s := by funext p; unfold lastMove; rw [f1]
      have wx := walkStep_walk hy ho hx hi hc w cl e1
      obtain ⟨g1, g2, g3, g3', g4, g5⟩ := walkSteps_walk hy ho L t s' hn.2 i1 c1 m1 (hwa.of_log f1) (fun l hl hk => by
        have hne : l ≠ x := by rintro rfl; exact hn.1 hl
        obtain ⟨k1, k2, k3, k4⟩ := f2 l hne
        obtain ⟨w', cl'⟩ := h l (List.mem_cons_of_mem _ hl) hk
        refine ⟨w'.frame f1 k1 k2 k3 k4, fun hld p hp => ?_⟩
        rw [k4] at hp
        rw [elast]
        exact cl' hld p hp) e
      refine ⟨g1, g2, g3, g3', fun l hl hk => ?_, fun l hl hk hw => ?_⟩
      · rcases List.mem_cons.1 hl with rfl | hl
        · exact g5 l hn.1 hk wx
        · exact g4 l hl hk
      · simp only [List.mem_cons, not_or] at hl
        obtain ⟨k1, k2, k3, k4⟩ := f2 l hl.1
        exact g5 l hl.2 hk (hw.frame f1 k1 k2 k3 k4)
    · have st' : Steps c R strict ts .still s t := walkStep_steps hy ho (.inr hx) hi e1
      have st'' : Steps c R strict ts .late s t := walkStep_steps hy ho (.inr hx) hi e1
      obtain ⟨g1, g2, g3, g3', g4, g5⟩ := walkSteps_walk hy ho L t s' hn.2 i1 c1 m1
        (hwa.steps hy rfl hi hmo (by simp [Phase.stops]) st'') (fun l hl hk => by
        obtain ⟨w', cl'⟩ := h l (List.mem_cons_of_mem _ hl) hk
        exact ⟨w'.steps hy rfl hk hi rfl (fun _ => trivial) st', fun hld => (cl' hld).steps hy rfl hk hi st'⟩) e
      refine ⟨g1, g2, g3, g3', fun l hl hk => ?_, fun l hl hk hw => ?_⟩
      · rcases List.mem_cons.1 hl with rfl | hl
        · exact absurd hk hx
        · exact g4 l hl hk
      · simp only [List.mem_cons, not_or] at hl
        exact g5 l hl.2 hk (hw.steps hy rfl hk hi rfl (by simp [Phase.stops]) st'')

/-! ### Destinations and physical stops let everybody pass -/

theorem destPax_moved {c : Cfg} {ts d l p : ℕ} {s s' : State} (h : destPax c ts d l s p = .ok s') :
    ∃ b, Place.finished l ≠ b ∧ s'.loc = (s.shift p (.finished l) b).loc := by
  unfold destPax at h
  split at h
  · split at h
    · simp at h
    · split at h
      · simp at h
      · exact ⟨.incoming _, by simp, by rw [(cross_ok h).eq]⟩
  · exact ⟨.dest d, by simp, by rw [(cross_ok h).eq]⟩

theorem stopPax_moved {c : Cfg} {ts l p : ℕ} {st : PStop} {check : State → Res Unit} {s s' : State}
    (h : stopPax c ts st l check s p = .ok s') :
    ∃ b, Place.finished l ≠ b ∧ s'.loc = (s.shift p (.finished l) b).loc := by
  unfold stopPax at h
  split at h
  · simp at h
  · split at h
    · simp at h
    · split at h
      · simp at h
      · split at h
        · split at h
          · simp at h
          · rename_i hne
            exact ⟨.finished _, by simpa using Ne.symm hne, by rw [(cross_ok h).eq]⟩
        · exact ⟨.incoming _, by simp, by rw [(cross_ok h).eq]⟩

theorem loop_empties {f : State → ℕ → Res State} {l : ℕ} (hf : ∀ s p s', f s p = .ok s' →
    ∃ b, Place.finished l ≠ b ∧ s'.loc = (s.shift p (.finished l) b).loc) : ∀ (L : List ℕ) (s s' : State),
    (s.loc (.finished l)).Nodup → Res.foldlM f s L = .ok s' →
    ∀ q ∈ s'.loc (.finished l), q ∈ s.loc (.finished l) ∧ q ∉ L
  | [], s, s', _, h, q, hq => by
    simp only [Res.foldlM_nil, Res.ok.injEq] at h
    subst h
    exact ⟨hq, by simp⟩
  | p :: L, s, s', hn, h, q, hq => by
    rw [Res.foldlM_cons, Res.bind_eq_ok] at h
    obtain ⟨t, h1, h⟩ := h
    obtain ⟨b, hb, hl⟩ := hf s p t h1
    have e : t.loc (.finished l) = (s.loc (.finished l)).erase p := by
      rw [hl, shift_loc s p hb, if_neg hb, if_pos rfl]
    have hn' : (t.loc (.finished l)).Nodup := by rw [e]; exact hn.erase p
    obtain ⟨a1, a2⟩ := loop_empties hf L t s' hn' h q hq
    rw [e, hn.mem_erase_iff] at a1
    exact ⟨a1.2, by simp only [List.mem_cons, not_or]; exact ⟨a1.1, a2⟩⟩

theorem loop_cleared {c : Cfg} {f : State → ℕ → Res State} {l : ℕ} (hf : ∀ s p s', f s p = .ok s' →
    ∃ b, Place.finished l ≠ b ∧ s'.loc = (s.shift p (.finished l) b).loc) {s s' : State} (hp : Placed s)
    (h : Res.foldlM f s (s.loc (.finished l)) = .ok s') : Cleared c l s' := fun p hm => by
  obtain ⟨a, b⟩ := loop_empties hf _ s s' (hp.nodup _) h p hm
  exact absurd a b

theorem fold_cleared {c : Cfg} {R : Routes} {strict : Prop} (hy : Hyp c R strict) {ts l : ℕ}
    (hl : (c.link l).kind = .normal) {α : Type} {f : State → α → Res State} {g : α → Prop} : ∀ (L : List α)
    (_ : ∀ s x s', x ∈ L → Inv c R strict s → f s x = .ok s' → Steps c R strict ts .still s s')
    (_ : ∀ s x s', x ∈ L → g x → Inv c R strict s → f s x = .ok s' → Cleared c l s') (s s' : State),
    Inv c R strict s → (∃ x ∈ L, g x) ∨ Cleared c l s → Res.foldlM f s L = .ok s' → Cleared c l s'
  | [], _, _, s, s', _, hx, h => by
    simp only [Res.foldlM_nil, Res.ok.injEq] at h
    subst h
    simpa using hx
  | x :: L, h1, h2, s, s', hi, hx, h => by
    rw [Res.foldlM_cons, Res.bind_eq_ok] at h
    obtain ⟨t, e, h⟩ := h
    have st := h1 s x t List.mem_cons_self hi e
    refine fold_cleared hy hl L (fun s y s' hy => h1 s y s' (List.mem_cons_of_mem _ hy))
      (fun s y s' hy => h2 s y s' (List.mem_cons_of_mem _ hy)) t s' (hi.steps hy st) ?_ h
    rcases hx with ⟨y, hy', hg⟩ | hc
    · rcases List.mem_cons.1 hy' with rfl | hm
      · exact .inr (h2 s y t List.mem_cons_self hg hi e)
      · exact .inl ⟨y, hm, hg⟩
    · exact .inr (hc.steps hy rfl hl hi st)

theorem destEvolve_cleared {c : Cfg} {R : Routes} {strict : Prop} (hy : Hyp c R strict) {ts d l : ℕ}
    (hd : d ∈ c.destIds) (hl : (c.link l).kind = .normal) (hm : l ∈ (c.dest d).walkIn) {s s' : State}
    (hi : Inv c R strict s) (h : destEvolve c ts s d = .ok s') : Cleared c l s' := by
  refine fold_cleared hy hl (g := fun x => x = l) (ts := ts) _ (fun s x s' hx hi e => ?_) (fun s x s' _ hx hi e => ?_) s s' hi
    (.inl ⟨l, hm, rfl⟩) h
  · exact destLink_steps hy rfl hd hx hi e
  · subst hx
    exact loop_cleared (fun _ _ _ => destPax_moved) hi.placed e

theorem stopEvolve_cleared {c : Cfg} {R : Routes} {strict : Prop} (hy : Hyp c R strict) {ts k l : ℕ}
    (hk : k ∈ c.pstopIds) (hl : (c.link l).kind = .normal) (hm : l ∈ (c.pstop k).walkIn) {s s' : State}
    (hi : Inv c R strict s) (h : stopEvolve c ts s k = .ok s') : Cleared c l s' := by
  simp only [stopEvolve, Res.bind_eq_ok'] at h
  obtain ⟨s1, h1, h2⟩ := h
  have st1 : Steps c R strict ts .still s s1 := by
    refine steps_each hy (fun s l s' hl hi h => ?_) hi h1
    exact steps_all hy (.finished l) (fun s p s' hi hp h =>
      stopPax_steps rfl (hy.wf.stops k hk l (.inl hl)) hi hp h) hi h
  have i1 := hi.steps hy st1
  have st2 : Steps c R strict ts .still s1 s' := by
    refine steps_each hy (fun s l s' hl hi h => ?_) i1 h2
    exact steps_all hy (.finished l) (fun s p s' hi hp h =>
      stopPax_steps rfl (hy.wf.stops k hk l (.inr hl)) hi hp h) hi h
  refine Cleared.steps hy rfl hl i1 ?_ st2
  refine fold_cleared hy hl (g := fun x => x = l) (ts := ts) _ (fun s x s' hx hi e => ?_) (fun s x s' _ hx hi e => ?_) s s1 hi
    (.inl ⟨l, hm, rfl⟩) h1
  · exact steps_all hy (.finished x) (fun s p s' hi hp h =>
      stopPax_steps rfl (hy.wf.stops k hk x (.inl hx)) hi hp h) hi e
  · subst hx
    exact loop_cleared (fun _ _ _ => stopPax_moved) hi.placed e

/-! ### Whole intervals -/

/-- The invariants of walking between intervals. -/
structure Afoot (c : Cfg) (R : Routes) (strict : Prop) (ts : ℕ) (s : State) : Prop where
  full : Full c R strict ts s
  calm : Calm s
  walked : Walked c s
  at_ : ∀ l ∈ c.linkIds, (c.link l).kind = .normal → WalkAt c ts False ts l s

theorem Afoot.init (c : Cfg) (R : Routes) (strict : Prop) : Afoot c R strict 0 (State.init c) :=
  ⟨Full.init c R strict, by simp [Calm, State.init], fun p => by simp [State.init, moves],
    fun l _ _ => ⟨by simp [State.init], by simp [State.init], by simp [State.init]⟩⟩

theorem Afoot.step {c : Cfg} {R : Routes} {strict : Prop} (hy : Hyp c R strict) {o : Orc} (ho : o.Ok R)
    {ts assign : ℕ} {s s' : State} (h : Afoot c R strict ts s) (hl : loadOnce c o ts assign s = .ok s') :
    Afoot c R strict (ts + 1) s' := by
  suffices Walked c s' ∧ ∀ l ∈ c.linkIds, (c.link l).kind = .normal → WalkAt c (ts + 1) False (ts + 1) l s' from
    ⟨h.full.step hy ho hl, h.calm.steps hy h.full.inv (loadOnce_steps hy ho h.full.inv hl), this.1, this.2⟩
  simp only [loadOnce, beforeBuses, Res.bind_eq_ok', Res.ok.injEq] at hl
  obtain ⟨w, ⟨s1, h1, s2, h2, s3, h3, s4, h4, s5, h5, s6, h6, s7, h7, rfl⟩, u, h8, h9⟩ := hl
  have hs := h.full.inv
  have a1 : Steps c R strict ts .still s s1 := stepRelease_steps ho hy hs h1
  have i1 := hs.steps hy a1
  obtain ⟨a2, r2⟩ := routing_steps (ts := ts) (ph := .still) hy ho i1 h2
  have a3 : ∀ {ph}, Steps c R strict ts ph s2 s3 :=
    steps_each hy (fun _ _ _ _ hi h => originEvolve_steps hy hi h) r2.1 h3
  have r3 := r2.steps hy (ts := ts) a3
  have a4 : ∀ {ph : Phase}, ph.stops = true → Steps c R strict ts ph s3 s4 := fun hph =>
    steps_each hy (fun _ _ _ hd hi h => destEvolve_steps hy hph hd hi h) r3.1 h4
  have r4 := r3.steps hy (ts := ts) (a4 rfl)
  have a5 : ∀ {ph : Phase}, ph.stops = true → Steps c R strict ts ph s4 s5 := fun hph =>
    steps_each hy (fun _ _ _ hk hi h => stopEvolve_steps hy hph hk hi h) r4.1 h5
  have r5 := r4.steps hy (ts := ts) (a5 rfl)
  have A : Steps c R strict ts .still s s5 := (((a1.trans a2).trans a3).trans (a4 rfl)).trans (a5 rfl)
  have W0 : ∀ l ∈ c.linkIds, (c.link l).kind = .normal → WalkAt c (ts + 1) True ts l s := fun l hm hk => by
    have := h.at_ l hm hk
    refine ⟨fun p hp => ?_, this.walk, this.fin⟩
    obtain ⟨e, g1, g2, g3⟩ := this.inc p hp
    exact ⟨e, g1, by omega, fun hs => (g3 hs).1.elim⟩
  have c5 := h.calm.steps hy hs A
  have m5 := h.full.more.steps hy hs A
  have w5 := h.walked.steps hy rfl hs h.full.more (fun _ => W0) A
  have cl : ∀ l, (c.link l).kind = .normal → c.leads l → Cleared c l s5 := by
    rintro l hk (⟨d, hd, hm⟩ | ⟨k, hd, hm⟩)
    · refine Cleared.steps hy rfl hk r4.1 ?_ (a5 (ph := .still) rfl)
      exact fold_cleared hy hk (g := fun x => x = d) (ts := ts) _ (fun s x s' hx hi e => destEvolve_steps hy rfl hx hi e)
        (fun s x s' _ hx hi e => by subst hx; exact destEvolve_cleared hy hd hk hm hi e) s3 s4 r3.1 (.inl ⟨d, hd, rfl⟩) h4
    · exact fold_cleared hy hk (g := fun x => x = k) (ts := ts) _ (fun s x s' hx hi e => stopEvolve_steps hy rfl hx hi e)
        (fun s x s' _ hx hi e => by subst hx; exact stopEvolve_cleared hy hd hk hm hi e) s4 s5 r4.1 (.inl ⟨k, hd, rfl⟩) h5
  have r6 : Routed c R strict (fun x _ => x ∈ c.linkIds) s6 := r5.steps hy (ts := ts)
    (steps_each hy (fun _ _ _ _ hi h => walkStep_steps hy ho (.inl rfl) hi h) r5.1 h6)
  obtain ⟨i6, c6, m6, w6, g6, _⟩ := walkSteps_walk hy ho (ts := ts) c.linkIds s5 s6 hy.wf.links r5.1 c5 m5 w5
    (fun l hm hk => ⟨(W0 l hm hk).steps hy rfl hk hs rfl (fun _ => trivial) A, cl l hk⟩) h6
  -- nobody walks afterwards
  obtain ⟨t, a7, a7'⟩ := implicitStep_steps (ph := .late) hy ho r6 h7
  have B : Steps c R strict ts .late s6 (recordQueue c s7) :=
    (a7.trans a7').tail (.record _ s7.enrouteNum (fun _ _ => rfl) fun h => absurd rfl h)
  have iB := i6.steps hy B
  have C : Steps c R strict ts .bus (recordQueue c s7) u := buses_steps hy ho (fun _ h => h) iB h8
  have iC := iB.steps hy C
  obtain ⟨v, _, D, E⟩ := afterBuses_phases hy ho iC h9
  have iD := iC.steps hy D
  have go : ∀ {ph : Phase} {x y : State}, ph.walks = false → ph.stops = false → Inv c R strict x →
      Steps c R strict ts ph x y → More c ts x ∧ Walked c x ∧
        (∀ l ∈ c.linkIds, (c.link l).kind = .normal → WalkAt c (ts + 1) False (ts + 1) l x) →
      More c ts y ∧ Walked c y ∧
        (∀ l ∈ c.linkIds, (c.link l).kind = .normal → WalkAt c (ts + 1) False (ts + 1) l y) :=
    fun {ph x y} p1 p2 hx st hh => ⟨hh.1.steps hy hx st, hh.2.1.steps hy p1 hx hh.1 (by simp [p2]) st,
      fun l hm hk => (hh.2.2 l hm hk).steps hy p1 hk hx rfl (by simp [p2]) st⟩
  exact (go rfl rfl iD E (go rfl rfl iC D (go rfl rfl iB C (go rfl rfl i6 B ⟨m6, w6, g6⟩)))).2

theorem load_afoot {c : Cfg} {R : Routes} {strict : Prop} (hy : Hyp c R strict) {orcs : List Orc}
    (hok : ∀ o ∈ orcs, o.Ok R) {r : State × ℕ × ℕ} (h : loadMany c orcs 0 0 (State.init c) = .ok r) :
    Afoot c R strict orcs.length r.1 := by
  have := loadMany_each (R := R) (P := fun _ ts s => Afoot c R strict ts s)
    (fun _ o ts assign s s' ho hP hl => hP.step hy ho hl) orcs [] 0 0 _ r hok (Afoot.init c R strict) h
  rw [loadMany_ts orcs 0 0 _ r h] at this
  simpa using this

end Verif.Tr

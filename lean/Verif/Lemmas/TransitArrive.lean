import Verif.Lemmas.TransitMore

/-!
# Arrivals and parking lots of a multimodal network: what happens in one interval
-/

namespace Verif.Tr
open Ults Curve

/-- An invariant of intervals is an invariant of loading. -/
theorem loadMany_each {c : Cfg} {R : Routes} {P : List Orc → ℕ → State → Prop}
    (hstep : ∀ pre o ts assign s s', o.Ok R → P pre ts s → loadOnce c o ts assign s = .ok s' →
      P (pre ++ [o]) (ts + 1) s') :
    ∀ (orcs pre : List Orc) (ts assign : ℕ) (s : State) (r : State × ℕ × ℕ),
      (∀ o ∈ orcs, o.Ok R) → P pre ts s → loadMany c orcs ts assign s = .ok r →
      P (pre ++ orcs) r.2.1 r.1
  | [], pre, ts, assign, s, r, _, hP, h => by
    simp only [loadMany, Res.ok.injEq] at h
    subst h
    simpa using hP
  | o :: os, pre, ts, assign, s, r, hok, hP, h => by
    simp only [loadMany, Res.bind_eq_ok'] at h
    obtain ⟨s1, h1, h⟩ := h
    have := loadMany_each hstep os (pre ++ [o]) (ts + 1) _ s1 r (fun x hx => hok x (List.mem_cons_of_mem _ hx))
      (hstep pre o ts assign s s1 (hok o List.mem_cons_self) hP h1) h
    simpa using this

/-! ### Arrivals -/

/-- How a passenger comes to a destination queue or to the passengers who have left. -/
inductive Reach (c : Cfg) (ts : ℕ) (ph : Phase) (s s' : State) (p : ℕ) (x : Place) : Prop where
  | old (mem : p ∈ s.loc x) (log : moves s'.log p = moves s.log p)
      (finish : (s'.pax p).finish = (s.pax p).finish) (dest : (s'.pax p).dest = (s.pax p).dest)
  | arrive (d l : ℕ) (at_ : x = .dest d) (known : d ∈ c.destIds) (door : l ∈ (c.dest d).walkIn)
      (phase : ph.stops = true) (log : s'.log = s.log ++ [⟨ts, p, some l, none⟩])
  | leave (d : ℕ) (at_ : x = .gone) (mem : p ∈ s.loc (.dest d)) (log : s'.log = s.log)
      (finish : (s'.pax p).finish = ts) (node : (c.dest (s'.pax p).dest).node = (c.dest d).node)

/-- The places considered. -/
def Place.ends : Place → Prop
  | .dest _ => True
  | .gone => True
  | _ => False

theorem Micro.reach {c : Cfg} {R : Routes} {strict : Prop} {ts : ℕ} {ph : Phase} {s s' : State}
    (hp : Placed s) (m : Micro c R strict ts ph s s') {x : Place} (hx : x.ends) {p : ℕ} (hm : p ∈ s'.loc x) :
    Reach c ts ph s s' p x := by
  have fld : ∀ {q : ℕ} {y : Pax} {tr : ℕ → Option (List ℕ)}, y.finish = (s.pax q).finish → y.dest = (s.pax q).dest → p ∈ s.loc x →
      Reach c ts ph s { s with pax := upd s.pax q y, tracker := tr } p x := fun {q y tr} he hd hm =>
    .old hm rfl (upd_field s.pax Pax.finish q y he p) (upd_field s.pax Pax.dest q y hd p)
  have hnew : p ∈ s.loc x → p ≠ s.num + 1 := fun hq => by
    have := (hp.mem _).1 ⟨_, hq⟩
    omega
  have shf : ∀ {q : ℕ} {a b : Place} {st : ℕ → ℕ → ℤ}, q ∈ s.loc a → ¬ b.ends → a ≠ b → p ∈ (s.shift q a b).loc x →
      Reach c ts ph s { s.shift q a b with stamp := st } p x := fun {q a b st} ha hb hab hm => by
    rcases (hp.shift_mem hab ha _ _).1 hm with ⟨_, rfl⟩ | ⟨_, hm⟩
    · exact absurd hx hb
    · exact .old hm rfl rfl rfl
  cases m with
  | release o ad junk d assign =>
    have hm : p ∈ s.loc x := by
      cases x <;> simp only [Place.ends] at hx <;> simpa [upd] using hm
    exact .old hm rfl (by simp [State.makePax, upd_other _ _ _ _ (hnew hm)])
      (by simp [State.makePax, upd_other _ _ _ _ (hnew hm)])
  | park orc k car _ =>
    rcases parkCar_num orc ts k s car with ⟨_, e⟩ | ⟨_, _, e⟩
    · rw [e] at hm
      refine .old hm ?_ (by rw [parkCar_pax orc ts k s car (hnew hm)])
        (by rw [parkCar_pax orc ts k s car (hnew hm)])
      unfold parkCar; simp only; split <;> rfl
    · have hm : p ∈ s.loc x := by
        rw [e] at hm
        cases x <;> simp only [Place.ends] at hx <;> simpa [upd] using hm
      refine .old hm ?_ (by rw [parkCar_pax orc ts k s car (hnew hm)])
        (by rw [parkCar_pax orc ts k s car (hnew hm)])
      unfold parkCar; simp only; split <;> rfl
  | lotRec k _ => exact .old hm rfl rfl rfl
  | path q _ ad => exact fld (tr := s.tracker) rfl rfl hm
  | enroll q a _ l rest mem start fixed new known chosen path => exact fld rfl rfl hm
  | startNext q a l mem start ad => exact fld (tr := s.tracker) rfl rfl hm
  | linkNext q l n mem ad => exact fld (tr := s.tracker) rfl rfl hm
  | busNext q b v i n mem ad at_ in_ cur => exact fld (tr := s.tracker) rfl rfl hm
  | fixNext q l a n rest mem fixed cur next track node => exact fld rfl rfl hm
  | fixEnd q l mem fixed track node => exact fld (tr := s.tracker) rfl rfl hm
  | fixBus q b v i n rest mem fixed at_ in_ cur next track => exact fld rfl rfl hm
  | wait q w _ => exact fld (tr := s.tracker) rfl rfl hm
  | enterLink q l mem _ _ => exact shf mem (by simp [Place.ends]) (by simp) hm
  | stamp q l mem _ => exact .old hm rfl rfl rfl
  | finishLink q l mem _ _ => exact shf (st := s.stamp) mem (by simp [Place.ends]) (by simp) hm
  | move q a b src dst s' mem phase _ legal cross =>
    have eloc : s'.loc = (s.shift q a b).loc := by rw [cross.eq]
    have elog : s'.log = s.log ++ [⟨ts, q, src, dst⟩] := by rw [cross.eq]; rfl
    have efin : (s'.pax p).finish = (s.pax p).finish := cross.field Pax.finish rfl p
    rw [eloc] at hm
    rcases (hp.shift_mem legal.ne mem _ _).1 hm with ⟨rfl, rfl⟩ | ⟨hne, hm⟩
    · cases legal with
      | arrive l d known door next => exact .arrive d l rfl known door (phase ⟨d, rfl⟩) elog
      | _ => simp [Place.ends] at hx
    · exact .old hm (by rw [elog, moves_append, if_neg (Ne.symm hne), List.append_nil]) efin (cross.field Pax.dest rfl p)
  | ride q b v i o s' mem at_ in_ out next cur cross =>
    have eloc : s'.loc = s.loc := by rw [cross.eq]
    have elog : s'.log = s.log ++ [⟨ts, q, some i, some o⟩] := by rw [cross.eq]
    rw [eloc] at hm
    have hne : q ≠ p := fun e => by
      subst e
      have := hp.uniq _ _ _ mem hm
      subst this
      exact hx
    exact .old hm (by rw [elog, moves_append, if_neg hne, List.append_nil]) (cross.field Pax.finish rfl p)
      (cross.field Pax.dest rfl p)
  | shuffle a L perm =>
    refine .old ?_ rfl rfl rfl
    by_cases e : x = a
    · subst e; simpa [perm.mem_iff] using hm
    · simpa [upd_other _ _ _ _ e] using hm
  | busIn _ v b k known route free add => exact .old hm rfl rfl rfl
  | busOut _ v b k at_ done add => exact .old hm rfl rfl rfl
  | book _ f g => exact .old hm rfl rfl rfl
  | leave q d s' mem hr =>
    obtain ⟨hnode, _, rfl⟩ := receivePax_ok hr
    rcases (hp.shift_mem (by simp) mem p x).1 hm with ⟨rfl, rfl⟩ | ⟨hne, hm⟩
    · exact .leave d rfl mem rfl (by simp) (by simpa using hnode)
    · exact .old hm rfl (by simp [upd_other _ _ _ _ hne]) (by simp [upd_other _ _ _ _ hne])
  | record q e _ _ => exact .old hm rfl rfl rfl

/-- A passenger at a destination arrived in the current interval, a passenger who left arrived when
its finish time says. -/
structure Arrived (c : Cfg) (ts : ℕ) (s : State) : Prop where
  dest : ∀ d p, p ∈ s.loc (.dest d) → d ∈ c.destIds ∧
    ∃ l ∈ (c.dest d).walkIn, (moves s.log p).getLast? = some ⟨ts, p, some l, none⟩
  gone : ∀ p ∈ s.loc .gone, ∃ t d l, d ∈ c.destIds ∧ l ∈ (c.dest d).walkIn ∧
    (c.dest (s.pax p).dest).node = (c.dest d).node ∧
    (moves s.log p).getLast? = some ⟨t, p, some l, none⟩ ∧ (t : ℤ) = (s.pax p).finish

theorem Arrived.micro {c : Cfg} {R : Routes} {strict : Prop} {ts : ℕ} {ph : Phase} {s s' : State}
    (h : Arrived c ts s) (hp : Placed s) (m : Micro c R strict ts ph s s') : Arrived c ts s' := by
  refine ⟨fun d p hm => ?_, fun p hm => ?_⟩
  · cases m.reach hp (x := .dest d) trivial hm with
    | old mem log finish dest => rw [log]; exact h.dest d p mem
    | arrive d' l at_ known door phase log =>
      cases at_
      refine ⟨known, l, door, ?_⟩
      rw [log, moves_append, if_pos rfl]; simp
    | leave d' at_ mem log finish node => simp at at_
  · cases m.reach hp (x := .gone) trivial hm with
    | old mem log finish dest => rw [log, finish, dest]; exact h.gone p mem
    | arrive d' l at_ known door phase log => simp at at_
    | leave d at_ mem log finish node =>
      obtain ⟨h0, l, h1, h2⟩ := h.dest d p mem
      exact ⟨ts, d, l, h0, h1, node, by rw [log]; exact h2, by rw [finish]⟩

/-- Destination queues do not grow after the first part of an interval. -/
theorem Steps.dest_sub {c : Cfg} {R : Routes} {strict : Prop} (hy : Hyp c R strict) {ts : ℕ} {ph : Phase}
    (hph : ph.stops = false) {s s' : State} (hi : Inv c R strict s)
    (h : Steps c R strict ts ph s s') (d : ℕ) : ∀ p ∈ s'.loc (.dest d), p ∈ s.loc (.dest d) := by
  have := Steps.inv (P := fun t => Inv c R strict t ∧ ∀ p ∈ t.loc (.dest d), p ∈ s.loc (.dest d))
    (fun t t' ht m => ⟨ht.1.micro hy m, fun p hp => by
      cases m.reach ht.1.placed (x := .dest d) trivial hp with
      | old mem log finish dest => exact ht.2 p mem
      | arrive d' l at_ known door phase log => rw [hph] at phase; simp at phase
      | leave d' at_ mem log finish node => simp at at_⟩) h ⟨hi, fun _ x => x⟩
  exact this.2

theorem receiveFold_sub {c : Cfg} {ts d : ℕ} : ∀ (L : List ℕ) (s s' : State), (s.loc (.dest d)).Nodup →
    Res.foldlM (receivePax c ts d) s L = .ok s' →
    ∀ p ∈ s'.loc (.dest d), p ∈ s.loc (.dest d) ∧ p ∉ L
  | [], s, s', _, h, p, hp => by
    simp only [Res.foldlM_nil, Res.ok.injEq] at h
    subst h
    exact ⟨hp, by simp⟩
  | q :: L, s, s', hn, h, p, hp => by
    rw [Res.foldlM_cons, Res.bind_eq_ok] at h
    obtain ⟨t, h1, h⟩ := h
    obtain ⟨_, _, rfl⟩ := receivePax_ok h1
    have e : (s.shift q (.dest d) .gone).loc (.dest d) = (s.loc (.dest d)).erase q := by
      rw [shift_loc s q (by simp)]; simp
    have := receiveFold_sub L _ s' (by exact e ▸ hn.erase q) h p hp
    have hm : p ∈ (s.loc (.dest d)).erase q := e ▸ this.1
    rw [hn.mem_erase_iff] at hm
    exact ⟨hm.2, by simp [hm.1, this.2]⟩

theorem receive_empty {c : Cfg} {R : Routes} {strict : Prop} (hy : Hyp c R strict) {orc : Orc} {ts d : ℕ}
    {s s' : State} (hs : Inv c R strict s)
    (h : receive c orc ts s d = .ok s') : s'.loc (.dest d) = [] := by
  unfold receive at h
  simp only at h
  have key : ∀ t, Inv c R strict t → Res.foldlM (receivePax c ts d) t (t.loc (.dest d)) = .ok s' →
      s'.loc (.dest d) = [] := fun t ht h => by
    refine List.eq_nil_iff_forall_not_mem.2 fun p hp => ?_
    have := receiveFold_sub _ t s' (ht.placed.nodup _) h p hp
    exact this.2 this.1
  split at h
  · exact key s hs h
  · rename_i k hk
    exact key _ (hs.steps hy ((parkCars_steps (ph := .any) (.inr rfl) (ts := ts) (orc := orc) (k := k) (orc.cars k) s).tail
      (.lotRec k (.inr rfl)))) h

theorem receiveAll_empty {c : Cfg} {R : Routes} {strict : Prop} (hy : Hyp c R strict) {orc : Orc} {ts : ℕ} :
    ∀ (L : List ℕ) (s s' : State), Inv c R strict s → Res.foldlM (receive c orc ts) s L = .ok s' →
    ∀ d, d ∈ L ∨ s.loc (.dest d) = [] → s'.loc (.dest d) = []
  | [], s, s', _, h, d, hd => by
    simp only [Res.foldlM_nil, Res.ok.injEq] at h
    subst h
    simpa using hd
  | x :: L, s, s', hs, h, d, hd => by
    rw [Res.foldlM_cons, Res.bind_eq_ok] at h
    obtain ⟨t, h1, h⟩ := h
    have st := receive_steps (R := R) (strict := strict) (ph := .recv) hy (.inl rfl) hs h1
    refine receiveAll_empty hy L t s' (hs.steps hy st) h d ?_
    by_cases e : d = x
    · subst e; exact .inr (receive_empty hy hs h1)
    · rcases hd with hd | hd
      · exact .inl (by simpa [e] using hd)
      · right
        refine List.eq_nil_iff_forall_not_mem.2 fun p hp => ?_
        have := Steps.dest_sub hy rfl hs st d p hp
        rw [hd] at this
        simp at this

/-- The invariants between intervals. -/
structure Full (c : Cfg) (R : Routes) (strict : Prop) (ts : ℕ) (s : State) : Prop where
  inv : Inv c R strict s
  more : More c ts s
  arrived : Arrived c ts s
  empty : ∀ d, s.loc (.dest d) = []
  past : ∀ e ∈ s.log, e.t < ts

theorem Full.step {c : Cfg} {R : Routes} {strict : Prop} (hy : Hyp c R strict) {o : Orc} (ho : o.Ok R)
    {ts assign : ℕ} {s s' : State} (h : Full c R strict ts s) (hl : loadOnce c o ts assign s = .ok s') :
    Full c R strict (ts + 1) s' := by
  obtain ⟨t, w, u, v, h1, h2, _, h2', h3, h4, h5⟩ := loadOnce_phases hy ho h.inv hl
  have key : ∀ {ph a b}, Steps c R strict ts ph a b → Inv c R strict a ∧ More c ts a ∧ Arrived c ts a →
      Inv c R strict b ∧ More c ts b ∧ Arrived c ts b := fun hst ha =>
    Steps.inv (P := fun a => Inv c R strict a ∧ More c ts a ∧ Arrived c ts a) (fun _ _ hm m =>
      ⟨hm.1.micro hy m, hm.2.1.micro hy hm.1 m, hm.2.2.micro hm.1.placed m⟩) hst ha
  have k2 := key h2' <| key h2 (key h1 ⟨h.inv, h.more, h.arrived⟩)
  have k3 := key h4 k2
  have k4 := key h5 k3
  have e : ∀ d, s'.loc (.dest d) = [] := fun d => by
    have : v.loc (.dest d) = [] := by
      refine receiveAll_empty hy _ u v k2.1 h3 d ?_
      by_cases hd : d ∈ c.destIds
      · exact .inl hd
      · exact .inr (List.eq_nil_iff_forall_not_mem.2 fun p hp => hd (k2.2.2.dest d p hp).1)
    refine List.eq_nil_iff_forall_not_mem.2 fun p hp => ?_
    have := Steps.dest_sub hy rfl k3.1 h5 d p hp
    simp_all
  obtain ⟨hi, hm, ha⟩ := k4
  exact ⟨hi, ⟨hm.trips, ⟨hm.curves.nIn, hm.curves.nOut, fun e he => Nat.le_succ_of_le (hm.curves.time e he),
    hm.curves.order, hm.curves.count, hm.curves.le⟩, hm.factory, hm.buses⟩,
    ⟨fun d p hp => by rw [e d] at hp; simp at hp, ha.gone⟩, e,
    fun e he => Nat.lt_succ_of_le (hm.curves.time e he)⟩

theorem Full.init (c : Cfg) (R : Routes) (strict : Prop) : Full c R strict 0 (State.init c) :=
  ⟨Inv.init c R strict, More.init c, ⟨by simp [State.init], by simp [State.init]⟩, by simp [State.init],
    by simp [State.init]⟩

theorem loadMany_ts {c : Cfg} : ∀ (orcs : List Orc) (ts assign : ℕ) (s : State) (r : State × ℕ × ℕ),
    loadMany c orcs ts assign s = .ok r → r.2.1 = ts + orcs.length
  | [], ts, assign, s, r, h => by
    simp only [loadMany, Res.ok.injEq] at h
    subst h
    simp
  | o :: os, ts, assign, s, r, h => by
    simp only [loadMany, Res.bind_eq_ok'] at h
    obtain ⟨s1, h1, h⟩ := h
    rw [loadMany_ts os _ _ _ r h, List.length_cons]
    omega

/-- The invariants hold after every loading. -/
theorem load_full {c : Cfg} {R : Routes} {strict : Prop} (hy : Hyp c R strict) {orcs : List Orc}
    (hok : ∀ o ∈ orcs, o.Ok R) {r : State × ℕ × ℕ} (h : loadMany c orcs 0 0 (State.init c) = .ok r) :
    Full c R strict orcs.length r.1 := by
  have := loadMany_each (R := R) (P := fun _ ts s => Full c R strict ts s)
    (fun _ o ts assign s s' ho hP hl => hP.step hy ho hl) orcs [] 0 0 _ r hok (Full.init c R strict) h
  rw [loadMany_ts orcs 0 0 _ r h] at this
  simpa using this

end Verif.Tr

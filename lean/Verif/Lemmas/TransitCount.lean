import Verif.Lemmas.TransitArrive

/-!
# What a loading of a multimodal network counts
-/

namespace Verif.Tr
open Ults Curve

theorem Micro.enrouteNum {c : Cfg} {R : Routes} {strict : Prop} {ts : ℕ} {ph : Phase} {s s' : State}
    (h1 : ph ≠ .final) (h2 : ph ≠ .any) (m : Micro c R strict ts ph s s') : s'.enrouteNum = s.enrouteNum := by
  cases m with
  | park orc k car h =>
    unfold parkCar
    simp only
    split <;> rfl
  | move p a b src dst s' mem phase _ legal cross => rw [cross.eq]; rfl
  | ride p b v i o s' mem at_ in_ out next cur cross => rw [cross.eq]
  | leave p d s' mem h =>
    obtain ⟨_, _, rfl⟩ := receivePax_ok h
    rfl
  | record q e keep _ => exact keep h1 h2
  | _ => rfl

theorem Steps.enrouteNum {c : Cfg} {R : Routes} {strict : Prop} {ts : ℕ} {ph : Phase} {s s' : State}
    (h1 : ph ≠ .final) (h2 : ph ≠ .any) (m : Steps c R strict ts ph s s') : s'.enrouteNum = s.enrouteNum :=
  m.inv (P := fun t => t.enrouteNum = s.enrouteNum) (fun _ _ h m => (m.enrouteNum h1 h2).trans h) rfl

/-- What an interval does to start and finish times. -/
structure Since (ts : ℕ) (s s' : State) : Prop where
  num : s.num ≤ s'.num
  old : ∀ p, 1 ≤ p → p ≤ s.num → (s'.pax p).start = (s.pax p).start ∧
    ((s'.pax p).finish = (s.pax p).finish ∨ ((s.pax p).finish = -1 ∧ (s'.pax p).finish = ts))
  new : ∀ p, s.num < p → p ≤ s'.num → (s'.pax p).start = ts ∧ ((s'.pax p).finish = -1 ∨ (s'.pax p).finish = ts)

theorem Since.refl (ts : ℕ) (s : State) : Since ts s s :=
  ⟨le_refl _, fun _ _ _ => ⟨rfl, .inl rfl⟩, fun _ h1 h2 => by omega⟩

theorem Since.trans {ts : ℕ} {s t u : State} (h : Since ts s t) (h' : Since ts t u) : Since ts s u := by
  refine ⟨h.num.trans h'.num, fun p h1 h2 => ?_, fun p h1 h2 => ?_⟩
  · obtain ⟨a1, a2⟩ := h.old p h1 h2
    obtain ⟨b1, b2⟩ := h'.old p h1 (h2.trans h.num)
    refine ⟨b1.trans a1, ?_⟩
    rcases a2 with a2 | a2 <;> rcases b2 with b2 | b2 <;> omega
  · by_cases e : p ≤ t.num
    · obtain ⟨a1, a2⟩ := h.new p h1 e
      obtain ⟨b1, b2⟩ := h'.old p (by omega) e
      refine ⟨b1.trans a1, ?_⟩
      rcases a2 with a2 | a2 <;> rcases b2 with b2 | b2 <;> omega
    · exact h'.new p (by omega) h2

theorem Eff.since {c : Cfg} {ts : ℕ} {s s' : State} (hf : Factory s) (hp : Placed s) (m : Eff c ts s s') :
    Since ts s s' := by
  have still : ∀ {t}, Still s t → Since ts s t := fun q =>
    ⟨q.num.ge, fun p _ _ => ⟨q.start p, .inl (q.finish p)⟩, fun p h1 h2 => by rw [q.num] at h2; omega⟩
  cases m with
  | quiet q => exact still q.still
  | made q =>
    refine ⟨by rw [q.num]; omega, fun p h1 h2 => ?_, fun p h1 h2 => ?_⟩
    · rw [q.old p (by omega)]; exact ⟨rfl, .inl rfl⟩
    · rw [q.num] at h2
      obtain rfl : p = s.num + 1 := by omega
      exact ⟨q.start, .inl q.finish⟩
  | cross p a src dst t mem cur q x => exact still (q.cross x)
  | leave p d mem q =>
    refine ⟨q.num.ge, fun r h1 h2 => ⟨(q.field r).2.1, ?_⟩, fun r h1 h2 => by rw [q.num] at h2; omega⟩
    by_cases e : r = p
    · subst e
      exact .inr ⟨hf.finish r fun hg => by have := hp.uniq _ _ _ hg mem; simp at this, q.finish⟩
    · exact .inl (by rw [q.other r e])

/-- All that is known at any time. -/
structure Now (c : Cfg) (R : Routes) (strict : Prop) (ts : ℕ) (s : State) : Prop where
  inv : Inv c R strict s
  more : More c ts s
  arrived : Arrived c ts s
  ended : ∀ e ∈ s.log, e.dst = none → e.veh ∈ s.loc .gone ∨ ∃ d, e.veh ∈ s.loc (.dest d)

theorem Micro.ends {c : Cfg} {R : Routes} {strict : Prop} {ts : ℕ} {ph : Phase} {s s' : State}
    (hp : Placed s) (m : Micro c R strict ts ph s s') {p : ℕ} (h : p ∈ s.loc .gone ∨ ∃ d, p ∈ s.loc (.dest d)) :
    p ∈ s'.loc .gone ∨ ∃ d, p ∈ s'.loc (.dest d) := by
  have same : (∀ x : Place, x.ends → ∀ q ∈ s.loc x, q ∈ s'.loc x) →
      p ∈ s'.loc .gone ∨ ∃ d, p ∈ s'.loc (.dest d) := fun hk => by
    rcases h with h | ⟨d, h⟩
    · exact .inl (hk .gone trivial p h)
    · exact .inr ⟨d, hk (.dest d) trivial p h⟩
  have eql : s'.loc = s.loc → p ∈ s'.loc .gone ∨ ∃ d, p ∈ s'.loc (.dest d) := fun e =>
    same fun x _ q hq => by rw [e]; exact hq
  have shf : ∀ {q : ℕ} {a b : Place}, q ∈ s.loc a → ¬ a.ends → a ≠ b → s'.loc = (s.shift q a b).loc →
      p ∈ s'.loc .gone ∨ ∃ d, p ∈ s'.loc (.dest d) := fun {q a b} ha hb hab e => same fun x hx r hr => by
    rw [e]
    refine (hp.shift_mem hab ha _ _).2 (.inr ⟨?_, hr⟩)
    rintro rfl
    have := hp.uniq _ _ _ ha hr
    subst this
    exact hb hx
  cases m with
  | release o ad junk d assign =>
    refine same fun x hx q hq => ?_
    cases x <;> simp only [Place.ends] at hx <;> simpa [upd] using hq
  | park orc k car _ =>
    rcases parkCar_num orc ts k s car with ⟨_, e⟩ | ⟨_, _, e⟩
    · exact eql (by rw [e])
    · refine same fun x hx q hq => ?_
      rw [e]
      cases x <;> simp only [Place.ends] at hx <;> simpa [upd] using hq
  | enterLink q l mem _ _ => exact shf mem (by simp [Place.ends]) (b := .walking l) (by simp) rfl
  | finishLink q l mem _ _ => exact shf mem (by simp [Place.ends]) (b := .finished l) (by simp) rfl
  | move q a b src dst s' mem phase _ legal cross =>
    refine shf mem ?_ legal.ne (by rw [cross.eq])
    cases legal <;> simp [Place.ends]
  | ride q b v i o s' mem at_ in_ out next cur cross => exact eql (by rw [cross.eq])
  | shuffle a L perm =>
    refine same fun x hx q hq => ?_
    by_cases e : x = a
    · subst e; simpa [perm.mem_iff] using hq
    · simpa [upd_other _ _ _ _ e] using hq
  | leave q d s' mem hr =>
    obtain ⟨hnode, _, rfl⟩ := receivePax_ok hr
    by_cases e : p = q
    · subst e
      exact .inl ((hp.shift_mem (b := .gone) (by simp) mem p .gone).2 (.inl ⟨rfl, rfl⟩))
    · rcases h with h | ⟨d', h⟩
      · exact .inl ((hp.shift_mem (b := .gone) (by simp) mem p .gone).2 (.inr ⟨e, h⟩))
      · exact .inr ⟨d', (hp.shift_mem (b := .gone) (by simp) mem p _).2 (.inr ⟨e, h⟩)⟩
  | _ => exact eql rfl

theorem Micro.log_end {c : Cfg} {R : Routes} {strict : Prop} {ts : ℕ} {ph : Phase} {s s' : State}
    (hp : Placed s) (m : Micro c R strict ts ph s s') : ∀ e ∈ s'.log, e ∈ s.log ∨ e.dst ≠ none ∨ ∃ d, e.veh ∈ s'.loc (.dest d) := by
  intro e he
  cases m with
  | park orc k car _ =>
    left
    have : (parkCar orc ts k s car).log = s.log := by
      unfold parkCar
      simp only
      split <;> rfl
    rw [this] at he; exact he
  | move q a b src dst s' mem phase _ legal cross =>
    have elog : s'.log = s.log ++ [⟨ts, q, src, dst⟩] := by rw [cross.eq]; rfl
    rw [elog, List.mem_append, List.mem_singleton] at he
    rcases he with he | rfl
    · exact .inl he
    · right
      have hm : q ∈ s'.loc b := by
        rw [cross.eq]; exact (hp.shift_mem legal.ne mem q b).2 (.inl ⟨rfl, rfl⟩)
      cases legal with
      | arrive l d known door next => exact .inr ⟨d, hm⟩
      | _ => simp
  | ride q b v i o s' mem at_ in_ out next cur cross =>
    have elog : s'.log = s.log ++ [⟨ts, q, some i, some o⟩] := by rw [cross.eq]
    rw [elog, List.mem_append, List.mem_singleton] at he
    rcases he with he | rfl
    · exact .inl he
    · exact .inr (.inl (by simp))
  | leave q d s' mem hr =>
    obtain ⟨hnode, _, rfl⟩ := receivePax_ok hr
    exact .inl he
  | _ => exact .inl he

theorem Now.micro {c : Cfg} {R : Routes} {strict : Prop} (hy : Hyp c R strict) {ts : ℕ} {ph : Phase} {s s' : State}
    (h : Now c R strict ts s) (m : Micro c R strict ts ph s s') : Now c R strict ts s' :=
  ⟨h.inv.micro hy m, h.more.micro hy h.inv m, h.arrived.micro h.inv.placed m, fun e he hd => by
    rcases m.log_end h.inv.placed e he with he | he | he
    · exact m.ends h.inv.placed (h.ended e he hd)
    · exact absurd hd he
    · exact .inr he⟩

theorem Steps.since {c : Cfg} {R : Routes} {strict : Prop} (hy : Hyp c R strict) {ts : ℕ} {ph : Phase} {s s' : State}
    (hi : Now c R strict ts s) (h : Steps c R strict ts ph s s') : Now c R strict ts s' ∧ Since ts s s' :=
  h.inv (P := fun t => Now c R strict ts t ∧ Since ts s t) (fun _ _ ht m =>
    ⟨ht.1.micro hy m,
      ht.2.trans ((m.eff ht.1.inv.located ht.1.inv.stops).since ht.1.more.factory ht.1.inv.placed)⟩) ⟨hi, Since.refl ts s⟩

theorem loadOnce_record {c : Cfg} {R : Routes} {strict : Prop} (hy : Hyp c R strict) {orc : Orc} (ho : orc.Ok R)
    {ts assign : ℕ} {s s' : State} (hs : Now c R strict ts s) (h : loadOnce c orc ts assign s = .ok s') :
    ∃ t, Now c R strict ts t ∧ Since ts s t ∧ t.enrouteNum = s.enrouteNum ∧ s' = recordEnroute t := by
  simp only [loadOnce, afterBuses, Res.bind_eq_ok', Res.ok.injEq] at h
  obtain ⟨w, h1, u, h2, s9, h9, s10, h10, s11, h11, rfl⟩ := h
  obtain ⟨t, a1, a2⟩ := beforeBuses_phases hy ho hs.inv h1
  obtain ⟨i1, n1⟩ := a1.since hy hs
  obtain ⟨i2, n2⟩ := a2.since hy i1
  have a3 := buses_steps hy ho (fun _ h => h) i2.inv h2
  obtain ⟨i3, n3⟩ := a3.since hy i2
  have a9 : Steps c R strict ts .recv u s9 :=
    steps_each hy (fun _ _ _ _ hi h => receive_steps hy (.inl rfl) hi h) i3.inv h9
  obtain ⟨i9, n9⟩ := a9.since hy i3
  have a10 : Steps c R strict ts .early s9 s10 := lotRouting_steps hy ho i9.inv h10
  obtain ⟨i10, n10⟩ := a10.since hy i9
  have a11 : Steps c R strict ts .early s10 s11 :=
    steps_each hy (fun _ _ _ _ hi h => lotEvolve_steps hy hi h) i10.inv h11
  obtain ⟨i11, n11⟩ := a11.since hy i10
  refine ⟨s11, i11, ((((n1.trans n2).trans n3).trans n9).trans n10).trans n11, ?_, rfl⟩
  rw [a11.enrouteNum (by simp) (by simp), a10.enrouteNum (by simp) (by simp), a9.enrouteNum (by simp) (by simp),
    a3.enrouteNum (by simp) (by simp), a2.enrouteNum (by simp) (by simp), a1.enrouteNum (by simp) (by simp)]

/-- Start and finish times, and the record of passengers underway. -/
structure Records (ts : ℕ) (s : State) : Prop where
  start : ∀ p, 1 ≤ p → p ≤ s.num → 0 ≤ (s.pax p).start ∧ (s.pax p).start < ts
  finish : ∀ p, 1 ≤ p → p ≤ s.num → (s.pax p).finish = -1 ∨
    ((s.pax p).start ≤ (s.pax p).finish ∧ (s.pax p).finish < ts)
  record : s.enrouteNum = (List.range ts).map fun i => (underway s i : ℤ)

theorem Since.underway {ts : ℕ} {s s' : State} (h : Since ts s s')
    (hf : ∀ p, 1 ≤ p → p ≤ s.num → (s.pax p).finish = -1 ∨ 0 ≤ (s.pax p).finish) {i : ℕ} (hi : i < ts) :
    underway s' i = underway s i := by
  unfold Tr.underway
  congr 1
  ext p
  simp only [Finset.mem_filter, Finset.mem_Icc]
  constructor
  · rintro ⟨⟨h1, h2⟩, h3, h4⟩
    by_cases e : p ≤ s.num
    · obtain ⟨a1, a2⟩ := h.old p h1 e
      have := hf p h1 e
      refine ⟨⟨h1, e⟩, by omega, ?_⟩
      rcases a2 with a2 | a2 <;> omega
    · have := (h.new p (by omega) h2).1
      omega
  · rintro ⟨⟨h1, h2⟩, h3, h4⟩
    obtain ⟨a1, a2⟩ := h.old p h1 h2
    refine ⟨⟨h1, h2.trans h.num⟩, by omega, ?_⟩
    rcases a2 with a2 | a2 <;> omega

theorem Records.step {c : Cfg} {R : Routes} {strict : Prop} (hy : Hyp c R strict) {orc : Orc} (ho : orc.Ok R)
    {ts assign : ℕ} {s s' : State} (hs : Now c R strict ts s) (hr : Records ts s)
    (h : loadOnce c orc ts assign s = .ok s') : Records (ts + 1) s' := by
  obtain ⟨t, it, n, e, rfl⟩ := loadOnce_record hy ho hs h
  have mt := it.more
  have h1 : ∀ p, 1 ≤ p → p ≤ t.num → 0 ≤ (t.pax p).start ∧ (t.pax p).start < ((ts + 1 : ℕ) : ℤ) := fun p p1 p2 => by
    by_cases e : p ≤ s.num
    · have := hr.start p p1 e
      have := (n.old p p1 e).1
      push_cast; omega
    · have := (n.new p (by omega) p2).1
      push_cast; omega
  have h2 : ∀ p, 1 ≤ p → p ≤ t.num → (t.pax p).finish = -1 ∨
      ((t.pax p).start ≤ (t.pax p).finish ∧ (t.pax p).finish < ((ts + 1 : ℕ) : ℤ)) := fun p p1 p2 => by
    by_cases e : p ≤ s.num
    · have a1 := hr.start p p1 e
      have a2 := hr.finish p p1 e
      obtain ⟨b1, b2⟩ := n.old p p1 e
      push_cast; omega
    · obtain ⟨b1, b2⟩ := n.new p (by omega) p2
      push_cast; omega
  refine ⟨h1, h2, ?_⟩
  have key : ∀ i, underway (recordEnroute t) i = underway t i := fun _ => rfl
  simp only [key]
  simp only [recordEnroute]
  rw [e, hr.record, List.range_succ, List.map_append]
  congr 1
  · refine List.map_congr_left fun i hi => ?_
    rw [n.underway (fun p p1 p2 => ?_) (List.mem_range.1 hi)]
    have := hr.finish p p1 p2
    have := hr.start p p1 p2
    omega
  · simp only [List.map_cons, List.map_nil]
    have hz : t.map.countP (fun p => decide ((t.pax p).finish > 0)) = 0 := by
      refine List.countP_eq_zero.2 fun p hp => ?_
      have := mt.factory.finish p (((mt.factory.map p).1 hp).2)
      simp only [decide_eq_true_eq]; omega
    rw [hz]
    have hl : t.map.length = underway t ts := by
      have : t.map.toFinset = (Finset.Icc 1 t.num).filter fun p =>
          (t.pax p).start ≤ (ts : ℤ) ∧ ¬ (0 ≤ (t.pax p).finish ∧ (t.pax p).finish ≤ (ts : ℤ)) := by
        ext p
        simp only [List.mem_toFinset, mt.factory.map, Finset.mem_filter, Finset.mem_Icc]
        constructor
        · rintro ⟨⟨p1, p2⟩, p3⟩
          have a1 := h1 p p1 p2
          have a2 := mt.factory.finish p p3
          exact ⟨⟨p1, p2⟩, by push_cast at a1; omega, by omega⟩
        · rintro ⟨⟨p1, p2⟩, p3, p4⟩
          refine ⟨⟨p1, p2⟩, fun hg => ?_⟩
          have a1 := h1 p p1 p2
          have a2 := h2 p p1 p2
          have a3 : (t.pax p).finish ≠ -1 := by
            obtain ⟨x, _, _, _, _, _, _, e⟩ := it.arrived.gone p hg
            omega
          push_cast at a1 a2
          omega
      unfold underway
      rw [← this, List.toFinset_card_of_nodup mt.factory.nodup]
    rw [hl]; simp

theorem Records.init (c : Cfg) : Records 0 (State.init c) :=
  ⟨fun p h1 h2 => by simp only [State.init] at h2; omega, fun p h1 h2 => by simp only [State.init] at h2; omega, rfl⟩

/-- What is known between intervals. -/
structure Tally (c : Cfg) (R : Routes) (strict : Prop) (ts : ℕ) (s : State) : Prop where
  full : Full c R strict ts s
  ended : ∀ e ∈ s.log, e.dst = none → e.veh ∈ s.loc .gone
  records : Records ts s

theorem load_tally {c : Cfg} {R : Routes} {strict : Prop} (hy : Hyp c R strict) {orcs : List Orc}
    (hok : ∀ o ∈ orcs, o.Ok R) {r : State × ℕ × ℕ} (h : loadMany c orcs 0 0 (State.init c) = .ok r) :
    Tally c R strict orcs.length r.1 := by
  have := loadMany_each (R := R) (P := fun _ ts s => Tally c R strict ts s)
    (fun _ o ts assign s s' ho hP hl => by
      have now : Now c R strict ts s := ⟨hP.full.inv, hP.full.more, hP.full.arrived, fun e he hd => .inl (hP.ended e he hd)⟩
      have f := hP.full.step hy ho hl
      refine ⟨f, fun e he hd => ?_, hP.records.step hy ho now hl⟩
      obtain ⟨t, it, _, _, rfl⟩ := loadOnce_record hy ho now hl
      rcases it.ended e he hd with h | ⟨d, h⟩
      · exact h
      · have := f.empty d
        have e2 : (recordEnroute t).loc (.dest d) = t.loc (.dest d) := rfl
        rw [← e2, this] at h
        simp at h) orcs [] 0 0 _ r hok
    ⟨Full.init c R strict, by simp [State.init], Records.init c⟩ h
  rw [loadMany_ts orcs 0 0 _ r h] at this
  simpa using this

end Verif.Tr

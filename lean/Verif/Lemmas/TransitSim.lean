import Verif.Lemmas.TransitPath

/-!
# Every loading is a sequence of elementary steps
-/

namespace Verif.Tr
open Ults Curve

section Loops
variable {c : Cfg} {R : Routes} {strict : Prop} {ts : ℕ} {ph : Phase}

theorem steps_fold {α : Type} {f : State → α → Res State} {Q : State → Prop} : ∀ (L : List α)
    (_ : ∀ s x s', x ∈ L → Q s → f s x = .ok s' → Steps c R strict ts ph s s' ∧ Q s') (s s' : State),
    Q s → Res.foldlM f s L = .ok s' → Steps c R strict ts ph s s' ∧ Q s'
  | [], _, s, s', hs, h => by
    simp only [Res.foldlM_nil, Res.ok.injEq] at h
    subst h
    exact ⟨.refl, hs⟩
  | x :: L, hf, s, s', hs, h => by
    rw [Res.foldlM_cons, Res.bind_eq_ok] at h
    obtain ⟨s1, h1, h⟩ := h
    obtain ⟨a1, q1⟩ := hf s x s1 List.mem_cons_self hs h1
    obtain ⟨a2, q2⟩ := steps_fold L (fun s y s' hy => hf s y s' (List.mem_cons_of_mem _ hy)) s1 s' q1 h
    exact ⟨a1.trans a2, q2⟩

theorem steps_loop {f : State → ℕ → Res State} {Q : State → Prop} (a : Place)
    (hf : ∀ s p s', Q s → p ∈ s.loc a → f s p = .ok s' →
      Steps c R strict ts ph s s' ∧ Q s' ∧ ∀ q, q ≠ p → q ∈ s.loc a → q ∈ s'.loc a) :
    ∀ (L : List ℕ) (s s' : State), L.Nodup → (∀ p ∈ L, p ∈ s.loc a) → Q s → Res.foldlM f s L = .ok s' →
      Steps c R strict ts ph s s' ∧ Q s'
  | [], s, s', _, _, hs, h => by
    simp only [Res.foldlM_nil, Res.ok.injEq] at h
    subst h
    exact ⟨.refl, hs⟩
  | p :: L, s, s', hn, hm, hs, h => by
    rw [Res.foldlM_cons, Res.bind_eq_ok] at h
    obtain ⟨s1, h1, h⟩ := h
    rw [List.nodup_cons] at hn
    obtain ⟨a1, q1, k1⟩ := hf s p s1 hs (hm p List.mem_cons_self) h1
    obtain ⟨a2, q2⟩ := steps_loop a hf L s1 s' hn.2 (fun q hq => k1 q (by rintro rfl; exact hn.1 hq)
      (hm q (List.mem_cons_of_mem _ hq))) q1 h
    exact ⟨a1.trans a2, q2⟩

theorem Steps.one {s s' : State} (m : Micro c R strict ts ph s s') : Steps c R strict ts ph s s' :=
  Relation.ReflTransGen.single m

theorem Steps.cons {s t u : State} (m : Micro c R strict ts ph s t) (h : Steps c R strict ts ph t u) :
    Steps c R strict ts ph s u :=
  Relation.ReflTransGen.head m h

/-- The loop over a whole container. -/
theorem steps_all {f : State → ℕ → Res State} (hy : Hyp c R strict) (a : Place)
    (hf : ∀ s p s', Inv c R strict s → p ∈ s.loc a → f s p = .ok s' →
      Steps c R strict ts ph s s' ∧ ∀ q, q ≠ p → q ∈ s.loc a → q ∈ s'.loc a) {s s' : State}
    (hs : Inv c R strict s) (h : Res.foldlM f s (s.loc a) = .ok s') : Steps c R strict ts ph s s' :=
  (steps_loop (Q := Inv c R strict) a (fun s p s' hq hp h => by
    obtain ⟨h1, h2⟩ := hf s p s' hq hp h
    exact ⟨h1, hq.steps hy h1, h2⟩) _ s s' (hs.placed.nodup a) (fun _ h => h) hs h).1

/-- The loop over a list of links, stops, ... -/
theorem steps_each {α : Type} {f : State → α → Res State} (hy : Hyp c R strict) {L : List α}
    (hf : ∀ s x s', x ∈ L → Inv c R strict s → f s x = .ok s' → Steps c R strict ts ph s s')
    {s s' : State} (hs : Inv c R strict s) (h : Res.foldlM f s L = .ok s') :
    Steps c R strict ts ph s s' :=
  (steps_fold (Q := Inv c R strict) L (fun s x s' hx hq h => by
    have := hf s x s' hx hq h
    exact ⟨this, hq.steps hy this⟩) s s' hs h).1

theorem keep_of_loc {a : Place} {p : ℕ} {s s' : State} (h : s'.loc = s.loc) :
    ∀ q, q ≠ p → q ∈ s.loc a → q ∈ s'.loc a := fun q _ hq => by rw [h]; exact hq

/-- Moving `p` keeps the others. -/
theorem keep_of_shift {a b x : Place} {p : ℕ} {s s' : State} (hp : Placed s) (hab : a ≠ b) (hm : p ∈ s.loc a)
    (h : s'.loc = (s.shift p a b).loc) : ∀ q, q ≠ p → q ∈ s.loc x → q ∈ s'.loc x := fun q hq hx => by
  rw [h]; exact (hp.shift_mem hab hm q x).2 (.inr ⟨hq, hx⟩)

end Loops

theorem upd_upd {κ v : Type} [DecidableEq κ] (f : κ → v) (k : κ) (x y : v) :
    upd (upd f k x) k y = upd f k y := by
  funext q
  by_cases h : q = k
  · subst h; simp
  · simp [upd_other _ _ _ _ h]

section Sim
variable {c : Cfg} {R : Routes} {strict : Prop} {ts : ℕ} {ph : Phase}

/-! ### Origins -/

theorem releasePax_steps {o : ℕ} {orc : Orc} {d : ℕ} : ∀ (n : ℕ) (s : State),
    Steps c R strict ts ph s (releasePax c o orc ts d n s)
  | 0, s => .refl
  | n + 1, s => by
    unfold releasePax
    exact .cons (.release o _ _ d _) (releasePax_steps n _)

theorem releaseDests_steps {o : ℕ} {orc : Orc} {assign : ℕ} : ∀ (L : List (ℕ × (ℕ → ℚ))) (k : ℕ)
    (s s' : State), releaseDests c o orc ts assign k L s = .ok s' → Steps c R strict ts ph s s'
  | [], k, s, s', h => by
    simp only [releaseDests, Res.ok.injEq] at h
    subst h; exact .refl
  | (d, dem) :: L, k, s, s', h => by
    simp only [releaseDests, Res.bind_eq_ok'] at h
    obtain ⟨n, _, h⟩ := h
    exact (releasePax_steps _ s).trans (releaseDests_steps L _ _ s' h)

theorem stepRelease_steps {orc : Orc} (ho : orc.Ok R) (hy : Hyp c R strict) {assign : ℕ} {s s' : State}
    (hs : Inv c R strict s) (h : stepRelease c orc ts assign s = .ok s') :
    Steps c R strict ts ph s s' := by
  unfold stepRelease at h
  split at h
  · simp at h
  · split at h
    · split at h
      · simp only [Res.ok.injEq] at h; subst h; exact .refl
      · refine steps_each hy (fun s o s' _ _ h => ?_) hs h
        unfold releaseOne at h
        split at h
        · simp at h
        · simp only [Res.bind_eq_ok', Res.ok.injEq] at h
          obtain ⟨s1, h1, rfl⟩ := h
          exact (releaseDests_steps _ _ _ _ h1).tail (.shuffle _ _ (ho.shuffle _ _))
    · simp only [Res.ok.injEq] at h; subst h; exact .refl

theorem originEvolve_steps (hy : Hyp c R strict) {o : ℕ} {s s' : State} (hs : Inv c R strict s)
    (h : originEvolve c ts s o = .ok s') : Steps c R strict ts ph s s' := by
  refine steps_all hy (.origin o) (fun s p s' hi hp h => ?_) hs h
  unfold originPax at h
  split at h
  · simp at h
  · rename_i l hl
    split at h
    · have hx := cross_ok h
      refine ⟨.one (.move p _ _ _ _ s' hp (by simp) (.inr (by simp)) (.origin o l hl) hx), ?_⟩
      exact keep_of_shift (b := .incoming l) hi.placed (by simp) hp (by rw [hx.eq])
    · simp at h

/-! ### Destinations -/

theorem destLink_steps (hy : Hyp c R strict) (hph : ph.stops = true) {d l : ℕ} (hd : d ∈ c.destIds)
    (hl : l ∈ (c.dest d).walkIn) {s s' : State} (hs : Inv c R strict s)
    (h : Res.foldlM (destPax c ts d l) s (s.loc (.finished l)) = .ok s') : Steps c R strict ts ph s s' := by
  refine steps_all hy (.finished l) (fun s p s' hi hp h => ?_) hs h
  unfold destPax at h
  split at h
  · rename_i n hn
    split at h
    · simp at h
    · rename_i k hk
      split at h
      · simp at h
      · rename_i hok
        push Not at hok
        have hx := cross_ok h
        refine ⟨.one (.move p _ _ _ _ s' hp (by simp) (.inl hph) (.walk l n hn fun _ _ e => ?_) hx), ?_⟩
        · subst e
          exact hy.wf.dests d hd k hk n hl hok.2.2
        · exact keep_of_shift (b := .incoming n) hi.placed (by simp) hp (by rw [hx.eq])
  · rename_i hn
    have hx := cross_ok h
    exact ⟨.one (.move p _ _ _ _ s' hp (fun _ => hph) (.inl hph) (.arrive l d hd hl hn) hx),
      keep_of_shift (b := .dest d) hi.placed (by simp) hp (by rw [hx.eq])⟩

theorem destEvolve_steps (hy : Hyp c R strict) (hph : ph.stops = true) {d : ℕ} (hd : d ∈ c.destIds) {s s' : State}
    (hs : Inv c R strict s) (h : destEvolve c ts s d = .ok s') : Steps c R strict ts ph s s' :=
  steps_each hy (fun _ _ _ hl hi h => destLink_steps hy hph hd hl hi h) hs h

/-! ### Physical stops -/

theorem stopPax_steps (hph : ph.stops = true) {k l : ℕ} {check : State → Res Unit}
    (hw : l ∉ (c.pstop k).walkOut ∧ l ∉ (c.pstop k).boarding) {s s' : State} {p : ℕ}
    (hi : Inv c R strict s) (hp : p ∈ s.loc (.finished l))
    (h : stopPax c ts (c.pstop k) l check s p = .ok s') :
    Steps c R strict ts ph s s' ∧ ∀ q, q ≠ p → q ∈ s.loc (.finished l) → q ∈ s'.loc (.finished l) := by
  unfold stopPax at h
  split at h
  · simp at h
  · rename_i n hn
    split at h
    · simp at h
    · rename_i hwalk
      simp only [Bool.not_eq_false] at hwalk
      split at h
      · simp at h
      · rename_i hout
        have hnl : n ≠ l := by
          rintro rfl
          exact hout hw
        split at h
        · rename_i hkind
          have hx := cross_ok h
          · exact ⟨.one (.move p _ _ _ _ s' hp (by simp) (.inl hph) (.pass l n hn hnl hwalk (.inl hkind)) hx),
              keep_of_shift (b := .finished n) hi.placed (by simp [Ne.symm hnl]) hp (by rw [hx.eq])⟩
        · have hx := cross_ok h
          exact ⟨.one (.move p _ _ _ _ s' hp (by simp) (.inl hph) (.walk l n hn fun _ _ => hnl) hx),
            keep_of_shift (b := .incoming n) hi.placed (by simp) hp (by rw [hx.eq])⟩

theorem stopEvolve_steps (hy : Hyp c R strict) (hph : ph.stops = true) {k : ℕ} (hk : k ∈ c.pstopIds) {s s' : State}
    (hs : Inv c R strict s) (h : stopEvolve c ts s k = .ok s') : Steps c R strict ts ph s s' := by
  simp only [stopEvolve, Res.bind_eq_ok'] at h
  obtain ⟨s1, h1, h2⟩ := h
  have a1 : Steps c R strict ts ph s s1 := by
    refine steps_each hy (fun s l s' hl hi h => ?_) hs h1
    exact steps_all hy (.finished l) (fun s p s' hi hp h =>
      stopPax_steps hph (hy.wf.stops k hk l (.inl hl)) hi hp h) hi h
  refine a1.trans ?_
  refine steps_each hy (fun s l s' hl hi h => ?_) (hs.steps hy a1) h2
  exact steps_all hy (.finished l) (fun s p s' hi hp h =>
    stopPax_steps hph (hy.wf.stops k hk l (.inr hl)) hi hp h) hi h

/-! ### Links -/

theorem walkClear_steps (hy : Hyp c R strict) {l : ℕ} (hph : ph.walks = true ∨ (c.link l).kind ≠ .normal) {s s' : State} (hs : Inv c R strict s)
    (h : walkClear l s = .ok s') : Steps c R strict ts ph s s' := by
  refine steps_all hy (.incoming l) (fun s p s' hi hp h => ?_) hs h
  unfold clearPax at h
  split at h
  · simp only [Res.ok.injEq] at h
    subst h
    refine ⟨.cons (.wait p 0 (.inl (le_refl _))) (.one (.enterLink p l hp (by simp [State.setWait]) hph)), ?_⟩
    exact keep_of_shift (a := .incoming l) (b := .walking l) hi.placed (by simp) hp rfl
  · simp only [Res.ok.injEq] at h
    subst h
    exact ⟨.one (.wait p _ (.inr (by linarith))), keep_of_loc rfl⟩

theorem busClear_steps (hy : Hyp c R strict) {l : ℕ} (hph : ph.walks = true ∨ (c.link l).kind ≠ .normal) {s s' : State} (hs : Inv c R strict s)
    (h : busClear l s = .ok s') : Steps c R strict ts ph s s' := by
  refine steps_all hy (.incoming l) (fun s p s' hi hp h => ?_) hs h
  simp only [busClearPax, Res.ok.injEq] at h
  subst h
  refine ⟨.cons (.wait p 0 (.inl (le_refl _))) (.one (.enterLink p l hp (by simp [State.setWait]) hph)), ?_⟩
  exact keep_of_shift (a := .incoming l) (b := .walking l) hi.placed (by simp) hp rfl

theorem age_steps (hy : Hyp c R strict) {orc : Orc} (ho : orc.Ok R) {l : ℕ} {m : ℤ}
    (hph : ph.walks = true ∨ (c.link l).kind ≠ .normal)
    (hk : ph = .late ∨ ph = .any ∨ (c.link l).kind.walking = true) {s s' : State} (hs : Inv c R strict s)
    (h : age orc l m s = .ok s') : Steps c R strict ts ph s s' := by
  have hperm := ho.order l (s.loc (.walking l))
  refine (steps_loop (Q := Inv c R strict) (.walking l) (fun s p s' hi hp h => ?_) _ s s'
    (hperm.nodup_iff.2 (hs.placed.nodup _)) (fun p hp => hperm.mem_iff.1 hp) hs h).1
  have key : Steps c R strict ts ph s s' ∧ ∀ q, q ≠ p → q ∈ s.loc (.walking l) → q ∈ s'.loc (.walking l) := by
    unfold agePax at h
    split at h
    · simp only [Res.ok.injEq] at h
      subst h
      exact ⟨.one (.finishLink p l hp hk hph), keep_of_shift (a := .walking l) (b := .finished l) hi.placed (by simp) hp rfl⟩
    · simp only [Res.ok.injEq] at h
      subst h
      exact ⟨.one (.stamp p l hp hph), keep_of_loc rfl⟩
  exact ⟨key.1, hi.steps hy key.1, key.2⟩

/-! ### Routing -/

theorem nextFromTracker_ok {p : ℕ} {s s' : State} (h : nextFromTracker c p s = .ok s') :
    ∃ l rest, s.tracker p = some (l :: rest) ∧ l ∈ c.linkIds ∧
      s' = { s.setNext p (some l) with tracker := upd s.tracker p (some rest) } := by
  unfold nextFromTracker at h
  split at h
  · simp at h
  · simp at h
  · rename_i l rest hl
    simp only [Res.bind_eq_ok'] at h
    obtain ⟨l', h1, h⟩ := h
    unfold getLink at h1
    split at h1
    · rename_i hm
      simp only [Res.ok.injEq] at h1 h
      subst h1
      exact ⟨l, rest, hl, hm, h.symm⟩
    · simp at h1

theorem choosePath_mem {ps : List (ℕ × ℚ)} : ∀ {r : ℚ} {q : ℕ}, Net.choosePath ps r = some q →
    ∃ x ∈ ps, x.1 = q := by
  induction ps with
  | nil => intro r q h; simp [Net.choosePath] at h
  | cons x ps ih =>
    intro r q h
    obtain ⟨k, pr⟩ := x
    unfold Net.choosePath at h
    split at h
    · simp only [Option.some.injEq] at h
      exact ⟨_, List.mem_cons_self, h⟩
    · obtain ⟨y, hy, e⟩ := ih h
      exact ⟨y, List.mem_cons_of_mem _ hy, e⟩

theorem choosePath_ok {orc : Orc} (ho : orc.Ok R) {p : ℕ} {s : State} {r : ℕ × State}
    (h : choosePath c orc p s = .ok r) :
    Chosen c R (s.pax p) r.1 ∧
      r.2 = { s with pax := upd s.pax p { s.pax p with path := some r.1 } } := by
  unfold choosePath at h
  split at h
  · rename_i hpnr
    split at h
    · simp at h
    · rename_i q hq
      simp only [Res.ok.injEq] at h
      subst h
      refine ⟨⟨fun e => by rw [hpnr] at e; simp at e, fun _ => hq⟩, ?_⟩
      have : upd s.pax p { s.pax p with path := some q } = s.pax := by
        funext x
        by_cases e : x = p
        · subst e; rw [upd_same, ← hq]
        · rw [upd_other _ _ _ _ e]
      simp only [this]
  · rename_i hpnr
    split at h
    · simp at h
    · rename_i ps hps
      split at h
      · simp at h
      · rename_i q hq
        simp only [Res.ok.injEq] at h
        subst h
        obtain ⟨x, hx, e⟩ := choosePath_mem hq
        exact ⟨⟨fun _ => e ▸ ho.od _ _ ps hps x hx, fun e => absurd e hpnr⟩, rfl⟩

theorem enroll_steps {orc : Orc} (ho : orc.Ok R) {p : ℕ} {a : Place} (ha : a.starts) {s s' : State}
    (hp : p ∈ s.loc a) (hf : (s.pax p).adaptive = false) (h : enroll c orc p s = .ok s') :
    Steps c R strict ts ph s s' ∧ s'.loc = s.loc := by
  unfold enroll at h
  split at h
  · simp only [Res.ok.injEq] at h; subst h; exact ⟨.refl, rfl⟩
  · rename_i ht
    simp only [Res.bind_eq_ok', register, Res.ok.injEq] at h
    obtain ⟨s1, ⟨r, hr, rfl⟩, h⟩ := h
    obtain ⟨hch, hr2⟩ := choosePath_ok ho hr
    obtain ⟨l, rest, h1, h2, h3⟩ := nextFromTracker_ok h
    rw [hr2] at h1 h3
    simp only [ht, if_true, upd_same, Option.some.injEq] at h1
    simp only [ht, if_true, State.setNext, upd_same, upd_upd] at h3
    rw [ho.links] at h1
    have := Micro.enroll (strict := strict) (ts := ts) (ph := ph) p a r.1 l rest hp ha hf ht h2 hch h1
    rw [h3]
    exact ⟨.one this, rfl⟩

theorem fixedOrigin_steps (hy : Hyp c R strict) {orc : Orc} (ho : orc.Ok R) {o : ℕ} {s s' : State}
    (hs : Inv c R strict s) (h : Res.foldlM (fixedOrigin c orc) s (s.loc (.origin o)) = .ok s') :
    Steps c R strict ts ph s s' := by
  refine steps_all hy (.origin o) (fun s p s' hi hp h => ?_) hs h
  unfold fixedOrigin at h
  split at h
  · rename_i had
    split at h
    · simp only [register, Res.bind_eq_ok', Res.ok.injEq] at h
      obtain ⟨r, hr, rfl⟩ := h
      obtain ⟨_, hr2⟩ := choosePath_ok ho hr
      have := Micro.path (c := c) (R := R) (strict := strict) (ts := ts) (ph := ph) p r.1 had o hp
      simp only [Bool.false_eq_true, if_false]
      rw [hr2]
      exact ⟨.one this, keep_of_loc rfl⟩
    · simp only [Res.ok.injEq] at h; subst h; exact ⟨.refl, keep_of_loc rfl⟩
  · rename_i had
    obtain ⟨h1, h2⟩ := enroll_steps ho (a := .origin o) trivial hp (by simpa using had) h
    exact ⟨h1, keep_of_loc h2⟩

theorem fixedLot_steps (hy : Hyp c R strict) {orc : Orc} (ho : orc.Ok R) {k : ℕ} {s s' : State}
    (hs : Inv c R strict s) (h : Res.foldlM (fixedLot c orc) s (s.loc (.lot k)) = .ok s') :
    Steps c R strict ts ph s s' := by
  refine steps_all hy (.lot k) (fun s p s' hi hp h => ?_) hs h
  unfold fixedLot at h
  split at h
  · simp only [Res.ok.injEq] at h; subst h; exact ⟨.refl, keep_of_loc rfl⟩
  · rename_i had
    simp only [Res.bind_eq_ok'] at h
    obtain ⟨s1, h1, h⟩ := h
    obtain ⟨h1, h2⟩ := enroll_steps ho (a := .lot k) trivial hp (by simpa using had) h1
    split at h
    · simp at h
    · simp only [Res.ok.injEq] at h; subst h; exact ⟨h1, keep_of_loc h2⟩

theorem advance_steps {l p : ℕ} {s s' : State} (hp : p ∈ s.loc (.finished l))
    (hf : (s.pax p).adaptive = false) (hn : (c.dest (s.pax p).dest).node ≠ (c.link l).toNode)
    (h : advance c p s = .ok s') : Steps c R strict ts ph s s' ∧ s'.loc = s.loc := by
  unfold advance at h
  split at h
  · rename_i a b ha hb
    split at h
    · rename_i e
      subst e
      obtain ⟨n, rest, h1, _, rfl⟩ := nextFromTracker_ok h
      exact ⟨.one (.fixNext p l a n rest hp hf ha hb h1 hn), rfl⟩
    · simp only [Res.ok.injEq] at h; subst h; exact ⟨.refl, rfl⟩
  · simp at h

theorem fixedLink_steps {l p : ℕ} {s s' : State} (hp : p ∈ s.loc (.finished l))
    (h : fixedLink c l s p = .ok s') : Steps c R strict ts ph s s' ∧ s'.loc = s.loc := by
  unfold fixedLink at h
  split at h
  · simp only [Res.ok.injEq] at h; subst h; exact ⟨.refl, rfl⟩
  · rename_i had
    simp only [Bool.not_eq_true] at had
    split at h
    · split at h
      · rename_i hnode
        split at h
        · simp at h
        · rename_i ht
          simp only [Res.ok.injEq] at h
          subst h
          exact ⟨.one (.fixEnd p l hp had ht hnode), rfl⟩
        · simp at h
      · rename_i hnode
        split at h
        · simp at h
        · split at h
          · simp at h
          · exact advance_steps hp had hnode h
    · split at h
      · simp at h
      · rename_i hnode
        split at h
        · simp at h
        · exact advance_steps hp had hnode h

theorem fixedOneLink_steps (hy : Hyp c R strict) {l : ℕ} {s s' : State} (hs : Inv c R strict s)
    (h : fixedOneLink c s l = .ok s') : Steps c R strict ts ph s s' :=
  steps_all hy (.finished l) (fun _ _ _ _ hp h => by
    obtain ⟨h1, h2⟩ := fixedLink_steps hp h
    exact ⟨h1, keep_of_loc h2⟩) hs h

theorem fixedBus_ok {v p : ℕ} {s s' : State} (h : fixedBus c v s p = .ok s') :
    s' = s ∨ ∃ i n rest, (s.pax p).adaptive = false ∧ (c.vstop v).busIn = some i ∧
      (s.pax p).cur = some i ∧ (s.pax p).next = some i ∧ s.tracker p = some (n :: rest) ∧
      s' = { s.setNext p (some n) with tracker := upd s.tracker p (some rest) } := by
  unfold fixedBus at h
  split at h
  · simp only [Res.ok.injEq] at h; exact .inl h.symm
  · rename_i had
    split at h
    · simp at h
    · split at h
      · rename_i a b ha hb
        split at h
        · rename_i e
          obtain ⟨rfl, e⟩ := e
          obtain ⟨n, rest, h1, _, h2⟩ := nextFromTracker_ok h
          exact .inr ⟨a, n, rest, by simpa using had, e, ha, hb, h1, h2⟩
        · simp only [Res.ok.injEq] at h; exact .inl h.symm
      · simp at h

theorem fixedOneStop_steps (hy : Hyp c R strict) {v : ℕ} {s s' : State} (hs : Inv c R strict s)
    (h : fixedOneStop c s v = .ok s') : Steps c R strict ts ph s s' ∧ s'.busQ = s.busQ := by
  refine (steps_fold (Q := fun t => Inv c R strict t ∧ t.busQ = s.busQ) _ (fun t b t' hb hQ h => ?_) s s'
    ⟨hs, rfl⟩ h).imp id And.right
  refine steps_loop (Q := fun t => Inv c R strict t ∧ t.busQ = s.busQ) (.bus b) (fun t p t' hQ hp h => ?_) _ t t'
    (hQ.1.placed.nodup _) (fun _ h => h) hQ h
  rcases fixedBus_ok h with rfl | ⟨i, n, rest, h1, h2, h3, h4, h5, rfl⟩
  · exact ⟨.refl, hQ, keep_of_loc rfl⟩
  · have m : Micro c R strict ts ph t { t.setNext p (some n) with tracker := upd t.tracker p (some rest) } :=
      .fixBus p b v i n rest hp h1 (by rw [hQ.2]; exact hb) h2 h3 h4 h5
    exact ⟨.one m, ⟨hQ.1.micro hy m, hQ.2⟩, keep_of_loc rfl⟩

theorem adaptiveStart_steps (hy : Hyp c R strict) {orc : Orc} {node : ℕ} {a : Place} (ha : a.starts)
    {s s' : State} (hs : Inv c R strict s)
    (h : Res.foldlM (adaptiveStart c orc node) s (s.loc a) = .ok s') : Steps c R strict ts ph s s' := by
  refine steps_all hy a (fun s p s' hi hp h => ?_) hs h
  unfold adaptiveStart at h
  split at h
  · rename_i had
    split at h
    · simp at h
    · split at h
      · simp at h
      · simp only [Res.bind_eq_ok', Res.ok.injEq] at h
        obtain ⟨l, _, rfl⟩ := h
        exact ⟨.one (.startNext p a l hp ha had), keep_of_loc rfl⟩
  · simp only [Res.ok.injEq] at h; subst h; exact ⟨.refl, keep_of_loc rfl⟩

theorem adaptiveLink_ok {orc : Orc} {l p : ℕ} {s s' : State} (h : adaptiveLink c orc l s p = .ok s') :
    s' = s ∨ ∃ n, (s.pax p).adaptive = true ∧ s' = s.setNext p n := by
  have hset : ∀ n, adaptiveSet c orc p n s = .ok s' → s' = s.setNext p (some n) := by
    intro n h
    simp only [adaptiveSet, Res.bind_eq_ok', Res.ok.injEq] at h
    obtain ⟨_, _, rfl⟩ := h
    rfl
  unfold adaptiveLink at h
  split at h
  · rename_i had
    refine .inr ?_
    split at h
    · simp at h
    · split at h
      · split at h
        · simp only [Res.ok.injEq] at h; exact ⟨none, had, h.symm⟩
        · split at h
          · split at h
            · split at h
              · simp only [Res.ok.injEq] at h; exact ⟨none, had, h.symm⟩
              · exact ⟨_, had, hset _ h⟩
            · simp at h
          · simp only [Res.bind_eq_ok'] at h
            obtain ⟨n, _, h⟩ := h
            exact ⟨_, had, hset _ h⟩
      · split at h
        · simp at h
        · simp only [Res.bind_eq_ok'] at h
          obtain ⟨n, _, h⟩ := h
          exact ⟨_, had, hset _ h⟩
  · simp only [Res.ok.injEq] at h; exact .inl h.symm

theorem adaptiveOneLink_steps (hy : Hyp c R strict) {orc : Orc} {l : ℕ} {s s' : State} (hs : Inv c R strict s)
    (h : adaptiveOneLink c orc s l = .ok s') : Steps c R strict ts ph s s' :=
  steps_all hy (.finished l) (fun s p s' _ hp h => by
    rcases adaptiveLink_ok h with rfl | ⟨n, h1, rfl⟩
    · exact ⟨.refl, keep_of_loc rfl⟩
    · exact ⟨.one (.linkNext p l n hp h1), keep_of_loc rfl⟩) hs h

theorem adaptiveOneStop_steps (hy : Hyp c R strict) {orc : Orc} {v : ℕ} {s s' : State} (hs : Inv c R strict s)
    (h : adaptiveOneStop c orc s v = .ok s') : Steps c R strict ts ph s s' ∧ s'.busQ = s.busQ := by
  refine (steps_fold (Q := fun t => Inv c R strict t ∧ t.busQ = s.busQ) _ (fun t b t' hb hQ h => ?_) s s'
    ⟨hs, rfl⟩ h).imp id And.right
  refine steps_loop (Q := fun t => Inv c R strict t ∧ t.busQ = s.busQ) (.bus b) (fun t p t' hQ hp h => ?_) _ t t'
    (hQ.1.placed.nodup _) (fun _ h => h) hQ h
  unfold adaptiveBus at h
  split at h
  · rename_i had
    split at h
    · rename_i a b' ha hb'
      split at h
      · rename_i e
        simp only [Res.bind_eq_ok', adaptiveSet, Res.ok.injEq] at h
        obtain ⟨n, _, _, _, rfl⟩ := h
        have m : Micro c R strict ts ph t (t.setNext p (some n)) :=
          .busNext p b v a n hp had (by rw [hQ.2]; exact hb) e.2 ha
        exact ⟨.one m, ⟨hQ.1.micro hy m, hQ.2⟩, keep_of_loc rfl⟩
      · simp only [Res.ok.injEq] at h; subst h; exact ⟨.refl, hQ, keep_of_loc rfl⟩
    · simp at h
  · simp only [Res.ok.injEq] at h; subst h; exact ⟨.refl, hQ, keep_of_loc rfl⟩

theorem adaptiveRouting_steps (hy : Hyp c R strict) {orc : Orc} {s s' : State} (hs : Inv c R strict s)
    (h : adaptiveRouting c orc s = .ok s') : Steps c R strict ts ph s s' := by
  simp only [adaptiveRouting, Res.bind_eq_ok'] at h
  obtain ⟨s1, h1, s2, h2, s3, h3, h4⟩ := h
  have a1 : Steps c R strict ts ph s s1 :=
    steps_each hy (fun _ o _ _ hi h => adaptiveStart_steps hy (a := .origin o) trivial hi h) hs h1
  have i1 := hs.steps hy a1
  have a2 : Steps c R strict ts ph s1 s2 :=
    steps_each hy (fun _ k _ _ hi h => adaptiveStart_steps hy (a := .lot k) trivial hi h) i1 h2
  have i2 := i1.steps hy a2
  have a3 : Steps c R strict ts ph s2 s3 :=
    steps_each hy (fun _ _ _ _ hi h => adaptiveOneLink_steps hy hi h) i2 h3
  have i3 := i2.steps hy a3
  exact ((a1.trans a2).trans a3).trans
    (steps_each hy (fun _ _ _ _ hi h => (adaptiveOneStop_steps hy hi h).1) i3 h4)

/-! ### Passengers at the ends of bus links -/

/-- The invariants, and the passengers of `D` have been routed. -/
def Routed (c : Cfg) (R : Routes) (strict : Prop) (D : ℕ → ℕ → Prop) (s : State) : Prop :=
  Inv c R strict s ∧ (strict → BusRouted c D s)

theorem Routed.steps (hy : Hyp c R strict) {D : ℕ → ℕ → Prop} {s s' : State} (h : Routed c R strict D s)
    (m : Steps c R strict ts .early s s') : Routed c R strict D s' := by
  refine Steps.inv (P := Routed c R strict D) (fun s s' hs m => ⟨hs.1.micro hy m, fun hst => ?_⟩) m h
  obtain rfl : strict = True := eq_true hst
  exact (hs.2 trivial).micro hy hs.1 m

theorem Routed.mono {D D' : ℕ → ℕ → Prop} {s : State} (h : Routed c R strict D s)
    (hd : ∀ l p, p ∈ s.loc (.finished l) → D' l p → D l p) : Routed c R strict D' s :=
  ⟨h.1, fun hst l hw p hp hD => h.2 hst l hw p hp (hd l p hp hD)⟩

theorem fixedLink_routed (hy : Hyp c R strict) {l p : ℕ} {s s' : State} {D : ℕ → ℕ → Prop}
    (hs : Routed c R strict D s) (hp : p ∈ s.loc (.finished l)) (h : fixedLink c l s p = .ok s') :
    Routed c R strict (fun x q => D x q ∨ (x = l ∧ q = p)) s' := by
  obtain ⟨st, hl⟩ := fixedLink_steps (R := R) (strict := strict) (ts := 0) (ph := .early) hp h
  have h2 := hs.steps hy st
  refine ⟨h2.1, fun hst x hw q hq hD ha => ?_⟩
  rcases hD with hD | ⟨rfl, rfl⟩
  · exact h2.2 hst x hw q hq hD ha
  · -- the passenger itself
    intro hne
    have hcur : (s.pax q).cur = some x := hs.1.located _ q hp
    unfold fixedLink at h
    split at h
    · rename_i had
      simp only [Res.ok.injEq] at h
      subst h
      rw [had] at ha; simp at ha
    · rename_i had
      simp only [Bool.not_eq_true] at had
      simp only [hw, Bool.false_eq_true, if_false] at h
      split at h
      · simp at h
      · split at h
        · simp at h
        · rename_i ht
          unfold advance at h
          rw [hcur] at h
          split at h
          · rename_i a b ha' hb
            obtain rfl := Option.some.inj ha'
            split at h
            · rename_i e
              subst e
              obtain ⟨n, rest, h1, _, rfl⟩ := nextFromTracker_ok h
              obtain ⟨q', r, hq', ht', hg, hcase⟩ := hs.1.follow hst _ q hp had
              rw [h1] at ht'
              obtain rfl := Option.some.inj ht'
              have heq : trav s.log q ++ n :: rest = R.links q' := by
                rcases hcase with ⟨_, e⟩ | ⟨n', hn', e, _⟩ | ⟨e, _⟩
                · exact e
                · rw [hb] at e; exact absurd (Option.some.inj e).symm hn'
                · rw [hb] at e; simp at e
              have := ne_of_chain (hy.chain hst q') heq hg
              simp only [State.setNext, upd_same, Option.some.injEq] at hne
              exact this hne
            · rename_i e
              simp only [Res.ok.injEq] at h
              subst h
              rw [hb] at hne
              exact e (Option.some.inj hne).symm
          · simp at h

theorem fixedOneLink_routed (hy : Hyp c R strict) {l : ℕ} {s s' : State} {D : ℕ → ℕ → Prop}
    (hs : Routed c R strict D s) (h : fixedOneLink c s l = .ok s') :
    Routed c R strict (fun x q => D x q ∨ x = l) s' := by
  have key : ∀ (L : List ℕ) (t t' : State) (E : ℕ → ℕ → Prop), (∀ p ∈ L, p ∈ t.loc (.finished l)) →
      Routed c R strict E t → Res.foldlM (fixedLink c l) t L = .ok t' →
      Routed c R strict (fun x q => E x q ∨ (x = l ∧ q ∈ L)) t' ∧ t'.loc = t.loc := by
    intro L
    induction L with
    | nil =>
      intro t t' E _ ht h
      simp only [Res.foldlM_nil, Res.ok.injEq] at h
      subst h
      exact ⟨ht.mono fun x q _ h => by simpa using h, rfl⟩
    | cons p L ih =>
      intro t t' E hm ht h
      rw [Res.foldlM_cons, Res.bind_eq_ok] at h
      obtain ⟨t1, h1, h⟩ := h
      have hp := hm p List.mem_cons_self
      have e1 := (fixedLink_steps (R := R) (strict := strict) (ts := 0) (ph := .early) hp h1).2
      obtain ⟨a, b⟩ := ih t1 t' _ (fun q hq => by rw [e1]; exact hm q (List.mem_cons_of_mem _ hq))
        (fixedLink_routed hy ht hp h1) h
      refine ⟨a.mono fun x q _ h => ?_, b.trans e1⟩
      simp only [List.mem_cons] at h
      tauto
  obtain ⟨a, b⟩ := key _ s s' D (fun _ h => h) hs h
  refine a.mono fun x q hq h => ?_
  rcases h with h | rfl
  · exact .inl h
  · exact .inr ⟨rfl, by rw [b] at hq; exact hq⟩

theorem fixedLinks_routed (hy : Hyp c R strict) : ∀ (L : List ℕ) (s s' : State) (D : ℕ → ℕ → Prop),
    Routed c R strict D s → Res.foldlM (fixedOneLink c) s L = .ok s' →
    Routed c R strict (fun x q => D x q ∨ x ∈ L) s'
  | [], s, s', D, hs, h => by
    simp only [Res.foldlM_nil, Res.ok.injEq] at h
    subst h
    exact hs.mono fun x q _ h => by simpa using h
  | l :: L, s, s', D, hs, h => by
    rw [Res.foldlM_cons, Res.bind_eq_ok] at h
    obtain ⟨s1, h1, h⟩ := h
    refine (fixedLinks_routed hy L s1 s' _ (fixedOneLink_routed hy hs h1) h).mono fun x q _ h => ?_
    simp only [List.mem_cons] at h
    tauto

theorem routing_steps (hy : Hyp c R strict) {orc : Orc} (ho : orc.Ok R) {s s' : State}
    (hs : Inv c R strict s) (h : routing c orc s = .ok s') :
    Steps c R strict ts ph s s' ∧ Routed c R strict (fun x _ => x ∈ c.linkIds) s' := by
  simp only [routing, fixedRouting, Res.bind_eq_ok'] at h
  obtain ⟨s4, ⟨s1, h1, s2, h2, s3, h3, h4⟩, h5⟩ := h
  have a1 : Steps c R strict ts ph s s1 :=
    steps_each hy (fun _ o _ _ hi h => fixedOrigin_steps hy ho hi h) hs h1
  have i1 := hs.steps hy a1
  have a2 : Steps c R strict ts ph s1 s2 :=
    steps_each hy (fun _ k _ _ hi h => fixedLot_steps hy ho hi h) i1 h2
  have i2 := i1.steps hy a2
  have a3 : Steps c R strict ts ph s2 s3 :=
    steps_each hy (fun _ _ _ _ hi h => fixedOneLink_steps hy hi h) i2 h3
  have r3 : Routed c R strict (fun x _ => x ∈ c.linkIds) s3 :=
    (fixedLinks_routed hy _ s2 s3 (fun _ _ => False) ⟨i2, fun _ _ _ _ _ h => h.elim⟩ h3).mono
      fun _ _ _ h => .inr h
  have a4 : Steps c R strict ts ph s3 s4 :=
    steps_each hy (fun _ _ _ _ hi h => (fixedOneStop_steps hy hi h).1) r3.1 h4
  have r4 : Routed c R strict (fun x _ => x ∈ c.linkIds) s4 := r3.steps hy
    (ts := ts) (steps_each hy (fun _ _ _ _ hi h => (fixedOneStop_steps hy hi h).1) r3.1 h4)
  have a5 : ∀ {ph}, Steps c R strict ts ph s4 s' := by
    intro ph
    split at h5
    · exact adaptiveRouting_steps hy r4.1 h5
    · simp only [Res.ok.injEq] at h5; subst h5; exact .refl
  exact ⟨(((a1.trans a2).trans a3).trans a4).trans a5, r4.steps hy (ts := ts) a5⟩

theorem walkStep_steps (hy : Hyp c R strict) {orc : Orc} (ho : orc.Ok R) {l : ℕ}
    (hph : ph.walks = true ∨ (c.link l).kind ≠ .normal) {s s' : State}
    (hs : Inv c R strict s) (h : walkStep c orc s l = .ok s') : Steps c R strict ts ph s s' := by
  unfold walkStep at h
  split at h
  · rename_i hw
    simp only [Res.bind_eq_ok'] at h
    obtain ⟨s1, h1, s2, h2, h⟩ := h
    have a1 : Steps c R strict ts ph s s1 := walkClear_steps hy hph hs h1
    have i1 := hs.steps hy a1
    have a2 : Steps c R strict ts ph s1 s2 := age_steps hy ho hph (.inr (.inr hw)) i1 h2
    have i2 := i1.steps hy a2
    refine (a1.trans a2).trans ?_
    split at h
    · simp only [Res.bind_eq_ok'] at h
      obtain ⟨s3, h3, h⟩ := h
      have a3 : Steps c R strict ts ph s2 s3 := fixedOneLink_steps hy i2 h3
      exact a3.trans (adaptiveOneLink_steps hy (i2.steps hy a3) h)
    · simp only [Res.ok.injEq] at h; subst h; exact .refl
  · simp only [Res.ok.injEq] at h; subst h; exact .refl

/-! ### Stops without explicit buses -/

theorem rideLoop_steps (hy : Hyp c R strict) {st : VStop} {i : ℕ} (hi : i ∈ c.linkIds)
    (hw : (c.link i).kind.walking = false) : ∀ (L : List ℕ) (k : ℤ) (s s' : State), L.Nodup →
    (∀ p ∈ L, p ∈ s.loc (.finished i)) → Routed c R strict (fun x _ => x ∈ c.linkIds) s →
    rideLoop c ts st i k L s = .ok s' → Steps c R strict ts ph s s'
  | [], k, s, s', _, _, _, h => by
    simp only [rideLoop, Res.ok.injEq] at h
    subst h; exact .refl
  | p :: L, k, s, s', hn, hm, hs, h => by
    rw [List.nodup_cons] at hn
    have hp := hm p List.mem_cons_self
    have hkeep : ∀ {b : Place} {t : State}, Place.finished i ≠ b → t.loc = (s.shift p (.finished i) b).loc →
        ∀ q ∈ L, q ∈ t.loc (.finished i) := fun hb ht q hq =>
      keep_of_shift hs.1.placed hb hp ht q (by rintro rfl; exact hn.1 hq) (hm q (List.mem_cons_of_mem _ hq))
    unfold rideLoop at h
    split at h
    · simp at h
    · rename_i n hnext
      split at h
      · rename_i hn'
        simp only [Res.bind_eq_ok'] at h
        obtain ⟨t, h1, h⟩ := h
        have hx := cross_ok h1
        have m : ∀ {ph}, Micro c R strict ts ph s t := .move p _ _ _ _ t hp (by simp)
          (.inr (fun l hl => ⟨fun e => by simp only [Option.some.injEq] at e; rw [e, hl] at hw; simp [Kind.walking] at hw,
            fun e => by simp only [Place.incoming.injEq] at e; subst e; rw [hl] at hn'; simp [Kind.walking] at hn'⟩))
          (.walk i n hnext fun hst ha e => hs.2 hst i hw p hp hi ha (e ▸ hnext)) hx
        exact .cons m (rideLoop_steps hy hi hw L k t s' hn.2
          (hkeep (b := .incoming n) (by simp) (by rw [hx.eq])) (hs.steps hy (.one (m (ph := .early)))) h)
      · rename_i hwalk
        split at h
        · simp only [Res.ok.injEq] at h; subst h; exact .refl
        · split at h
          · simp at h
          · rename_i hne
            simp only [Res.bind_eq_ok'] at h
            obtain ⟨t, h1, h⟩ := h
            have hx := cross_ok h1
            have m : ∀ {ph}, Micro c R strict ts ph s t := .move p _ _ _ _ t hp (by simp)
              (.inr (fun l hl => ⟨fun e => by simp only [Option.some.injEq] at e; rw [e, hl] at hw; simp [Kind.walking] at hw,
                by simp⟩))
              (.pass i n hnext hne (by simpa using hwalk) (.inr ⟨fun e => by rw [e] at hw; simp [Kind.walking] at hw,
                fun e => by rw [e] at hw; simp [Kind.walking] at hw⟩)) hx
            exact .cons m (rideLoop_steps hy hi hw L (k + 1) t s' hn.2
              (hkeep (b := .finished n) (by simp [Ne.symm hne]) (by rw [hx.eq])) (hs.steps hy (.one (m (ph := .early)))) h)

theorem enterLoop_steps (hy : Hyp c R strict) {st : VStop} {w : ℕ}
    (hk : (c.link w).kind = .boarding) : ∀ (L : List ℕ) (k : ℤ) (s s' : State), L.Nodup →
    (∀ p ∈ L, p ∈ s.loc (.finished w)) → Inv c R strict s →
    enterLoop c ts st w k L s = .ok s' → Steps c R strict ts ph s s'
  | [], k, s, s', _, _, _, h => by
    simp only [enterLoop, Res.ok.injEq] at h
    subst h; exact .refl
  | p :: L, k, s, s', hn, hm, hs, h => by
    rw [List.nodup_cons] at hn
    have hw : (c.link w).kind.walking = true := by rw [hk]; rfl
    have hp := hm p List.mem_cons_self
    have hkeep : ∀ {b : Place} {t : State}, Place.finished w ≠ b → t.loc = (s.shift p (.finished w) b).loc →
        ∀ q ∈ L, q ∈ t.loc (.finished w) := fun hb ht q hq =>
      keep_of_shift hs.placed hb hp ht q (by rintro rfl; exact hn.1 hq) (hm q (List.mem_cons_of_mem _ hq))
    unfold enterLoop at h
    split at h
    · simp at h
    · rename_i n hnext
      split at h
      · rename_i hwalk
        split at h
        · simp only [Res.ok.injEq] at h; subst h; exact .refl
        · simp only [Res.bind_eq_ok'] at h
          obtain ⟨t, h1, h⟩ := h
          have hx := cross_ok h1
          have m : Micro c R strict ts ph s t := .move p _ _ _ _ t hp (by simp)
            (.inr (fun l hl => ⟨fun e => by simp only [Option.some.injEq] at e; rw [← e, hk] at hl; simp at hl,
              fun e => by simp only [Place.incoming.injEq] at e; subst e; rw [hl] at hwalk; simp [Kind.walking] at hwalk⟩))
            (.walk w n hnext fun _ _ e => by rw [e, hw] at hwalk; simp at hwalk) hx
          exact .cons m (enterLoop_steps hy hk L (k + 1) t s' hn.2
            (hkeep (b := .incoming n) (by simp) (by rw [hx.eq])) (hs.steps hy (.one m)) h)
      · rename_i hwalk
        split at h
        · simp at h
        · rename_i hne
          simp only [Res.bind_eq_ok'] at h
          obtain ⟨t, h1, h⟩ := h
          have hx := cross_ok h1
          have m : Micro c R strict ts ph s t := .move p _ _ _ _ t hp (by simp)
            (.inr (fun l hl => ⟨fun e => by simp only [Option.some.injEq] at e; rw [← e, hk] at hl; simp at hl, by simp⟩))
            (.pass w n hnext hne (by simpa using hwalk) (.inr (by simp [hk]))) hx
          exact .cons m (enterLoop_steps hy hk L k t s' hn.2
            (hkeep (b := .finished n) (by simp [Ne.symm hne]) (by rw [hx.eq])) (hs.steps hy (.one m)) h)

theorem virtualEvolve_steps (hy : Hyp c R strict) {v : ℕ} (hv : v ∈ c.vstopIds) {s s' : State}
    (hs : Routed c R strict (fun x _ => x ∈ c.linkIds) s) (h : virtualEvolve c ts s v = .ok s') :
    Steps c R strict ts ph s s' := by
  simp only [virtualEvolve, Res.bind_eq_ok'] at h
  obtain ⟨s1, h1, h2⟩ := h
  have a1 : Steps c R strict ts ph s s1 := by
    unfold virtualRide at h1
    split at h1
    · simp only [Res.ok.injEq] at h1; subst h1; exact .refl
    · rename_i i hi
      obtain ⟨b1, b2⟩ := hy.wf.busIn v hv i hi
      exact rideLoop_steps hy b2 b1 _ _ _ _ (hs.1.placed.nodup _) (fun _ h => h) hs h1
  refine a1.trans ?_
  have i1 := hs.1.steps hy a1
  unfold virtualEnter at h2
  split at h2
  · simp only [Res.ok.injEq] at h2; subst h2; exact .refl
  · rename_i w hw
    exact enterLoop_steps hy (hy.wf.boarding v hv w hw) _ _ _ _ (i1.placed.nodup _) (fun _ h => h) i1 h2

theorem implicitStep_steps (hy : Hyp c R strict) {orc : Orc} (ho : orc.Ok R) {s s' : State}
    (hs : Routed c R strict (fun x _ => x ∈ c.linkIds) s) (h : implicitStep c orc ts s = .ok s') :
    ∃ t, Steps c R strict ts ph s t ∧ Steps c R strict ts .late t s' := by
  unfold implicitStep at h
  split at h
  · simp only [Res.ok.injEq] at h; subst h; exact ⟨s, .refl, .refl⟩
  · simp only [Res.bind_eq_ok'] at h
    obtain ⟨s1, h1, h2⟩ := h
    have a1 : Steps c R strict ts ph s s1 :=
      (steps_fold (Q := Routed c R strict (fun x _ => x ∈ c.linkIds)) _ (fun s v s' hv hQ h =>
        ⟨virtualEvolve_steps hy hv hQ h, hQ.steps hy (virtualEvolve_steps hy hv hQ h)⟩) s s1 hs h1).1
    have i1 := hs.1.steps hy a1
    refine ⟨s1, a1, steps_each hy (fun s l s' _ hi h => ?_) i1 h2⟩
    unfold busLinkStep at h
    split at h
    · simp only [Res.ok.injEq] at h; subst h; exact .refl
    · rename_i hw
      have hk : (c.link l).kind ≠ .normal := fun e => hw (by rw [e]; rfl)
      simp only [Res.bind_eq_ok'] at h
      obtain ⟨s3, h3, h4⟩ := h
      have a3 : Steps c R strict ts .late s s3 := busClear_steps hy (.inr hk) hi h3
      exact a3.trans (age_steps hy ho (.inr hk) (.inl rfl) (hi.steps hy a3) h4)

/-! ### Buses -/

theorem ite_ok {α : Type} {P : Prop} [Decidable P] {a b r : α}
    (h : (if P then Res.ok a else Res.ok b) = Res.ok r) : r = a ∨ r = b := by
  split at h <;> simp only [Res.ok.injEq] at h
  · exact .inl h.symm
  · exact .inr h.symm

theorem holdCount_steps (hph : ph = .bus ∨ ph = .any) {v b : ℕ} {s s' : State} (h : holdCount c v b s = .ok s') :
    Steps c R strict ts ph s s' ∧ s'.busQ = s.busQ := by
  unfold holdCount at h
  split at h
  · split at h
    · simp at h
    · simp only [Res.ok.injEq] at h; subst h
      exact ⟨.one (.book hph (upd s.counter v (s.counter v + 1)) s.stopped), rfl⟩
  · split at h
    · simp at h
    · simp only [Res.ok.injEq] at h; subst h; exact ⟨.refl, rfl⟩

theorem holdBus_steps (hph : ph = .bus ∨ ph = .any) {v b : ℕ} {s : State} {r : State × Bool} (h : holdBus c v b s = .ok r) :
    Steps c R strict ts ph s r.1 ∧ r.1.busQ = s.busQ ∧ b ∈ s.busQ v := by
  unfold holdBus at h
  simp only at h
  split at h
  · simp at h
  · rename_i hb
    simp only [not_not] at hb
    split at h
    · simp at h
    · split at h
      · simp only [Res.ok.injEq] at h; subst h
        exact ⟨.one (.book hph (upd s.counter v (s.counter v + 1)) s.stopped), rfl, hb⟩
      · split at h
        · simp only [Res.ok.injEq] at h; subst h
          exact ⟨.refl, rfl, hb⟩
        · simp only [Res.bind_eq_ok'] at h
          obtain ⟨al, _, t, h1, h⟩ := h
          obtain ⟨a1, e1⟩ := holdCount_steps (R := R) (strict := strict) (ts := ts) (ph := ph) hph h1
          rcases ite_ok h with rfl | rfl
          · exact ⟨a1.tail (.book hph t.counter (upd t.stopped b (t.stopped b + 1))), e1, hb⟩
          · exact ⟨a1.tail (.book hph (upd t.counter v 0) t.stopped), e1, hb⟩

theorem alightLoop_steps (hy : Hyp c R strict) {v b : ℕ} : ∀ (L : List ℕ) (k : ℤ) (s s' : State),
    L.Nodup → (∀ p ∈ L, p ∈ s.loc (.bus b)) → Inv c R strict s → b ∈ s.busQ v →
    alightLoop c ts v b k L s = .ok s' → Steps c R strict ts ph s s' ∧ s'.busQ = s.busQ
  | [], k, s, s', _, _, _, _, h => by
    simp only [alightLoop, Res.ok.injEq] at h
    subst h; exact ⟨.refl, rfl⟩
  | p :: L, k, s, s', hn, hm, hs, hb, h => by
    rw [List.nodup_cons] at hn
    have hp := hm p List.mem_cons_self
    unfold alightLoop at h
    split at h
    · simp at h
    · rename_i n hnext
      split at h
      · rename_i hcond
        split at h
        · simp only [Res.ok.injEq] at h; subst h; exact ⟨.refl, rfl⟩
        · split at h
          · simp at h
          · rename_i i hin
            simp only [Res.bind_eq_ok'] at h
            obtain ⟨t, h1, h⟩ := h
            have hx := cross_ok h1
            have m0 : Micro c R strict ts ph s (s.setWait p 0) := .wait p 0 (.inl (le_refl _))
            have i0 := hs.micro hy m0
            have hiw := (hy.wf.busIn v (hs.stops.known v b hb) i hin).1
            have m : Micro c R strict ts ph (s.setWait p 0) t := .move p _ _ _ _ t hp (by simp)
              (.inr (fun l hl => ⟨fun e => by simp only [Option.some.injEq] at e; rw [e, hl] at hiw; simp [Kind.walking] at hiw,
                by simp⟩))
              (.alight b v i n (by simpa [State.setWait] using hnext) hcond.1 hcond.2 hin hb) hx
            have e : t.busQ = s.busQ := by rw [hx.eq]; rfl
            obtain ⟨a, e'⟩ := alightLoop_steps hy L (k + 1) t s' hn.2
              (fun q hq => keep_of_shift (s := s.setWait p 0) (b := .finished n) i0.placed (by simp) hp (by rw [hx.eq]) q
                (by rintro rfl; exact hn.1 hq) (hm q (List.mem_cons_of_mem _ hq)))
              (i0.micro hy m) (by rw [e]; exact hb) h
            exact ⟨.cons m0 (.cons m a), e'.trans e⟩
      · exact alightLoop_steps hy L k s s' hn.2 (fun q hq => hm q (List.mem_cons_of_mem _ hq)) hs hb h

theorem boardLoop_steps (hy : Hyp c R strict) {v b w : ℕ} (hv : v ∈ c.vstopIds)
    (hbd : (c.vstop v).boarding = some w) {rem : ℤ} : ∀ (L : List ℕ) (k : ℤ) (s s' : State),
    L.Nodup → (∀ p ∈ L, p ∈ s.loc (.finished w)) → Inv c R strict s → b ∈ s.busQ v →
    ((s.loc (.bus b)).length : ℤ) + (rem - k) ≤ trunc (c.busCap * c.scalar) →
    boardLoop c ts v b w rem k L s = .ok s' → Steps c R strict ts ph s s' ∧ s'.busQ = s.busQ
  | [], k, s, s', _, _, _, _, _, h => by
    simp only [boardLoop, Res.ok.injEq] at h
    subst h; exact ⟨.refl, rfl⟩
  | p :: L, k, s, s', hn, hm, hs, hb, hcap, h => by
    rw [List.nodup_cons] at hn
    have hp := hm p List.mem_cons_self
    unfold boardLoop at h
    split at h
    · simp at h
    · rename_i n hnext
      split at h
      · rename_i hcond
        split at h
        · simp only [Res.ok.injEq] at h; subst h; exact ⟨.refl, rfl⟩
        · rename_i hk
          simp only [Res.bind_eq_ok'] at h
          obtain ⟨t, h1, h⟩ := h
          have hx := cross_ok h1
          have hnw : n ≠ w := by
            rintro rfl
            have h1 := hy.wf.boarding v hv n hbd
            have h2 := hy.wf.busOut v hv n hcond.2
            rw [h2] at h1; simp at h1
          have m : Micro c R strict ts ph s t := .move p _ _ _ _ t hp (by simp)
            (.inr (fun l hl => ⟨fun e => by
              simp only [Option.some.injEq] at e
              have h1 := hy.wf.boarding v hv w hbd
              rw [e, hl] at h1; simp at h1, by simp⟩))
            (.board w b v n hnext hnw hcond.1 hbd hcond.2 hb (by omega)) hx
          have e : t.busQ = s.busQ := by rw [hx.eq]; rfl
          have el : ((t.loc (.bus b)).length : ℤ) = (s.loc (.bus b)).length + 1 := by
            rw [show t.loc (.bus b) = (s.shift p (.finished w) (.bus b)).loc (.bus b) by rw [hx.eq],
              shift_loc s p (by simp)]
            simp
          obtain ⟨a, e'⟩ := boardLoop_steps hy hv hbd L (k + 1) t s' hn.2
            (fun q hq => keep_of_shift (b := .bus b) hs.placed (by simp) hp (by rw [hx.eq]) q
              (by rintro rfl; exact hn.1 hq) (hm q (List.mem_cons_of_mem _ hq)))
            (hs.micro hy m) (by rw [e]; exact hb) (by rw [el]; omega) h
          exact ⟨.cons m a, e'.trans e⟩
      · simp at h

theorem boardAlight_steps (hy : Hyp c R strict) {v b : ℕ} {sh : List ℕ → List ℕ}
    (hsh : ∀ L, (sh L).Perm L) {s s' : State} (hs : Inv c R strict s) (hb : b ∈ s.busQ v)
    (h : boardAlight c ts v b sh s = .ok s') : Steps c R strict ts ph s s' := by
  simp only [boardAlight, Res.bind_eq_ok', Res.ok.injEq] at h
  obtain ⟨s1, h1, s2, h2, rfl⟩ := h
  obtain ⟨a1, e1⟩ := alightLoop_steps (ph := ph) hy _ _ _ _ (hs.placed.nodup _) (fun _ h => h) hs hb h1
  have i1 := hs.steps hy a1
  have a2 : Steps c R strict ts ph s1 s2 := by
    unfold board at h2
    split at h2
    · split at h2
      · simp only [Res.ok.injEq] at h2; subst h2; exact .refl
      · rename_i w hw
        have hroom : room c b s1 ≤ trunc (c.busCap * c.scalar) - ((s1.loc (.bus b)).length : ℤ) :=
          min_le_left _ _
        exact (boardLoop_steps hy (hs.stops.known v b hb) hw _ _ _ _ (i1.placed.nodup _)
          (fun _ h => h) i1 (by rw [e1]; exact hb) (by omega) h2).1
    · simp only [Res.ok.injEq] at h2; subst h2; exact .refl
  exact (a1.trans a2).tail (.shuffle _ _ (hsh _))

theorem rideOn_steps (hy : Hyp c R strict) {v b : ℕ} {s s' : State} (hs : Inv c R strict s)
    (hb : b ∈ s.busQ v) (h : rideOn c ts v b s = .ok s') :
    Steps c R strict ts ph s s' ∧ s'.busQ = s.busQ ∧
      ∀ p ∈ s'.loc (.bus b), (s'.pax p).cur = (s'.pax p).next := by
  unfold rideOn at h
  split at h
  · rename_i o ho
    have key : ∀ (L : List ℕ) (t t' : State), L.Nodup → (∀ p ∈ L, p ∈ t.loc (.bus b)) →
        Inv c R strict t → b ∈ t.busQ v → Res.foldlM (ridePax c ts v o) t L = .ok t' →
        Steps c R strict ts ph t t' ∧ t'.busQ = t.busQ ∧ t'.loc = t.loc ∧
          (∀ q ∉ L, t'.pax q = t.pax q) ∧ ∀ q ∈ L, (t'.pax q).cur = (t'.pax q).next := by
      intro L
      induction L with
      | nil =>
        intro t t' _ _ _ _ h
        simp only [Res.foldlM_nil, Res.ok.injEq] at h
        subst h
        exact ⟨.refl, rfl, rfl, fun _ _ => rfl, by simp⟩
      | cons p L ih =>
        intro t t' hn hm ht hb h
        rw [Res.foldlM_cons, Res.bind_eq_ok] at h
        obtain ⟨t1, h1, h⟩ := h
        rw [List.nodup_cons] at hn
        have hp := hm p List.mem_cons_self
        have one : Steps c R strict ts ph t t1 ∧ t1.busQ = t.busQ ∧ t1.loc = t.loc ∧
            (∀ q, q ≠ p → t1.pax q = t.pax q) ∧ (t1.pax p).cur = (t1.pax p).next := by
          unfold ridePax at h1
          split at h1
          · rename_i n i' hnext hcur
            split at h1
            · simp at h1
            · rename_i hno
              simp only [ne_eq, not_not] at hno
              subst hno
              split at h1
              · rename_i hi'
                split at h1
                · simp at h1
                · rename_i i hin
                  have hx := cross_ok h1
                  refine ⟨.one (.ride p b v i n t1 hp hb hin ho hnext ?_ hx), ?_, ?_, ?_, ?_⟩
                  · rw [hcur]; simpa using hi'
                  · rw [hx.eq]
                  · rw [hx.eq]
                  · intro q hq; rw [hx.eq]; simp [upd_other _ _ _ _ hq]
                  · rw [hx.eq]; simp [hnext]
              · rename_i hi'
                simp only [ne_eq, not_not] at hi'
                simp only [Res.ok.injEq] at h1
                subst h1
                exact ⟨.refl, rfl, rfl, fun _ _ => rfl, by rw [hnext, hcur, hi']⟩
          · simp at h1
        obtain ⟨a1, e1, l1, o1, c1⟩ := one
        obtain ⟨a2, e2, l2, o2, c2⟩ := ih t1 t' hn.2 (fun q hq => by rw [l1]; exact hm q (List.mem_cons_of_mem _ hq))
          (ht.steps hy a1) (by rw [e1]; exact hb) h
        refine ⟨a1.trans a2, e2.trans e1, l2.trans l1, fun q hq => ?_, fun q hq => ?_⟩
        · simp only [List.mem_cons, not_or] at hq
          rw [o2 q hq.2, o1 q hq.1]
        · rcases List.mem_cons.1 hq with rfl | hq
          · rw [o2 q hn.1]; exact c1
          · exact c2 q hq
    obtain ⟨a, e, l, _, d⟩ := key _ s s' (hs.placed.nodup _) (fun _ h => h) hs hb h
    exact ⟨a, e, fun p hp => d p (by rw [l] at hp; exact hp)⟩
  · split at h
    · simp at h
    · rename_i hnil
      simp only [ne_eq, not_not] at hnil
      simp only [Res.ok.injEq] at h
      subst h
      exact ⟨.refl, rfl, by simp [hnil]⟩

theorem releaseBus_steps (hy : Hyp c R strict) (hph : ph = .bus ∨ ph = .any) {v b : ℕ} {s s' : State} (hs : Inv c R strict s)
    (hb : b ∈ s.busQ v) (h : releaseBus c ts v b s = .ok s') : Steps c R strict ts ph s s' := by
  simp only [releaseBus, Res.bind_eq_ok'] at h
  obtain ⟨t, h1, k, h2, h⟩ := h
  obtain ⟨a, e, d⟩ := rideOn_steps (ph := ph) hy hs hb h1
  split at h
  · rename_i hm
    simp only [Res.ok.injEq] at h
    subst h
    exact a.tail (.busOut hph v b k hm d h2)
  · simp at h

theorem busEv_steps (hy : Hyp c R strict) (hph : ph = .bus ∨ ph = .any) {orc : Orc} (ho : orc.Ok R) {e : BusEv} (he : e ∈ orc.buses)
    {s s' : State} (hs : Inv c R strict s) (h : busEv c orc ts s e = .ok s') :
    Steps c R strict ts ph s s' := by
  cases e with
  | receive v b =>
    simp only [busEv] at h
    split at h
    · rename_i hf
      simp only [receiveBus, Res.bind_eq_ok'] at h
      obtain ⟨k, h1, t, h2, h3⟩ := h
      have m : Micro c R strict ts ph s
          { s with bIn := upd s.bIn v k, busQ := upd s.busQ v (s.busQ v ++ [b]) } := by
        refine .busIn hph v b k hf.1.1 hf.1.2 (fun v' hv' => ?_) h1
        exact hf.2 v' (hs.stops.known v' b hv') hv'
      have i0 := hs.micro hy m
      obtain ⟨a1, _⟩ := fixedOneStop_steps (ts := ts) (ph := ph) hy i0 h2
      exact .cons m (a1.trans (adaptiveOneStop_steps hy (i0.steps hy a1) h3).1)
    · simp at h
  | visit v b sh =>
    simp only [busEv, visitBus, Res.bind_eq_ok'] at h
    obtain ⟨r, h1, h⟩ := h
    obtain ⟨a1, e1, hb⟩ := holdBus_steps (R := R) (strict := strict) (ts := ts) (ph := ph) hph h1
    have i1 := hs.steps hy a1
    refine a1.trans ?_
    split at h
    · split at h
      · exact boardAlight_steps hy (ho.buses v b sh he) i1 (by rw [e1]; exact hb) h
      · simp only [Res.ok.injEq] at h; subst h; exact .refl
    · have m : Micro c R strict ts ph r.1 { r.1 with stopped := upd r.1.stopped b 0 } :=
        .book hph r.1.counter (upd r.1.stopped b 0)
      exact Steps.cons m (releaseBus_steps hy hph (i1.micro hy m) (by show b ∈ r.1.busQ v; rw [e1]; exact hb) h)

/-! ### Destinations receive, parking lots -/

theorem parkCars_steps (hph : ph = .recv ∨ ph = .any) {orc : Orc} {k : ℕ} : ∀ (L : List CarIn) (s : State),
    Steps c R strict ts ph s (L.foldl (parkCar orc ts k) s)
  | [], _ => .refl
  | x :: L, s => .cons (.park orc k x hph) (parkCars_steps hph L _)

theorem receive_steps (hy : Hyp c R strict) (hph : ph = .recv ∨ ph = .any) {orc : Orc} {d : ℕ} {s s' : State} (hs : Inv c R strict s)
    (h : receive c orc ts s d = .ok s') : Steps c R strict ts ph s s' := by
  unfold receive at h
  simp only at h
  have key : ∀ t, Steps c R strict ts ph s t → Res.foldlM (receivePax c ts d) t (t.loc (.dest d)) = .ok s' →
      Steps c R strict ts ph s s' := fun t ht h => by
    refine ht.trans (steps_all hy (.dest d) (fun s p s' hi hp h => ?_) (hs.steps hy ht) h)
    refine ⟨.one (.leave p d s' hp h), ?_⟩
    obtain ⟨_, _, rfl⟩ := receivePax_ok h
    exact keep_of_shift (a := .dest d) (b := .gone) hi.placed (by simp) hp rfl
  split at h
  · exact key s .refl h
  · rename_i k hk
    exact key _ ((parkCars_steps hph (orc := orc) (k := k) (orc.cars k) s).tail (.lotRec k hph)) h

theorem lotEvolve_steps (hy : Hyp c R strict) {k : ℕ} {s s' : State} (hs : Inv c R strict s)
    (h : lotEvolve c ts s k = .ok s') : Steps c R strict ts ph s s' := by
  refine steps_all hy (.lot k) (fun s p s' hi hp h => ?_) hs h
  unfold lotPax at h
  split at h
  · simp at h
  · rename_i n hn
    split at h
    · have hx := cross_ok h
      have m0 : Micro c R strict ts ph s (s.setWait p 0) := .wait p 0 (.inl (le_refl _))
      have i0 := hi.micro hy m0
      refine ⟨.cons m0 (.one (.move p _ _ _ _ s' hp (by simp) (.inr (by simp)) (.lot k n (by simpa [State.setWait] using hn)) hx)), ?_⟩
      exact keep_of_shift (s := s.setWait p 0) (a := .lot k) (b := .incoming n) i0.placed (by simp) hp (by rw [hx.eq])
    · simp at h

theorem lotRouting_steps (hy : Hyp c R strict) {orc : Orc} (ho : orc.Ok R) {s s' : State}
    (hs : Inv c R strict s) (h : lotRouting c orc s = .ok s') : Steps c R strict ts ph s s' := by
  simp only [lotRouting, Res.bind_eq_ok'] at h
  obtain ⟨s1, h1, h2⟩ := h
  have a1 : Steps c R strict ts ph s s1 :=
    steps_each hy (fun _ k _ _ hi h => fixedLot_steps hy ho hi h) hs h1
  exact a1.trans (steps_each hy (fun _ k _ _ hi h => adaptiveStart_steps hy (a := .lot k) trivial hi h)
    (hs.steps hy a1) h2)

/-! ### Loading -/

theorem beforeBuses_phases (hy : Hyp c R strict) {orc : Orc} (ho : orc.Ok R) {assign : ℕ} {s s' : State}
    (hs : Inv c R strict s) (h : beforeBuses c orc ts assign s = .ok s') :
    ∃ t, Steps c R strict ts .early s t ∧ Steps c R strict ts .late t s' := by
  simp only [beforeBuses, Res.bind_eq_ok', Res.ok.injEq] at h
  obtain ⟨s1, h1, s2, h2, s3, h3, s4, h4, s5, h5, s6, h6, s7, h7, rfl⟩ := h
  have a1 : Steps c R strict ts .early s s1 := stepRelease_steps ho hy hs h1
  have i1 := hs.steps hy a1
  obtain ⟨a2, r2⟩ := routing_steps (ts := ts) hy ho i1 h2
  have a3 : Steps c R strict ts .early s2 s3 :=
    steps_each hy (fun _ _ _ _ hi h => originEvolve_steps hy hi h) r2.1 h3
  have r3 := r2.steps hy a3
  have a4 : Steps c R strict ts .early s3 s4 :=
    steps_each hy (fun _ _ _ hd hi h => destEvolve_steps hy rfl hd hi h) r3.1 h4
  have r4 := r3.steps hy a4
  have a5 : Steps c R strict ts .early s4 s5 :=
    steps_each hy (fun _ _ _ hk hi h => stopEvolve_steps hy rfl hk hi h) r4.1 h5
  have r5 := r4.steps hy a5
  have a6 : Steps c R strict ts .early s5 s6 :=
    steps_each hy (fun _ _ _ _ hi h => walkStep_steps hy ho (.inl rfl) hi h) r5.1 h6
  have r6 := r5.steps hy a6
  obtain ⟨t, a7, a7'⟩ := implicitStep_steps hy ho r6 h7
  exact ⟨t, (((((a1.trans a2).trans a3).trans a4).trans a5).trans a6).trans a7,
    a7'.tail (.record _ s7.enrouteNum (fun _ _ => rfl) fun h => absurd rfl h)⟩

theorem buses_steps (hy : Hyp c R strict) {orc : Orc} (ho : orc.Ok R) {evs : List BusEv} (hev : ∀ e ∈ evs, e ∈ orc.buses)
    {s s' : State} (hs : Inv c R strict s) (h : Res.foldlM (busEv c orc ts) s evs = .ok s') :
    Steps c R strict ts .bus s s' :=
  steps_each hy (fun _ _ _ he hi h => busEv_steps hy (.inl rfl) ho (hev _ he) hi h) hs h

theorem afterBuses_phases (hy : Hyp c R strict) {orc : Orc} (ho : orc.Ok R) {s s' : State}
    (hs : Inv c R strict s) (h : afterBuses c orc ts s = .ok s') :
    ∃ t, Res.foldlM (receive c orc ts) s c.destIds = .ok t ∧ Steps c R strict ts .recv s t ∧
      Steps c R strict ts .final t s' := by
  simp only [afterBuses, Res.bind_eq_ok', Res.ok.injEq] at h
  obtain ⟨s9, h9, s10, h10, s11, h11, rfl⟩ := h
  have a9 : Steps c R strict ts .recv s s9 :=
    steps_each hy (fun _ _ _ _ hi h => receive_steps hy (.inl rfl) hi h) hs h9
  have i9 := hs.steps hy a9
  have a10 : Steps c R strict ts .final s9 s10 := lotRouting_steps hy ho i9 h10
  have i10 := i9.steps hy a10
  have a11 : Steps c R strict ts .final s10 s11 :=
    steps_each hy (fun _ _ _ _ hi h => lotEvolve_steps hy hi h) i10 h11
  exact ⟨s9, h9, a9, a10.trans (a11.tail (.record s11.queueNum _ (fun h => absurd rfl h) fun _ _ => rfl))⟩

theorem loadOnce_phases (hy : Hyp c R strict) {orc : Orc} (ho : orc.Ok R) {assign : ℕ} {s s' : State}
    (hs : Inv c R strict s) (h : loadOnce c orc ts assign s = .ok s') :
    ∃ t w u v, Steps c R strict ts .early s t ∧ Steps c R strict ts .late t w ∧
      Res.foldlM (busEv c orc ts) w orc.buses = .ok u ∧ Steps c R strict ts .bus w u ∧
      Res.foldlM (receive c orc ts) u c.destIds = .ok v ∧ Steps c R strict ts .recv u v ∧
      Steps c R strict ts .final v s' := by
  simp only [loadOnce, Res.bind_eq_ok'] at h
  obtain ⟨w, h1, u, h2, h3⟩ := h
  obtain ⟨t, a1, a2⟩ := beforeBuses_phases hy ho hs h1
  have i2 := (hs.steps hy a1).steps hy a2
  have a3 := buses_steps hy ho (fun _ h => h) i2 h2
  obtain ⟨v, b1, b2, b3⟩ := afterBuses_phases hy ho (i2.steps hy a3) h3
  exact ⟨t, w, u, v, a1, a2, h2, a3, b1, b2, b3⟩

theorem loadOnce_steps (hy : Hyp c R strict) {orc : Orc} (ho : orc.Ok R) {assign : ℕ} {s s' : State}
    (hs : Inv c R strict s) (h : loadOnce c orc ts assign s = .ok s') :
    Steps c R strict ts .any s s' := by
  obtain ⟨t, w, u, v, h1, h2, _, h2', _, h3, h4⟩ := loadOnce_phases hy ho hs h
  exact (((Steps.mono h1).trans (Steps.mono h2)).trans (Steps.mono h2')).trans ((Steps.mono h3).trans (Steps.mono h4))

/-- An invariant of the elementary steps at all times is an invariant of loading. -/
theorem loadMany_inv (hy : Hyp c R strict) {P : ℕ → State → Prop}
    (hstep : ∀ ts s s', Inv c R strict s → P ts s → Micro c R strict ts .any s s' → P ts s')
    (htick : ∀ ts s, P ts s → P (ts + 1) s) :
    ∀ (orcs : List Orc) (ts assign : ℕ) (s : State) (r : State × ℕ × ℕ),
      (∀ o ∈ orcs, o.Ok R) → Inv c R strict s → P ts s → loadMany c orcs ts assign s = .ok r →
      Inv c R strict r.1 ∧ P r.2.1 r.1 ∧ r.2.1 = ts + orcs.length
  | [], ts, assign, s, r, _, hs, hP, h => by
    simp only [loadMany, Res.ok.injEq] at h
    subst h
    exact ⟨hs, hP, by simp⟩
  | o :: os, ts, assign, s, r, hok, hs, hP, h => by
    simp only [loadMany, Res.bind_eq_ok'] at h
    obtain ⟨s1, h1, h⟩ := h
    have a := loadOnce_steps hy (hok o List.mem_cons_self) hs h1
    have : Inv c R strict s1 ∧ P ts s1 :=
      Steps.inv (P := fun s => Inv c R strict s ∧ P ts s) (fun s s' h m => ⟨h.1.micro hy m, hstep ts s s' h.1 h.2 m⟩)
        a ⟨hs, hP⟩
    obtain ⟨b1, b2, b3⟩ := loadMany_inv hy hstep htick os (ts + 1) _ s1 r
      (fun x hx => hok x (List.mem_cons_of_mem _ hx)) this.1 (htick ts s1 this.2) h
    exact ⟨b1, b2, by rw [b3, List.length_cons]; omega⟩

end Sim

end Verif.Tr

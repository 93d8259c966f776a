import Verif.Lemmas.TransitBus

/-!
# One call of a bus at a stop
-/

namespace Verif.Tr
open Ults Curve

theorem alightCount_ok {c : Cfg} {v : ℕ} {s : State}
    (hd : ∀ n, (c.vstop v).alighting = some n → (c.link n).kind = .alighting) : ∀ (L : List ℕ) (al : ℤ),
    alightCount c v s L = .ok al → al = (L.countP (wantsOff c v s) : ℕ)
  | [], al, h => by
    simp only [alightCount, Res.ok.injEq] at h
    subst h; rfl
  | p :: L, al, h => by
    unfold alightCount at h
    split at h
    · simp at h
    · rename_i n hn
      split at h
      · simp only [Res.bind_eq_ok', Res.ok.injEq] at h
        obtain ⟨k, h1, rfl⟩ := h
        rw [alightCount_ok hd L k h1, List.countP_cons]
        push_cast
        congr 1
        have : (wantsOff c v s p = true) ↔ ((c.link n).kind = .alighting ∧ (c.vstop v).alighting = some n) := by
          simp only [wantsOff, hn, decide_eq_true_eq]
          exact ⟨fun h => ⟨hd n h.2.symm, h.2.symm⟩, fun h => ⟨by simp, h.2.symm⟩⟩
        by_cases e : wantsOff c v s p = true
        · rw [if_pos e, if_pos (this.1 e)]
        · rw [if_neg e, if_neg (fun h => e (this.2 h))]
      · rename_i hw
        split at h
        · simp at h
        · split at h
          · rw [alightCount_ok hd L al h, List.countP_cons, if_neg]
            · rfl
            · simp only [wantsOff, hn, decide_eq_true_eq, not_and]
              intro _ e
              rw [hd n e.symm] at hw
              simp [Kind.walking] at hw
          · simp at h

theorem upd_self {κ v : Type} [DecidableEq κ] (f : κ → v) (k : κ) : upd f k (f k) = f := by
  funext q
  by_cases h : q = k
  · subst h; simp
  · simp [upd_other _ _ _ _ h]

theorem ite_ok' {α : Type} {P : Prop} [Decidable P] {a b r : α}
    (h : (if P then Res.ok a else Res.ok b) = Res.ok r) : (P ∧ r = a) ∨ (¬ P ∧ r = b) := by
  split at h <;> simp only [Res.ok.injEq] at h
  · exact .inl ⟨‹_›, h.symm⟩
  · exact .inr ⟨‹_›, h.symm⟩

theorem le_dwell (a b : ℤ) (P : Prop) [Decidable (a > 0 ∧ a < b ∧ P)] :
    a ≤ if a > 0 ∧ a < b ∧ P then b else a := by
  split <;> omega

/-- A reason for a bus to stay at a stop: someone gets off, or there is room and someone waits. -/
def Work (c : Cfg) (v b : ℕ) (s : State) : Prop :=
  (∃ p ∈ s.loc (.bus b), wantsOff c v s p = true) ∨
  (((s.loc (.bus b)).countP fun p => !wantsOff c v s p : ℕ) < c.busCap * trunc c.scalar ∧
    ∃ p ∈ waiting c v s, wantsRoute c (c.busRoute b) s p = true)

theorem countP_not (f : ℕ → Bool) : ∀ L : List ℕ, L.countP f + L.countP (fun p => !f p) = L.length
  | [] => rfl
  | x :: L => by
    have := countP_not f L
    simp only [List.countP_cons, List.length_cons]
    cases f x <;> simp <;> omega

/-- The cases of `hold_bus`. -/
theorem holdBus_cases {c : Cfg} {v b : ℕ} {s : State} {r : State × Bool}
    (hd : ∀ n, (c.vstop v).alighting = some n → (c.link n).kind = .alighting) (hst : 0 ≤ s.stopped b)
    (h : holdBus c v b s = .ok r) :
    b ∈ s.busQ v ∧
    ((s.counter v < trunc c.scalar - 1 ∧ s.stopped b = 0 ∧
        r = ({ s with counter := upd s.counter v (s.counter v + 1) }, false)) ∨
     (s.counter v = trunc c.scalar ∧ s.stopped b = 0 ∧ r = (s, true)) ∨
     (((s.stopped b = 0 ∧ s.counter v = trunc c.scalar - 1) ∨ (0 < s.stopped b ∧ s.counter v = trunc c.scalar)) ∧
       ((r = ({ s with counter := upd s.counter v (trunc c.scalar), stopped := upd s.stopped b (s.stopped b + 1) }, true)) ∨
        (r = ({ s with counter := upd s.counter v 0 }, false) ∧ ¬ Work c v b s ∧
          (c.minDwell ≤ s.stopped b ∨
            (s.stopped b = 0 ∧ ((s.loc (.bus b)).length : ℤ) = c.busCap * trunc c.scalar)))))) := by
  unfold holdBus at h
  simp only at h
  split at h
  · simp at h
  · rename_i hb
    simp only [not_not] at hb
    refine ⟨hb, ?_⟩
    split at h
    · simp at h
    · split at h
      · rename_i h0
        simp only [Res.ok.injEq] at h
        exact .inl ⟨h0.1, h0.2, h.symm⟩
      · split at h
        · rename_i h0
          simp only [Res.ok.injEq] at h
          exact .inr (.inl ⟨h0.1, h0.2, h.symm⟩)
        · simp only [Res.bind_eq_ok'] at h
          obtain ⟨al, hal, t, h1, h⟩ := h
          right; right
          have hcase : ((s.stopped b = 0 ∧ s.counter v = trunc c.scalar - 1) ∨
              (0 < s.stopped b ∧ s.counter v = trunc c.scalar)) ∧
              t = { s with counter := upd s.counter v (trunc c.scalar) } := by
            unfold holdCount at h1
            split at h1
            · rename_i h0
              split at h1
              · simp at h1
              · rename_i hc
                simp only [ne_eq, not_not] at hc
                simp only [Res.ok.injEq] at h1
                refine ⟨.inl ⟨h0, hc⟩, ?_⟩
                rw [← h1, hc]; simp
            · rename_i h0
              split at h1
              · simp at h1
              · rename_i hc
                simp only [ne_eq, not_not] at hc
                simp only [Res.ok.injEq] at h1
                refine ⟨.inr ⟨by omega, hc⟩, ?_⟩
                rw [← h1, ← hc, upd_self]
          obtain ⟨hc, rfl⟩ := hcase
          refine ⟨hc, ?_⟩
          rcases ite_ok' h with ⟨_, h⟩ | ⟨hno, h⟩
          · exact .inl h
          · simp only [upd_upd] at h
            refine .inr ⟨h, ?_⟩
            push Not at hno
            obtain ⟨hdw, hal0, hwork⟩ := hno
            have eal := alightCount_ok hd _ _ hal
            have hcnt := countP_not (wantsOff c v s) (s.loc (.bus b))
            refine ⟨?_, ?_⟩
            · rintro (⟨p, hp, hw⟩ | ⟨hroom, p, hp, hw⟩)
              · have : 0 < (s.loc (.bus b)).countP (wantsOff c v s) := List.countP_pos_iff.2 ⟨p, hp, hw⟩
                omega
              · have hrem : 0 < c.busCap * trunc c.scalar - ((s.loc (.bus b)).length : ℤ) + al := by
                  omega
                rw [if_pos hrem] at hwork
                unfold waiting at hp
                split at hp
                · simp at hp
                · rename_i w hbw
                  rw [hbw] at hwork
                  have : 0 < (s.loc (.finished w)).countP (wantsRoute c (c.busRoute b) s) :=
                    List.countP_pos_iff.2 ⟨p, hp, hw⟩
                  have := hwork this
                  omega
            · have hal' : al = 0 := by omega
              by_cases hz : al = 0 ∧ c.busCap * trunc c.scalar - ((s.loc (.bus b)).length : ℤ) + al = 0 ∧ s.stopped b = 0
              · exact .inr ⟨hz.2.2, by omega⟩
              · rw [if_neg hz] at hdw
                left
                exact le_trans (le_dwell _ _ _) hdw

theorem alightLoop_count {c : Cfg} {ts v b : ℕ}
    (hd : ∀ n, (c.vstop v).alighting = some n → (c.link n).kind = .alighting) :
    ∀ (L : List ℕ) (k : ℤ) (s s' : State), L.Nodup → alightLoop c ts v b k L s = .ok s' →
    ∃ off : List ℕ, off = (L.filter (wantsOff c v s)).take (c.maxAlight * trunc c.scalar - k).toNat ∧
      s'.log = s.log ++ off.map (fun p => ⟨ts, p, (c.vstop v).busIn, (c.vstop v).alighting⟩) ∧
      (off ≠ [] → (c.vstop v).busIn ≠ none) ∧
      s'.loc (.bus b) = (s.loc (.bus b)).diff off ∧
      ∀ w, (c.vstop v).alighting ≠ some w → s'.loc (.finished w) = s.loc (.finished w)
  | [], k, s, s', _, h => by
    simp only [alightLoop, Res.ok.injEq] at h
    subst h
    exact ⟨[], by simp⟩
  | p :: L, k, s, s', hn, h => by
    rw [List.nodup_cons] at hn
    unfold alightLoop at h
    split at h
    · simp at h
    · rename_i n hnext
      split at h
      · rename_i hcond
        have hp : wantsOff c v s p = true := by simp [wantsOff, hnext, hcond.2]
        split at h
        · rename_i hk
          simp only [Res.ok.injEq] at h
          subst h
          exact ⟨[], by simp [show (c.maxAlight * trunc c.scalar - k).toNat = 0 by omega]⟩
        · rename_i hk
          split at h
          · simp at h
          · rename_i i hin
            simp only [Res.bind_eq_ok'] at h
            obtain ⟨t, h1, h⟩ := h
            have hx := cross_ok h1
            obtain ⟨off, e1, e2, e3, e4, e5⟩ := alightLoop_count hd L (k + 1) t s' hn.2 h
            have hf : L.filter (wantsOff c v t) = L.filter (wantsOff c v s) := by
              refine List.filter_congr fun q hq => ?_
              have hne : q ≠ p := by rintro rfl; exact hn.1 hq
              have : (t.pax q).next = (s.pax q).next := by
                rw [hx.eq]; simp [upd_other _ _ _ _ hne, State.shift, State.setWait]
              simp [wantsOff, this]
            refine ⟨p :: off, ?_, ?_, ?_, ?_, ?_⟩
            · rw [List.filter_cons_of_pos hp, e1, hf,
                show (c.maxAlight * trunc c.scalar - k).toNat = (c.maxAlight * trunc c.scalar - (k + 1)).toNat + 1 by omega,
                List.take_succ_cons]
            · rw [e2, show t.log = s.log ++ [⟨ts, p, some i, some n⟩] by rw [hx.eq]; rfl, hin, hcond.2]
              simp
            · rw [hin]; simp
            · rw [e4, List.diff_cons]
              congr 1
              rw [show t.loc (.bus b) = ((s.setWait p 0).shift p (.bus b) (.finished n)).loc (.bus b) by rw [hx.eq],
                shift_loc _ p (by simp)]
              simp [State.setWait]
            · intro w hw
              have hwn : w ≠ n := by rintro rfl; exact hw hcond.2
              rw [e5 w hw, show t.loc (.finished w) = ((s.setWait p 0).shift p (.bus b) (.finished n)).loc (.finished w) by rw [hx.eq],
                shift_loc _ p (by simp)]
              simp [hwn, State.setWait]
      · rename_i hcond
        have hp : ¬ wantsOff c v s p = true := by
          simp only [wantsOff, hnext, decide_eq_true_eq, not_and]
          intro _ e
          exact hcond ⟨by rw [hd n e.symm]; rfl, e.symm⟩
        obtain ⟨off, e1, e2⟩ := alightLoop_count hd L k s s' hn.2 h
        exact ⟨off, by rw [List.filter_cons_of_neg hp]; exact e1, e2⟩

theorem boardLoop_count {c : Cfg} {ts v b w : ℕ} {rem : ℤ} :
    ∀ (L : List ℕ) (k : ℤ) (s s' : State), boardLoop c ts v b w rem k L s = .ok s' →
    ∃ on : List ℕ, on = L.take (rem - k).toNat ∧
      s'.log = s.log ++ on.map (fun p => ⟨ts, p, some w, (c.vstop v).busOut⟩) ∧
      s'.loc (.bus b) = s.loc (.bus b) ++ on
  | [], k, s, s', h => by
    simp only [boardLoop, Res.ok.injEq] at h
    subst h
    exact ⟨[], by simp⟩
  | p :: L, k, s, s', h => by
    unfold boardLoop at h
    split at h
    · simp at h
    · rename_i n hnext
      split at h
      · rename_i hcond
        split at h
        · rename_i hk
          simp only [Res.ok.injEq] at h
          subst h
          exact ⟨[], by simp [show (rem - k).toNat = 0 by omega]⟩
        · simp only [Res.bind_eq_ok'] at h
          obtain ⟨t, h1, h⟩ := h
          have hx := cross_ok h1
          obtain ⟨on, e1, e2, e3⟩ := boardLoop_count L (k + 1) t s' h
          refine ⟨p :: on, ?_, ?_, ?_⟩
          · rw [e1, show (rem - k).toNat = (rem - (k + 1)).toNat + 1 by omega, List.take_succ_cons]
          · rw [e2, show t.log = s.log ++ [⟨ts, p, some w, some n⟩] by rw [hx.eq]; rfl, hcond.2]
            simp
          · rw [e3, show t.loc (.bus b) = (s.shift p (.finished w) (.bus b)).loc (.bus b) by rw [hx.eq],
              shift_loc _ p (by simp)]
            simp
      · simp at h

/-- Who gets off and who gets on when the doors are open. -/
theorem boardAlight_count {c : Cfg} {ts v b : ℕ} {sh : List ℕ → List ℕ} (hsh : ∀ L, (sh L).Perm L)
    (hd : ∀ n, (c.vstop v).alighting = some n → (c.link n).kind = .alighting ∧ (c.vstop v).boarding ≠ some n)
    {s s' : State} (hn : (s.loc (.bus b)).Nodup) (h : boardAlight c ts v b sh s = .ok s') :
    ∃ off on : List ℕ,
      off = ((s.loc (.bus b)).filter (wantsOff c v s)).take (c.maxAlight * trunc c.scalar).toNat ∧
      on = (waiting c v s).take (min (trunc (c.busCap * c.scalar) - ((s.loc (.bus b)).length - off.length : ℤ))
        (trunc (c.maxBoard * c.scalar))).toNat ∧
      s'.log = s.log ++ off.map (fun p => ⟨ts, p, (c.vstop v).busIn, (c.vstop v).alighting⟩) ++
        on.map (fun p => ⟨ts, p, (c.vstop v).boarding, (c.vstop v).busOut⟩) ∧
      (s'.loc (.bus b)).Perm ((s.loc (.bus b)).filter (fun p => decide (p ∉ off)) ++ on) := by
  simp only [boardAlight, Res.bind_eq_ok', Res.ok.injEq] at h
  obtain ⟨s1, h1, s2, h2, rfl⟩ := h
  obtain ⟨off, e1, e2, e3, e4, e5⟩ := alightLoop_count (fun n hn => (hd n hn).1) _ _ _ _ hn h1
  have hsub : List.Sublist off (s.loc (.bus b)) := by
    rw [e1]; exact (List.take_sublist _ _).trans List.filter_sublist
  have hlen : ((s1.loc (.bus b)).length : ℤ) = (s.loc (.bus b)).length - off.length := by
    have := (List.subperm_append_diff_self_of_count_le (l₁ := off) (l₂ := s.loc (.bus b))
      (fun x _ => hsub.count_le x)).length_eq
    rw [List.length_append] at this
    rw [e4]; omega
  have hroom : room c b s1 = min (trunc (c.busCap * c.scalar) - ((s.loc (.bus b)).length - off.length : ℤ))
        (trunc (c.maxBoard * c.scalar)) := by
    unfold room; rw [hlen]
  have hfil : s1.loc (.bus b) = (s.loc (.bus b)).filter (fun p => decide (p ∉ off)) := by
    rw [e4, hn.sdiff_eq_filter]
  have key : ∃ on : List ℕ, on = (waiting c v s).take (room c b s1).toNat ∧
      s2.log = s1.log ++ on.map (fun p => ⟨ts, p, (c.vstop v).boarding, (c.vstop v).busOut⟩) ∧
      s2.loc (.bus b) = s1.loc (.bus b) ++ on := by
    unfold board at h2
    split at h2
    · split at h2
      · rename_i hb
        simp only [Res.ok.injEq] at h2
        subst h2
        exact ⟨[], by simp [waiting, hb]⟩
      · rename_i w hb
        obtain ⟨on, g1, g2, g3⟩ := boardLoop_count _ _ _ _ h2
        refine ⟨on, ?_, by rw [hb]; exact g2, g3⟩
        rw [g1, sub_zero]
        unfold waiting
        rw [hb]
        simp only
        rw [e5 w fun e => (hd w e).2 hb]
    · rename_i hr
      simp only [Res.ok.injEq] at h2
      subst h2
      exact ⟨[], by simp [show (room c b s1).toNat = 0 by omega]⟩
  obtain ⟨on, g1, g2, g3⟩ := key
  refine ⟨off, on, by simpa using e1, by rw [g1, hroom], by rw [g2, e2], ?_⟩
  simp only [upd_same]
  refine (hsh _).trans ?_
  rw [g3, hfil]

/-- The passengers of a bus that leaves ride on. -/
theorem rideOn_count {c : Cfg} {ts v b : ℕ} {s s' : State} (hn : (s.loc (.bus b)).Nodup)
    (h : rideOn c ts v b s = .ok s') :
    s'.loc = s.loc ∧ (∀ p ∈ s.loc (.bus b), (s.pax p).next = (c.vstop v).busOut) ∧
    s'.log = s.log ++ ((s.loc (.bus b)).filter fun p => decide ((s.pax p).cur ≠ (c.vstop v).busOut)).map
      (fun p => ⟨ts, p, (c.vstop v).busIn, (c.vstop v).busOut⟩) := by
  unfold rideOn at h
  split at h
  · rename_i o ho
    rw [ho]
    have key : ∀ (L : List ℕ) (t t' : State), L.Nodup → Res.foldlM (ridePax c ts v o) t L = .ok t' →
        t'.loc = t.loc ∧ (∀ p ∈ L, (t.pax p).next = some o) ∧
        t'.log = t.log ++ (L.filter fun p => decide ((t.pax p).cur ≠ some o)).map
          (fun p => ⟨ts, p, (c.vstop v).busIn, some o⟩) := by
      intro L
      induction L with
      | nil =>
        intro t t' _ h
        simp only [Res.foldlM_nil, Res.ok.injEq] at h
        subst h
        simp
      | cons p L ih =>
        intro t t' hn h
        rw [Res.foldlM_cons, Res.bind_eq_ok] at h
        obtain ⟨t1, h1, h⟩ := h
        rw [List.nodup_cons] at hn
        obtain ⟨i1, i2, i3⟩ := ih t1 t' hn.2 h
        have one : t1.loc = t.loc ∧ (∀ q, q ≠ p → t1.pax q = t.pax q) ∧ (t.pax p).next = some o ∧
            t1.log = t.log ++ (if (t.pax p).cur ≠ some o then [⟨ts, p, (c.vstop v).busIn, some o⟩] else []) := by
          unfold ridePax at h1
          split at h1
          · rename_i n i' hnext hcur
            split at h1
            · simp at h1
            · rename_i hno
              simp only [ne_eq, not_not] at hno
              subst hno
              split at h1
              · rename_i hi'
                split at h1
                · simp at h1
                · rename_i i hin
                  have hx := cross_ok h1
                  refine ⟨by rw [hx.eq], fun q hq => ?_, hnext, ?_⟩
                  · rw [hx.eq]; simp [upd_other _ _ _ _ hq]
                  · rw [hx.eq, hcur, if_pos (by simpa using hi'), hin]
              · rename_i hi'
                simp only [ne_eq, not_not] at hi'
                simp only [Res.ok.injEq] at h1
                subst h1
                exact ⟨rfl, fun _ _ => rfl, hnext, by simp [hcur, hi']⟩
          · simp at h1
        obtain ⟨o1, o2, o3, o4⟩ := one
        have hpax : ∀ q ∈ L, t1.pax q = t.pax q := fun q hq => o2 q (by rintro rfl; exact hn.1 hq)
        refine ⟨i1.trans o1, fun q hq => ?_, ?_⟩
        · rcases List.mem_cons.1 hq with rfl | hq
          · exact o3
          · rw [← hpax q hq]; exact i2 q hq
        · rw [i3, o4]
          have hf : (L.filter fun p => decide ((t1.pax p).cur ≠ some o)) =
              L.filter fun p => decide ((t.pax p).cur ≠ some o) :=
            List.filter_congr fun q hq => by rw [hpax q hq]
          rw [hf]
          by_cases hc : (t.pax p).cur ≠ some o
          · rw [if_pos hc, List.filter_cons_of_pos (by simpa using hc)]; simp
          · rw [if_neg hc, List.filter_cons_of_neg (by simpa using hc)]; simp
    exact key _ s s' hn h
  · rename_i ho
    split at h
    · simp at h
    · rename_i hnil
      simp only [ne_eq, not_not] at hnil
      simp only [Res.ok.injEq] at h
      subst h
      simp [hnil]

/-- A bus that leaves. -/
structure Gone (c : Cfg) (ts v b : ℕ) (s s' : State) : Prop where
  bOut : ∃ k, addIncrement (s.bOut v) ((ts : ℚ) + 1, 1 / c.scalar) = .ok k ∧ s'.bOut = upd s.bOut v k
  busQ : s'.busQ = upd s.busQ v ((s.busQ v).erase b)
  bIn : s'.bIn = s.bIn
  stopped : s'.stopped = upd s.stopped b 0
  loc : s'.loc = s.loc
  next : ∀ p ∈ s.loc (.bus b), (s.pax p).next = (c.vstop v).busOut
  log : s'.log = s.log ++ ((s.loc (.bus b)).filter fun p => decide ((s.pax p).cur ≠ (c.vstop v).busOut)).map
      (fun p => ⟨ts, p, (c.vstop v).busIn, (c.vstop v).busOut⟩)

/-- A bus that is served. -/
structure Served (c : Cfg) (ts v b : ℕ) (s s' : State) : Prop where
  shut : s.stopped b + 1 ≤ c.lost → s'.log = s.log ∧ s'.loc = s.loc
  opened : c.lost < s.stopped b + 1 → ∃ off on : List ℕ,
      off = ((s.loc (.bus b)).filter (wantsOff c v s)).take (c.maxAlight * trunc c.scalar).toNat ∧
      on = (waiting c v s).take (min (trunc (c.busCap * c.scalar) - ((s.loc (.bus b)).length - off.length : ℤ))
        (trunc (c.maxBoard * c.scalar))).toNat ∧
      s'.log = s.log ++ off.map (fun p => ⟨ts, p, (c.vstop v).busIn, (c.vstop v).alighting⟩) ++
        on.map (fun p => ⟨ts, p, (c.vstop v).boarding, (c.vstop v).busOut⟩) ∧
      (s'.loc (.bus b)).Perm ((s.loc (.bus b)).filter (fun p => decide (p ∉ off)) ++ on)

/-- What a call of a driving link for bus `b` at stop `v` does. -/
inductive Visit (c : Cfg) (ts v b : ℕ) (s s' : State) : Prop where
  | pass (counter : s.counter v < trunc c.scalar - 1) (fresh : s.stopped b = 0)
      (left : s'.counter = upd s.counter v (s.counter v + 1)) (gone : Gone c ts v b s s')
  | queue (counter : s.counter v = trunc c.scalar) (fresh : s.stopped b = 0) (eq : s' = s)
  | held (counter : (s.stopped b = 0 ∧ s.counter v = trunc c.scalar - 1) ∨
        (0 < s.stopped b ∧ s.counter v = trunc c.scalar))
      (left : s'.counter = upd s.counter v (trunc c.scalar)) (stopped : s'.stopped = upd s.stopped b (s.stopped b + 1))
      (busQ : s'.busQ = s.busQ) (bIn : s'.bIn = s.bIn) (bOut : s'.bOut = s.bOut)
      (served : Served c ts v b s s')
  | done (counter : (s.stopped b = 0 ∧ s.counter v = trunc c.scalar - 1) ∨
        (0 < s.stopped b ∧ s.counter v = trunc c.scalar))
      (left : s'.counter = upd s.counter v 0) (work : ¬ Work c v b s)
      (dwell : c.minDwell ≤ s.stopped b ∨
            (s.stopped b = 0 ∧ ((s.loc (.bus b)).length : ℤ) = c.busCap * trunc c.scalar))
      (gone : Gone c ts v b s s')

theorem visitBus_cases {c : Cfg} {R : Routes} {strict : Prop} (hy : Hyp c R strict) {ts v b : ℕ}
    {sh : List ℕ → List ℕ} (hsh : ∀ L, (sh L).Perm L) (hl : 0 ≤ c.lost) {s s' : State}
    (hs : Inv c R strict s) (hst : 0 ≤ s.stopped b) (h : visitBus c ts v b sh s = .ok s') :
    b ∈ s.busQ v ∧ Visit c ts v b s s' := by
  simp only [visitBus, Res.bind_eq_ok'] at h
  obtain ⟨r, h1, h⟩ := h
  have hv : v ∈ c.vstopIds := by
    have := (holdBus_steps (c := c) (R := R) (strict := strict) (ts := ts) (ph := .any) (.inr rfl) h1).2.2
    exact hs.stops.known v b this
  obtain ⟨hb, hcase⟩ := holdBus_cases (fun n hn => (hy.wf.doors v hv n hn).1) hst h1
  refine ⟨hb, ?_⟩
  have hn := hs.placed.nodup (.bus b)
  have leave : ∀ (t : State), (∃ f, t = { s with counter := f }) → r = (t, false) →
      s'.counter = t.counter ∧ Gone c ts v b s s' := by
    rintro t ⟨f, rfl⟩ rfl
    simp only [Bool.false_eq_true, if_false, releaseBus, Res.bind_eq_ok'] at h
    obtain ⟨u, g1, k, g2, h⟩ := h
    have m : Micro c R strict ts .any s { s with counter := f, stopped := upd s.stopped b 0 } := .book (.inr rfl) _ _
    have kept := (rideOn_steps (ph := .early) hy (hs.micro hy m) (v := v) hb g1).1.kept (by simp) (by simp)
    obtain ⟨r1, r2, r3⟩ := rideOn_count (by exact hn) g1
    split at h
    · simp only [Res.ok.injEq] at h
      subst h
      refine ⟨kept.counter, ⟨⟨k, by rw [kept.bOut] at g2; exact g2, by rw [← kept.bOut]⟩, ?_, kept.bIn, kept.stopped,
        r1, r2, r3⟩⟩
      rw [← kept.busQ]
    · simp at h
  rcases hcase with ⟨c1, c2, rfl⟩ | ⟨c1, c2, rfl⟩ | ⟨c1, ⟨rfl⟩ | ⟨rfl, c3, c4⟩⟩
  · obtain ⟨l1, l2⟩ := leave _ ⟨_, rfl⟩ rfl
    exact .pass c1 c2 l1 l2
  · simp only [if_true] at h
    rw [if_neg (by omega)] at h
    simp only [Res.ok.injEq] at h
    exact .queue c1 c2 h.symm
  · simp only [if_true, upd_same] at h
    have m : Micro c R strict ts .any s { s with counter := upd s.counter v (trunc c.scalar), stopped := upd s.stopped b (s.stopped b + 1) } :=
      .book (.inr rfl) _ _
    by_cases ho : s.stopped b + 1 > c.lost
    · rw [if_pos ho] at h
      have kept := (boardAlight_steps (ph := .early) hy hsh (hs.micro hy m) (v := v) hb h).kept (by simp) (by simp)
      refine .held c1 kept.counter kept.stopped kept.busQ kept.bIn kept.bOut ⟨fun e => by omega, fun _ => ?_⟩
      have := boardAlight_count hsh (fun n hn => hy.wf.doors v hv n hn) (by exact hn) h
      exact this
    · rw [if_neg ho] at h
      simp only [Res.ok.injEq] at h
      subst h
      exact .held c1 rfl rfl rfl rfl rfl ⟨fun _ => ⟨rfl, rfl⟩, fun e => by omega⟩
  · obtain ⟨l1, l2⟩ := leave _ ⟨_, rfl⟩ rfl
    exact .done c1 l1 c3 c4 l2

/-! ### The counters at stops are right -/

theorem Terms.visit {c : Cfg} {ts v b : ℕ} {s s' : State} (h : Terms c ts s) (hs : AtStops c s)
    (hk : 1 ≤ trunc c.scalar) (at_ : b ∈ s.busQ v) (hv : Visit c ts v b s s') : Terms c ts s' := by
  cases hv with
  | pass counter fresh left gone =>
    obtain ⟨k, h1, h2⟩ := gone.bOut
    exact h.busOut hs hk at_ _ h1 (.inl ⟨counter, fresh, rfl⟩) left gone.stopped gone.busQ gone.bIn h2
  | queue counter fresh eq => rw [eq]; exact h
  | held counter left stopped busQ bIn bOut served =>
    refine h.held hs hk at_ ?_ left stopped busQ bIn bOut
    rcases counter with e | e
    · exact .inr e.2
    · exact .inl e.1
  | done counter left work dwell gone =>
    obtain ⟨k, h1, h2⟩ := gone.bOut
    refine h.busOut hs hk at_ 0 h1 (.inr ⟨?_, rfl⟩) left gone.stopped gone.busQ gone.bIn h2
    rcases counter with e | e
    · exact .inr e.2
    · exact .inl e.1

theorem Terms.busEv {c : Cfg} {R : Routes} {strict : Prop} (hy : Hyp c R strict) (hk : 1 ≤ trunc c.scalar)
    (hl : 0 ≤ c.lost) {orc : Orc} (ho : orc.Ok R) {ts : ℕ} {e : BusEv} (he : e ∈ orc.buses) {s s' : State}
    (hs : Inv c R strict s) (ht : Terms c ts s) (h : busEv c orc ts s e = .ok s') : Terms c ts s' := by
  cases e with
  | receive v b =>
    simp only [Tr.busEv] at h
    split at h
    · rename_i hf
      simp only [receiveBus, Res.bind_eq_ok'] at h
      obtain ⟨k, h1, t, h2, h3⟩ := h
      have free : ∀ v', b ∉ s.busQ v' := fun v' hv' => hf.2 v' (hs.stops.known v' b hv') hv'
      have m : Micro c R strict ts .any s
          { s with bIn := upd s.bIn v k, busQ := upd s.busQ v (s.busQ v ++ [b]) } :=
        .busIn (.inr rfl) v b k hf.1.1 hf.1.2 free h1
      have i0 := hs.micro hy m
      obtain ⟨a1, _⟩ := fixedOneStop_steps (ts := ts) (ph := .early) hy i0 h2
      have a2 := (adaptiveOneStop_steps (ts := ts) (ph := .early) hy (i0.steps hy a1) h3).1
      exact (ht.busIn free h1).of_kept ((a1.kept (by simp) (by simp)).trans (a2.kept (by simp) (by simp)))
    · simp at h
  | visit v b sh =>
    obtain ⟨hb, hv⟩ := visitBus_cases hy (ho.buses v b sh he) hl hs (ht.nonneg b) h
    exact ht.visit hs.stops hk hb hv

theorem Terms.busEvs {c : Cfg} {R : Routes} {strict : Prop} (hy : Hyp c R strict) (hk : 1 ≤ trunc c.scalar)
    (hl : 0 ≤ c.lost) {orc : Orc} (ho : orc.Ok R) {ts : ℕ} : ∀ (evs : List BusEv) (_ : ∀ e ∈ evs, e ∈ orc.buses)
    {s s' : State}, Inv c R strict s → Terms c ts s → Res.foldlM (Tr.busEv c orc ts) s evs = .ok s' → Terms c ts s'
  | [], _, s, s', _, ht, h => by
    simp only [Res.foldlM_nil, Res.ok.injEq] at h
    subst h; exact ht
  | e :: evs, he, s, s', hs, ht, h => by
    rw [Res.foldlM_cons, Res.bind_eq_ok] at h
    obtain ⟨t, h1, h⟩ := h
    exact Terms.busEvs hy hk hl ho evs (fun x hx => he x (List.mem_cons_of_mem _ hx))
      (hs.steps hy (busEv_steps (ph := .any) hy (.inr rfl) ho (he e List.mem_cons_self) hs h1))
      (ht.busEv hy hk hl ho (he e List.mem_cons_self) hs h1) h

theorem Terms.init {c : Cfg} (hk : 1 ≤ trunc c.scalar) : Terms c 0 (State.init c) := by
  refine ⟨fun v => ⟨[], [], ⟨rfl, by simp, by simp⟩, ⟨rfl, by simp, by simp⟩, rfl, le_refl _, ?_, ?_, ?_⟩, ?_, ?_, ?_⟩
  · simp only [State.init]; omega
  · intro _; simp [State.init]
  · intro e; simp only [State.init] at e; omega
  · simp [State.init]
  · simp [State.init]
  · simp [State.init]

theorem load_terms {c : Cfg} {R : Routes} {strict : Prop} (hy : Hyp c R strict) (hk : 1 ≤ trunc c.scalar)
    (hl : 0 ≤ c.lost) {orcs : List Orc}
    (hok : ∀ o ∈ orcs, o.Ok R) {r : State × ℕ × ℕ} (h : loadMany c orcs 0 0 (State.init c) = .ok r) :
    Inv c R strict r.1 ∧ Terms c orcs.length r.1 := by
  have := loadMany_each (R := R) (P := fun _ ts s => Inv c R strict s ∧ Terms c ts s)
    (fun _ o ts assign s s' ho hP hld => by
      obtain ⟨t, w, u, v, h1, h2, h3, h3', _, h4, h5⟩ := loadOnce_phases hy ho hP.1 hld
      have i1 := (hP.1.steps hy h1).steps hy h2
      have k1 := hP.2.of_kept ((h1.kept (by simp) (by simp)).trans (h2.kept (by simp) (by simp)))
      have k2 := k1.busEvs hy hk hl ho _ (fun _ x => x) i1 h3
      exact ⟨((i1.steps hy h3').steps hy h4).steps hy h5,
        (k2.of_kept ((h4.kept (by simp) (by simp)).trans (h5.kept (by simp) (by simp)))).tick⟩)
    orcs [] 0 0 _ r hok ⟨Inv.init c R strict, Terms.init hk⟩ h
  rw [loadMany_ts orcs 0 0 _ r h] at this
  simpa using this

theorem within_terms {c : Cfg} {R : Routes} {strict : Prop} (hy : Hyp c R strict) (hk : 1 ≤ trunc c.scalar)
    (hl : 0 ≤ c.lost) {orcs : List Orc} {o : Orc} {evs : List BusEv} {x : State}
    (hok : ∀ o ∈ orcs, o.Ok R) (ho : o.Ok R) (he : ∀ e ∈ evs, e ∈ o.buses) (h : Within c orcs o evs x) :
    Inv c R strict x ∧ Terms c orcs.length x := by
  obtain ⟨r, w, h1, h2, h3⟩ := h
  obtain ⟨i, k⟩ := load_terms hy hk hl hok h1
  obtain ⟨t, s1, s2⟩ := beforeBuses_phases hy ho i h2
  have i1 := (i.steps hy s1).steps hy s2
  have k1 := k.of_kept ((s1.kept (by simp) (by simp)).trans (s2.kept (by simp) (by simp)))
  exact ⟨i1.steps hy (buses_steps hy ho he i1 h3), k1.busEvs hy hk hl ho _ he i1 h3⟩

theorem within_more {c : Cfg} {R : Routes} {strict : Prop} (hy : Hyp c R strict) {orcs : List Orc} {o : Orc}
    {evs : List BusEv} {x : State} (hok : ∀ o ∈ orcs, o.Ok R) (ho : o.Ok R) (he : ∀ e ∈ evs, e ∈ o.buses)
    (h : Within c orcs o evs x) : Inv c R strict x ∧ More c orcs.length x := by
  obtain ⟨r, w, h1, h2, h3⟩ := h
  have f := load_full hy hok h1
  have key : ∀ {ph a b}, Steps c R strict orcs.length ph a b → Inv c R strict a ∧ More c orcs.length a →
      Inv c R strict b ∧ More c orcs.length b := fun hst ha =>
    Steps.inv (P := fun a => Inv c R strict a ∧ More c orcs.length a) (fun _ _ hm m =>
      ⟨hm.1.micro hy m, hm.2.micro hy hm.1 m⟩) hst ha
  obtain ⟨t, s1, s2⟩ := beforeBuses_phases hy ho f.inv h2
  have k := key s2 (key s1 ⟨f.inv, f.more⟩)
  exact key (buses_steps hy ho he k.1 h3) k

/-- What a curve of buses says. -/
theorem Counts.get {c : Cfg} (hc : 0 < c.scalar) {ts : ℕ} (ht : ts + 1 < 10000) {h : List (ℕ × ℕ)} {k : Curve}
    (a : Counts c ts h k) : getResult k ((ts + 1 : ℕ) : ℚ) = .ok ((h.length : ℚ) / c.scalar) := by
  obtain ⟨k', e, hh⟩ := Tt.run_holds hc ht (h := h) ⟨fun p hp => (a.one p hp).2, a.order⟩
  rw [a.eq] at e
  obtain rfl := Res.ok.inj e
  rw [hh.get (ts + 1) ht]
  congr 3
  unfold Tt.upTo
  rw [List.filter_eq_self.2 fun p hp => by simpa using (a.one p hp).2.2,
    List.map_congr_left (g := fun _ => 1) fun p hp => (a.one p hp).1]
  simp

end Verif.Tr

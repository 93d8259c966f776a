import Verif.Lemmas.Ltg

/-!
# Lemmas about the tables for travel time gradients
-/

namespace Verif.Ltg
open Ults Curve Lnk Query Marg MQuery Tt

variable {V : Type}

theorem validUntil_of {σ : ℚ} {T : ℕ} {ins outs : List (ℕ × ℕ)} {c0 : LinkCc} (h : Loaded σ T ins outs c0) :
    ∃ L : ℕ, lastTime T c0 = .ok (L : ℚ) ∧ ValidUntil T ins outs L := by
  obtain ⟨cin, hci, hin⟩ := run_holds h.scalar.1 h.time h.histIn
  obtain ⟨cout, hco, hout⟩ := run_holds h.scalar.1 h.time h.histOut
  have e1 : cin = c0.nIn := by have := h.nIn; rw [hci] at this; exact Res.ok.inj this
  have e2 : cout = c0.nOut := by have := h.nOut; rw [hco] at this; exact Res.ok.inj this
  subst e1 e2
  have hl : lastTime T c0 = getLastValidTime c0.nIn c0.nOut T := by
    unfold lastTime
    rw [if_pos (by rw [h.fresh]; norm_num)]
  rw [hl]
  rcases lastValid_holds h.scalar.1 h.time hin hout (upTo_zero h.histIn)
    (fun t => lt_of_le_of_lt (upTo_le_total h.histIn t) h.count) h.le with ⟨a, b, c⟩ | ⟨S, a, b, c⟩
  · exact ⟨0, by rw [b]; norm_num, Or.inl ⟨a, c, rfl⟩⟩
  · exact ⟨S, b, Or.inr ⟨c, a⟩⟩

theorem validUntil_le {T : ℕ} {ins outs : List (ℕ × ℕ)} {L : ℕ} (h : ValidUntil T ins outs L) :
    L ≤ T ∧ (L = 0 ∨ upTo ins L ≤ upTo outs T) := by
  rcases h with ⟨_, _, h⟩ | ⟨_, h⟩
  · exact ⟨by omega, Or.inl h⟩
  · exact ⟨h.1.1, Or.inr h.1.2⟩

theorem getTravelTime_stored {T : ℕ} {cc : LinkCc} {start lv : ℚ} {r : ℚ × LinkCc}
    (h : getTravelTime cc start T = .ok r) (hl : lastTime T cc = .ok lv) :
    r.2.lastValid = lv ∧ lastTime T r.2 = .ok lv := by
  rw [getTravelTime_last, hl, Res.bind_ok', Res.bind_eq_ok'] at h
  obtain ⟨x, _, h3⟩ := h
  cases h3
  exact ⟨rfl, lastTime_keep hl⟩

theorem ttRows_last {T : ℕ} (b : Bool) {lv : ℚ} : ∀ (is : List ℕ) (cc : Bool → LinkCc) (r),
    ttRows T cc is = .ok r → lastTime T (cc b) = .ok lv → (is ≠ [] ∨ (cc b).lastValid = lv) →
    (r.2 b).lastValid = lv := by
  intro is
  induction is with
  | nil =>
    intro cc r h _ hh
    cases h
    exact hh.resolve_left (by simp)
  | cons i is ih =>
    intro cc r h hl _
    rw [ttRows, Res.bind_eq_ok'] at h
    obtain ⟨r0, h0, h⟩ := h
    rw [Res.bind_eq_ok'] at h
    obtain ⟨r1, h1, h⟩ := h
    rw [Res.bind_eq_ok'] at h
    obtain ⟨w, hw, h⟩ := h
    cases h
    have key : ((put (put cc false r0.2) true r1.2) b).lastValid = lv ∧
        lastTime T ((put (put cc false r0.2) true r1.2) b) = .ok lv := by
      cases b
      · simpa [put] using getTravelTime_stored h0 hl
      · simpa [put] using getTravelTime_stored h1 hl
    exact ih _ w hw key.2 (Or.inr key.1)

theorem buildOne_net {e : MQuery.Env} {s s' : MQuery.State} {l : ℤ} (h : MQuery.buildOne e s l = .ok s') :
    ∃ q r, s.net l = some q ∧ ttRows e.T q.cc (List.range e.T) = .ok r ∧
      s'.net = fun l' => if l' = l then some { q with cc := r.2 } else s.net l' := by
  unfold MQuery.buildOne MQuery.State.link at h
  cases hq : s.net l with
  | none => rw [hq] at h; cases h
  | some q =>
    rw [hq] at h
    simp only [Res.bind_ok'] at h
    rw [Res.bind_eq_ok'] at h
    obtain ⟨r, h1, h⟩ := h
    rw [Res.bind_eq_ok'] at h
    obtain ⟨t0, _, h⟩ := h
    rw [Res.bind_eq_ok'] at h
    obtain ⟨c0, _, h⟩ := h
    rw [Res.bind_eq_ok'] at h
    obtain ⟨t1, _, h⟩ := h
    rw [Res.bind_eq_ok'] at h
    obtain ⟨c1, _, h⟩ := h
    cases h
    exact ⟨q, r, rfl, h1, rfl⟩

theorem markOne_eq {e : Env V} {b : Bool} {l : ℤ} {s : State} {k : MLnk.Link V} {f : ℕ} {xs : List ℚ}
    (hk : e.kind l = some k) (hf : ffttLoading b k = .ok (f : ℤ)) (hx : s.q.tt b l = some xs) (hc : s.cong b l = none) :
    markOne e b l s = .ok { s with cong := put s.cong b fun l' => if l' = l then some (marks f (xs.take e.q.T)) else s.cong b l' } := by
  unfold markOne Env.link rowIn storeOf
  rw [hk, hx, hc]
  simp only [Res.bind_ok', hf]

/-- What `build` leaves behind for a link. -/
structure Done (e : Env V) (ins outs : Bool → ℤ → List (ℕ × ℕ)) (f : Bool → ℤ → ℕ) (q : ℤ → MQuery.Link) (s : State)
    (l : ℤ) : Prop where
  net : ∃ q', s.q.net l = some q' ∧ LinkSim e.q.T Both (q l) q' ∧
    ∀ b, ∃ L : ℕ, (q'.cc b).lastValid = L ∧ ValidUntil e.q.T (ins b l) (outs b l) L
  tab : ∀ b, ∃ xs cs, s.q.tt b l = some xs ∧ s.cong b l = some cs ∧ ∀ t < e.q.T, ∃ r, xs[t]? = some r ∧
    LinkTime e.q.T (ins b l) (outs b l) (f b l) (t + 1) r ∧ cs[t]? = some (decide ((f b l : ℚ) < r))

theorem buildOne_done {e : Env V} {ins outs : Bool → ℤ → List (ℕ × ℕ)} {f : Bool → ℤ → ℕ} {k : ℤ → MLnk.Link V}
    {q : ℤ → MQuery.Link} {s0 s : State} (h : Ready e ins outs f k q s0) (hs : Sim e.q.T s0.q s.q) (hf : Full e.q.T s.q)
    {l : ℤ} (hl : l ∈ e.q.ids) (hc : ∀ b, s.cong b l = none) :
    ∃ s', buildOne e s l = .ok s' ∧ Sim e.q.T s0.q s'.q ∧ Full e.q.T s'.q ∧ Done e ins outs f q s' l ∧ s'.diss = s.diss ∧
      ∀ l', l' ≠ l → s'.q.net l' = s.q.net l' ∧ ∀ b, s'.q.tt b l' = s.q.tt b l' ∧ s'.cong b l' = s.cong b l' := by
  obtain ⟨s1, h1, h2, h3, h4⟩ := MQuery.buildOne_eq h.loaded hs hl hf
  obtain ⟨q1, r, n1, n2, n3⟩ := buildOne_net h1
  obtain ⟨x0, y0, a1, a2, a3⟩ := h3 false
  obtain ⟨x1, y1, b1, b2, b3⟩ := h3 true
  have hk := (h.kind l hl).1
  have hb : buildOne e s l = .ok ⟨s1, put (put s.cong false fun l' => if l' = l then
      some (marks (f false l) (x0.take e.q.T)) else s.cong false l') true fun l' => if l' = l then
      some (marks (f true l) (x1.take e.q.T)) else s.cong true l', s.diss⟩ := by
    unfold buildOne
    rw [h1, Res.bind_ok', markOne_eq (s := { s with q := s1 }) hk (h.fftt l hl false).1 a1 (hc false), Res.bind_ok',
      markOne_eq hk (h.fftt l hl true).1 b1 (by simpa [put] using hc true)]
    simp [put]
  refine ⟨_, hb, hs.trans (buildOne_keep h1), h2, ⟨?_, ?_⟩, rfl, ?_⟩
  · obtain ⟨n0, n4⟩ := h.loaded l hl
    obtain ⟨q2, m1, m2⟩ := sim_net hs n0
    rw [n1] at m1
    cases m1
    refine ⟨{ q1 with cc := r.2 }, by simp [n3], ?_, fun b => ?_⟩
    · refine m2.trans ⟨fun b _ => ?_, rfl, fun _ _ => rfl, fun _ _ => rfl⟩
      exact ttRows_keep _ _ _ n2 b
    · obtain ⟨L, c1, c2⟩ := validUntil_of (n4 b)
      refine ⟨L, ?_, c2⟩
      rw [(m2.cc b trivial).last] at c1
      exact ttRows_last b _ _ _ n2 c1 (Or.inl (by
        intro hh
        have := h.steps
        have : (List.range e.q.T).length = 0 := by rw [hh]; rfl
        rw [List.length_range] at this
        omega))
  · have row : ∀ (b : Bool) (xs ys : List ℚ), (∀ t < e.q.T, ∃ r, xs[t]? = some r ∧
        LinkTime e.q.T (ins b l) (outs b l) ((q l).cc b).fftt (t + 1) r ∧
        ys[t]? = some (e.q.vot * e.q.unit * r + (q l).toll b)) → ∀ t < e.q.T, ∃ r, xs[t]? = some r ∧
        LinkTime e.q.T (ins b l) (outs b l) (f b l) (t + 1) r ∧
        (marks (f b l) (xs.take e.q.T))[t]? = some (decide ((f b l : ℚ) < r)) := by
      intro b xs ys hh t ht
      obtain ⟨r, r1, r2, _⟩ := hh t ht
      rw [(h.fftt l hl b).2.1] at r2
      refine ⟨r, r1, r2, ?_⟩
      unfold marks
      rw [List.getElem?_map, List.getElem?_take_of_lt ht, r1]
      simp
    intro b
    cases b
    · exact ⟨x0, marks (f false l) (x0.take e.q.T), a1, by simp [put], row false x0 y0 a3⟩
    · exact ⟨x1, marks (f true l) (x1.take e.q.T), b1, by simp [put], row true x1 y1 b3⟩
  · intro l' hne
    refine ⟨by simp [n3, hne], fun b => ⟨(h4 l' hne b).1, ?_⟩⟩
    cases b <;> simp [put, hne]

theorem build_done {e : Env V} {ins outs : Bool → ℤ → List (ℕ × ℕ)} {f : Bool → ℤ → ℕ} {k : ℤ → MLnk.Link V}
    {q : ℤ → MQuery.Link} {s0 : State} (h : Ready e ins outs f k q s0) :
    ∃ s', build e s0 = .ok s' ∧ (∀ l ∈ e.q.ids, Done e ins outs f q s' l) ∧ s'.diss = s0.diss := by
  have key : ∀ (ids done : List ℤ) (s : State), ids.Nodup → (∀ l ∈ ids, l ∈ e.q.ids) → Sim e.q.T s0.q s.q →
      Full e.q.T s.q → (∀ l ∈ ids, ∀ b, s.cong b l = none) → (∀ l ∈ ids, l ∉ done) →
      (∀ l ∈ done, Done e ins outs f q s l) →
      ∃ s', Res.foldlM (buildOne e) s ids = .ok s' ∧ (∀ l ∈ ids ++ done, Done e ins outs f q s' l) ∧ s'.diss = s.diss := by
    intro ids
    induction ids with
    | nil => intro done s _ _ _ _ _ _ hd; exact ⟨s, rfl, hd, rfl⟩
    | cons l ids ih =>
      intro done s hn hl hs hf hc hdj hd
      obtain ⟨s1, a1, a2, a3, a4, a5, a6⟩ := buildOne_done h hs hf (hl l (by simp)) (hc l (by simp))
      rw [List.nodup_cons] at hn
      have hne : ∀ x ∈ ids, x ≠ l := fun x hx e => hn.1 (e ▸ hx)
      obtain ⟨s2, c1, c2, c3⟩ := ih (l :: done) s1 hn.2 (fun x hx => hl x (by simp [hx])) a2 a3
        (fun x hx b => by rw [((a6 x (hne x hx)).2 b).2]; exact hc x (by simp [hx]) b)
        (fun x hx => by
          rw [List.mem_cons]
          rintro (h | h)
          · exact hne x hx h
          · exact hdj x (by simp [hx]) h)
        (fun x hx => by
          rcases List.mem_cons.1 hx with rfl | hx
          · exact a4
          · have hxl : x ≠ l := fun e => hdj l (by simp) (e ▸ hx)
            have := hd x hx
            refine ⟨?_, fun b => ?_⟩
            · rw [(a6 x hxl).1]; exact this.net
            · rw [((a6 x hxl).2 b).1, ((a6 x hxl).2 b).2]; exact this.tab b)
      refine ⟨s2, ?_, fun x hx => c2 x ?_, by rw [c3, a5]⟩
      · rw [Res.foldlM_cons, a1, Res.ok_bind, c1]
      · simp only [List.cons_append, List.mem_cons, List.mem_append] at hx ⊢
        tauto
  obtain ⟨s', h1, h2, h3⟩ := key e.q.ids [] s0 h.once (fun l hl => hl) (Sim.refl _ _)
    (fun b l xs => by
      constructor
      · intro hx
        rw [(h.fresh b l).1] at hx
        cases hx
      · intro hx
        rw [(h.fresh b l).2] at hx
        cases hx)
    (fun l _ b => h.cong b l) (fun l _ => by simp) (fun l hl => by simp at hl)
  exact ⟨s', h1, fun l hl => h2 l (by simpa using hl), h3⟩

/-! ## Dissipation -/

theorem dissOne_eq {T : ℕ} {unit σ : ℚ} {b : Bool} {k : MLnk.Link V} {ins outs : List (ℕ × ℕ)} {nOut : Curve}
    {cong : List Bool} {tt : List ℚ} {τ : ℕ → ℚ} {f i : ℕ} (hσ : 0 < σ) (hT : T < 10000) (hf : ffttLoading b k = .ok (f : ℤ))
    (hfs : f ≤ 100000) (hk : Supported unit σ b k) (hh : History T outs) (hb : upTo outs T < 10000)
    (hc : Holds σ T outs nOut) (ht : ∀ t < T, LinkTime T ins outs f (t + 1) (τ t)) (h1 : ∀ t < T, tt[t]? = some (τ t))
    (h2 : ∀ t < T, cong[t]? = some (decide ((f : ℚ) < τ t))) (hi : i < T) :
    ∃ d, dissOne T unit σ b k nOut cong tt i = .ok d ∧ Dissipates T τ f T (AtLimit unit σ b k outs f) i d := by
  have hm : ∀ t < T, rd cong t = .ok (decide ((f : ℚ) < τ t)) := fun t ht => by unfold rd; rw [h2 t ht]
  obtain ⟨d, hd, hn⟩ := congEnd_eq (late := T) hi hm
  unfold dissOne
  rw [hm i hi, Res.bind_ok']
  by_cases hc' : (f : ℚ) < τ i
  · simp only [hc', decide_true, if_true]
    exact ⟨d, hd, fun _ => nextEnd_free hc' hn, fun hx => absurd hc' (not_lt.2 hx), fun hx => absurd hc' (not_lt.2 hx)⟩
  · simp only [hc', decide_false, Bool.false_eq_true, if_false]
    have hr : rd tt i = .ok (τ i) := by unfold rd; rw [h1 i hi]
    have he : τ i = (f : ℚ) := le_antisymm (not_lt.1 hc') (linkTime_ge (ht i hi))
    rw [hf, Res.bind_ok', hr, Res.bind_ok', he]
    have := approxEq_self (f : ℚ)
    simp only [Int.cast_natCast, this, if_true]
    rcases hk with ⟨p, rfl⟩ | ⟨m, c, rfl, hl, hp, hq⟩
    · refine ⟨i, rfl, fun hx => absurd hx hc', fun _ hx => ?_, fun _ _ => rfl⟩
      obtain ⟨_, _, e, _⟩ := hx
      cases e
    · simp only
      have hs := slope_eq hσ hT hh hc (i + f) (by omega)
      rw [show ((i + f : ℕ) : ℤ) = (i : ℤ) + f by push_cast; ring] at hs
      have hcap : lastCap unit σ b m = .ok ⌊(if b then c.dia.capTruck else c.dia.capCar) * unit * σ⌋ := by
        unfold lastCap capOf byClass
        rw [hl]
      rw [hs, Res.bind_ok', hcap, Res.bind_ok']
      have hiff := rateEq_iff hσ (during_lt hh hb (i + f)) hp hq
      by_cases hlim : rateEq (some ((during outs (i + f) : ℚ) / σ)) σ ⌊(if b then c.dia.capTruck else c.dia.capCar) * unit * σ⌋ = true
      · rw [if_pos hlim]
        refine ⟨d, hd, fun hx => absurd hx hc', fun _ _ => hn, fun _ hx => absurd ?_ hx⟩
        exact ⟨m, c, rfl, hl, hiff.1 hlim⟩
      · rw [if_neg hlim]
        refine ⟨i, rfl, fun hx => absurd hx hc', fun _ hx => absurd ?_ hlim, fun _ _ => rfl⟩
        obtain ⟨k', c', e1, e2, e3⟩ := hx
        cases e1
        rw [hl] at e2; cases e2
        exact hiff.2 e3

theorem dissRows_eq {g : Bool → ℕ → Res ℕ} {P : Bool → ℕ → ℕ → Prop} : ∀ (is : List ℕ),
    (∀ b, ∀ i ∈ is, ∃ d, g b i = .ok d ∧ P b i d) →
    ∃ r, dissRows g is = .ok r ∧ List.Forall₂ (P false) is r.1 ∧ List.Forall₂ (P true) is r.2 := by
  intro is
  induction is with
  | nil => intro _; exact ⟨([], []), rfl, .nil, .nil⟩
  | cons i is ih =>
    intro h
    obtain ⟨x, h1, h2⟩ := h false i (by simp)
    obtain ⟨y, h3, h4⟩ := h true i (by simp)
    obtain ⟨r, h5, h6, h7⟩ := ih fun b j hj => h b j (by simp [hj])
    refine ⟨(x :: r.1, y :: r.2), ?_, .cons h2 h6, .cons h4 h7⟩
    rw [dissRows, h1, Res.bind_ok', h3, Res.bind_ok', h5, Res.bind_ok']

/-- The table of dissipation times for a link. -/
def DissTab (e : Env V) (outs : Bool → ℤ → List (ℕ × ℕ)) (f : Bool → ℤ → ℕ) (k : ℤ → MLnk.Link V) (s : State)
    (l : ℤ) : Prop :=
  ∀ b, ∃ xs ds, s.q.tt b l = some xs ∧ s.diss b l = some ds ∧ ∀ t < e.q.T, ∃ d, ds[t]? = some d ∧
    Dissipates e.q.T (fun t => xs.getD t 0) (f b l) e.q.T (AtLimit e.q.unit e.scalar b (k l) (outs b l) (f b l)) t d

theorem dissLink_done {e : Env V} {ins outs : Bool → ℤ → List (ℕ × ℕ)} {f : Bool → ℤ → ℕ} {k : ℤ → MLnk.Link V}
    {q : ℤ → MQuery.Link} {s0 s : State} (h : Ready e ins outs f k q s0) {l : ℤ} (hl : l ∈ e.q.ids)
    (hd : Done e ins outs f q s l) (hn : ∀ b, s.diss b l = none) :
    ∃ s', dissLink e s l = .ok s' ∧ s'.q = s.q ∧ s'.cong = s.cong ∧ DissTab e outs f k s' l ∧
      ∀ l', l' ≠ l → ∀ b, s'.diss b l' = s.diss b l' := by
  obtain ⟨q', n1, n2, _⟩ := hd.net
  obtain ⟨x0, c0, a1, a2, a3⟩ := hd.tab false
  obtain ⟨x1, c1, b1, b2, b3⟩ := hd.tab true
  obtain ⟨_, hL⟩ := h.loaded l hl
  obtain ⟨hk, hsup⟩ := h.kind l hl
  have row : ∀ (b : Bool) (xs : List ℚ) (cs : List Bool), (∀ t < e.q.T, ∃ r, xs[t]? = some r ∧
      LinkTime e.q.T (ins b l) (outs b l) (f b l) (t + 1) r ∧ cs[t]? = some (decide ((f b l : ℚ) < r))) →
      ∀ i ∈ List.range e.q.T, ∃ d, dissOne e.q.T e.q.unit e.scalar b (k l) (q'.cc b).nOut cs xs i = .ok d ∧
        Dissipates e.q.T (fun t => xs.getD t 0) (f b l) e.q.T (AtLimit e.q.unit e.scalar b (k l) (outs b l) (f b l)) i d := by
    intro b xs cs hx i hi
    rw [List.mem_range] at hi
    have hx' : ∀ t < e.q.T, xs[t]? = some (xs.getD t 0) ∧
        LinkTime e.q.T (ins b l) (outs b l) (f b l) (t + 1) (xs.getD t 0) ∧
        cs[t]? = some (decide ((f b l : ℚ) < xs.getD t 0)) := fun t ht => by
      obtain ⟨r, r1, r2, r3⟩ := hx t ht
      have : xs.getD t 0 = r := by simp [List.getD, r1]
      rw [this]
      exact ⟨r1, r2, r3⟩
    obtain ⟨cout, hco, hout⟩ := run_holds (hL b).scalar.1 (hL b).time (hL b).histOut
    have ec : cout = (q'.cc b).nOut := by
      rw [← (n2.cc b trivial).nOut]
      have := (hL b).nOut; rw [hco] at this; exact Res.ok.inj this
    rw [ec] at hout
    exact dissOne_eq (τ := fun t => xs.getD t 0) (hL b).scalar.1 (hL b).time (h.fftt l hl b).1 (h.fftt l hl b).2.2 (hsup b)
      (hL b).histOut (lt_of_le_of_lt (hL b).le (hL b).count) hout (fun t ht => (hx' t ht).2.1) (fun t ht => (hx' t ht).1)
      (fun t ht => (hx' t ht).2.2) hi
  obtain ⟨r, r1, r2, r3⟩ := dissRows_eq (g := fun b i => dissOne e.q.T e.q.unit e.scalar b (k l) (q'.cc b).nOut (byClass b c0 c1)
      (byClass b x0 x1) i) (P := fun b i d => Dissipates e.q.T (fun t => (byClass b x0 x1).getD t 0) (f b l) e.q.T
        (AtLimit e.q.unit e.scalar b (k l) (outs b l) (f b l)) i d) (List.range e.q.T) (fun b => by
      cases b
      · exact row false x0 c0 a3
      · exact row true x1 c1 b3)
  refine ⟨⟨s.q, s.cong, fun b => byClass b (fun l' => if l' = l then some r.1 else s.diss false l')
    (fun l' => if l' = l then some r.2 else s.diss true l')⟩, ?_, rfl, rfl, ?_, ?_⟩
  · unfold dissLink MQuery.State.link Env.link rowIn
    rw [n1, hk, a1, a2, b1, b2]
    simp only [Res.bind_ok', r1]
    unfold storeOf
    rw [hn false, hn true]
    rfl
  · have get : ∀ (P : ℕ → ℕ → Prop) (ds : List ℕ), List.Forall₂ P (List.range e.q.T) ds →
        ∀ t < e.q.T, ∃ d, ds[t]? = some d ∧ P t d := by
      intro P ds hf t ht
      have hlen := hf.length_eq
      rw [List.length_range] at hlen
      have := List.Forall₂.get hf (i := t) (by simpa using ht) (by omega)
      refine ⟨ds[t]'(by omega), List.getElem?_eq_getElem _, by simpa using this⟩
    intro b
    cases b
    · exact ⟨x0, r.1, a1, by simp [byClass], get _ _ r2⟩
    · exact ⟨x1, r.2, b1, by simp [byClass], get _ _ r3⟩
  · intro l' hne b
    cases b <;> simp [byClass, hne]

theorem dissipated_done {e : Env V} {ins outs : Bool → ℤ → List (ℕ × ℕ)} {f : Bool → ℤ → ℕ} {k : ℤ → MLnk.Link V}
    {q : ℤ → MQuery.Link} {s0 s : State} (h : Ready e ins outs f k q s0)
    (hd : ∀ l ∈ e.q.ids, Done e ins outs f q s l) (hn : s.diss = s0.diss) :
    ∃ s', dissipated e s = .ok s' ∧ s'.q = s.q ∧ s'.cong = s.cong ∧ ∀ l ∈ e.q.ids, DissTab e outs f k s' l := by
  have key : ∀ (ids done : List ℤ) (s : State), ids.Nodup → (∀ l ∈ ids, l ∈ e.q.ids) →
      (∀ l ∈ e.q.ids, Done e ins outs f q s l) → (∀ l ∈ ids, ∀ b, s.diss b l = none) → (∀ l ∈ ids, l ∉ done) →
      (∀ l ∈ done, DissTab e outs f k s l) →
      ∃ s', Res.foldlM (dissLink e) s ids = .ok s' ∧ s'.q = s.q ∧ s'.cong = s.cong ∧
        ∀ l ∈ ids ++ done, DissTab e outs f k s' l := by
    intro ids
    induction ids with
    | nil => intro done s _ _ _ _ _ hd; exact ⟨s, rfl, rfl, rfl, hd⟩
    | cons l ids ih =>
      intro done s hn hl hdone hnone hdj hd
      obtain ⟨s1, a1, a2, a3, a4, a5⟩ := dissLink_done h (hl l (by simp)) (hdone l (hl l (by simp))) (hnone l (by simp))
      rw [List.nodup_cons] at hn
      have hne : ∀ x ∈ ids, x ≠ l := fun x hx e => hn.1 (e ▸ hx)
      obtain ⟨s2, c1, c2, c3, c4⟩ := ih (l :: done) s1 hn.2 (fun x hx => hl x (by simp [hx]))
        (fun x hx => by
          obtain ⟨p1, p2⟩ := hdone x hx
          exact ⟨by rw [a2]; exact p1, by rw [a2, a3]; exact p2⟩)
        (fun x hx b => by rw [a5 x (hne x hx) b]; exact hnone x (by simp [hx]) b)
        (fun x hx => by
          rw [List.mem_cons]
          rintro (h | h)
          · exact hne x hx h
          · exact hdj x (by simp [hx]) h)
        (fun x hx => by
          rcases List.mem_cons.1 hx with rfl | hx
          · exact a4
          · have hxl : x ≠ l := fun e => hdj l (by simp) (e ▸ hx)
            intro b
            rw [a2, a5 x hxl b]
            exact hd x hx b)
      refine ⟨s2, ?_, by rw [c2, a2], by rw [c3, a3], fun x hx => c4 x ?_⟩
      · rw [Res.foldlM_cons, a1, Res.ok_bind, c1]
      · simp only [List.cons_append, List.mem_cons, List.mem_append] at hx ⊢
        tauto
  obtain ⟨s', h1, h2, h3, h4⟩ := key e.q.ids [] s h.once (fun l hl => hl) hd
    (fun l _ b => by rw [hn]; exact h.diss b l) (fun l _ => by simp) (fun l hl => by simp at hl)
  exact ⟨s', h1, h2, h3, fun l hl => h4 l (by simpa using hl)⟩

/-! ## What the tables say -/

/-- The data in the tables. -/
def dataOf (k : ℤ → MLnk.Link V) (f : Bool → ℤ → ℕ) (outs : Bool → ℤ → List (ℕ × ℕ)) (s : State) (b : Bool) : Data where
  pq l := isPq (k l)
  τ l t := ((s.q.tt b l).getD []).getD t 0
  f := f b
  d l t := ((s.diss b l).getD []).getD t 0
  L l := match s.q.net l with
    | none => 0
    | some q => ⌊(q.cc false).lastValid⌋.toNat
  outs := outs b

theorem tables_done {e : Env V} {ins outs : Bool → ℤ → List (ℕ × ℕ)} {f : Bool → ℤ → ℕ} {k : ℤ → MLnk.Link V}
    {q : ℤ → MQuery.Link} {s0 : State} (h : Ready e ins outs f k q s0) :
    ∃ s1 s2, build e s0 = .ok s1 ∧ dissipated e s1 = .ok s2 ∧ ∀ b, ∀ l ∈ e.q.ids,
      Says e.q.T e.q.unit e.scalar b (dataOf k f outs s2 b) (k l) (ins b l) l ∧
      ValidUntil e.q.T (ins false l) (outs false l) ((dataOf k f outs s2 b).L l) ∧
      ((dataOf k f outs s2 b).L l ≤ e.q.T → ((dataOf k f outs s2 b).L l = 0 ∨
        upTo (ins b l) ((dataOf k f outs s2 b).L l) ≤ upTo (outs b l) e.q.T) →
        ∃ q', Prep e s2 b (dataOf k f outs s2 b) (ins b l) l (k l) q') := by
  obtain ⟨s1, h1, h2, h3⟩ := build_done h
  obtain ⟨s2, h4, h5, h6, h7⟩ := dissipated_done h h2 h3
  refine ⟨s1, s2, h1, h4, fun b l hl => ?_⟩
  have hdone := h2 l hl
  obtain ⟨q', n1, n2, n3⟩ := hdone.net
  obtain ⟨xs, cs, t1, t2, t3⟩ := hdone.tab b
  obtain ⟨xs', ds, t4, t5, t6⟩ := h7 l hl b
  rw [h5, t1] at t4
  cases t4
  obtain ⟨L, L1, L2⟩ := n3 false
  obtain ⟨_, hL⟩ := h.loaded l hl
  set D := dataOf k f outs s2 b with hD
  have eτ : ∀ t, D.τ l t = xs.getD t 0 := fun t => by simp [hD, dataOf, h5, t1]
  have eτ' : D.τ l = fun t => xs.getD t 0 := funext eτ
  have eL : D.L l = L := by
    simp only [hD, dataOf, h5, n1, L1]
    simp
  have ed : ∀ t < e.q.T, ds[t]? = some (D.d l t) := fun t ht => by
    obtain ⟨d, d1, _⟩ := t6 t ht
    simp [hD, dataOf, t5, d1]
  have et : ∀ t < e.q.T, xs[t]? = some (D.τ l t) := fun t ht => by
    obtain ⟨r, r1, _⟩ := t3 t ht
    rw [eτ]
    simp [List.getD, r1]
  have hsays : Says e.q.T e.q.unit e.scalar b D (k l) (ins b l) l := by
    refine ⟨?_, fun t ht => ?_, fun t ht => ?_⟩
    · show isPq (k l) = true ↔ _
      cases hk : k l with
      | pq m => simp [isPq]
      | ctm m => simp [isPq]
      | lq m => simp [isPq]
    · obtain ⟨r, r1, r2, _⟩ := t3 t ht
      have := et t ht
      rw [r1] at this
      rw [← Option.some.inj this]
      exact r2
    · obtain ⟨d, d1, d2⟩ := t6 t ht
      have := ed t ht
      rw [d1] at this
      rw [← Option.some.inj this, eτ']
      exact d2
  refine ⟨hsays, by rw [eL]; exact L2, fun v1 v2 => ⟨q', ?_⟩⟩
  refine ⟨(h.kind l hl).1, by rw [h5]; exact n1, rfl, ⟨_, hsays.times, hsays.diss, v1, v2⟩, (h.fftt l hl b).1,
    (h.fftt l hl b).2.2, ⟨xs, by rw [h5]; exact t1, et⟩, ⟨cs, by rw [h6]; exact t2, fun t ht => ?_⟩, ⟨ds, t5, ed⟩,
    by rw [L1, eL], (hL b).histOut, ?_⟩
  · obtain ⟨r, r1, _, r3⟩ := t3 t ht
    have := et t ht
    rw [r1] at this
    rw [← Option.some.inj this]
    exact r3
  · obtain ⟨cout, hco, hout⟩ := run_holds (hL b).scalar.1 (hL b).time (hL b).histOut
    have ec : cout = (q'.cc b).nOut := by
      rw [← (n2.cc b trivial).nOut]
      have := (hL b).nOut; rw [hco] at this; exact Res.ok.inj this
    rw [← ec]
    exact hout

/-! ## Starts that are too late -/

theorem collect_late {R : Type} {em : ℤ → ℤ → ℤ → ℤ → ℤ → ℚ → Res (List R)} {em' : ℤ → ℤ → ℤ → ℤ → ℤ → ℚ → List R}
    (hem : ∀ p st l a z g, em p st l a z g = .ok (em' p st l a z g)) (name : String) {e : Env V}
    {ins outs : Bool → ℤ → List (ℕ × ℕ)} {f : Bool → ℤ → ℕ} {k : ℤ → MLnk.Link V}
    {q : ℤ → MQuery.Link} {s s1 s2 : State} {starts : List ℕ} {thr : ℤ}
    (h : Ready e ins outs f k q s) (hT : e.q.T < 10000) (hσ : 0 < e.scalar) (hp : GoodPaths e k)
    (hs : ∃ x ∈ starts, e.q.T ≤ x) (hreg : ∃ p ∈ e.paths, ∃ l ∈ e.q.reg, l ∈ p.2) (h1 : build e s = .ok s1)
    (h2 : dissipated e s1 = .ok s2) :
    collect em name e s2 false thr (starts.map fun x : ℕ => (x : ℤ)) = .throw
      ("Error, Mcdta::" ++ name ++ ", input start intervals exceeds the total loading intervals - 1") := by
  obtain ⟨s1', s2', g1, g2, h3⟩ := tables_done h
  rw [h1] at g1; cases g1
  rw [h2] at g2; cases g2
  obtain ⟨pre, x, post, e0, e1, e2⟩ := Query.exists_first (fun x => e.q.T ≤ x) starts hs
  obtain ⟨ps, p, qs, f0, f1, f2⟩ := Query.exists_first (fun p : ℤ × List ℤ => ∃ l ∈ e.q.reg, l ∈ p.2) e.paths hreg
  have hany : ∀ p : ℤ × List ℤ, (e.q.reg.any fun l => p.2.contains l) = true ↔ ∃ l ∈ e.q.reg, l ∈ p.2 := by simp
  have hskip : ∀ (qs : List (ℤ × List ℤ)) (recs : List R) (st : List ℤ), (∀ p ∈ qs, ¬ ∃ l ∈ e.q.reg, l ∈ p.2) →
      Res.foldlM (pathStep em name e s2 false thr st) recs qs = .ok recs := by
    intro qs
    induction qs with
    | nil => intro recs st _; rfl
    | cons p qs ih =>
      intro recs st hn
      rw [Res.foldlM_cons]
      have : pathStep em name e s2 false thr st recs p = .ok recs := by
        unfold pathStep
        rw [if_neg (fun c => hn p (by simp) ((hany p).1 c))]
      rw [this, Res.ok_bind]
      exact ih recs st fun p' hp' => hn p' (by simp [hp'])
  obtain ⟨p1, p2, p3⟩ := hp p (by rw [f0]; simp)
  unfold collect
  rw [f0, Res.foldlM_append, hskip ps [] _ f2, Res.ok_bind, Res.foldlM_cons]
  have hstep : pathStep em name e s2 false thr (starts.map fun x : ℕ => (x : ℤ)) [] p = .throw
      ("Error, Mcdta::" ++ name ++ ", input start intervals exceeds the total loading intervals - 1") := by
    unfold pathStep
    rw [if_pos ((hany p).2 f1), e0, List.map_append, Res.foldlM_append,
      startFold_eq hem name (D := dataOf k f outs s2 false) (insOf := ins false) h.steps hT hσ h.scale thr p
        (fun l hl => by
          obtain ⟨_, a2, a3⟩ := h3 false l (p1 l hl)
          obtain ⟨q', a4⟩ := a3 (validUntil_le a2).1 (validUntil_le a2).2
          exact ⟨_, q', a4⟩)
        (fun l hl => by
          obtain ⟨a1, _⟩ := h3 false l (p1 l (List.mem_of_mem_head? hl))
          exact a1.pq.2 (p3 l hl)) p2 pre [] (fun y hy => by have := e2 y hy; omega), Res.ok_bind, List.map_cons,
      Res.foldlM_cons]
    have : ∀ recs, startStep em name e s2 false thr p recs (x : ℤ) = .throw
        ("Error, Mcdta::" ++ name ++ ", input start intervals exceeds the total loading intervals - 1") := by
      intro recs
      unfold startStep Ltg.checkStart
      rw [if_pos (by exact_mod_cast e1)]
      rfl
    rw [this]
    rfl
  rw [hstep]
  rfl

/-! ## Matrices -/

/-- The sum of the values at one place. -/
def at' (r c : ℤ) (ts : List Triplet) : ℚ := ((ts.filter fun t => t.row = r ∧ t.col = c).map (·.value)).sum

theorem at'_append (r c : ℤ) (xs ys : List Triplet) : at' r c (xs ++ ys) = at' r c xs + at' r c ys := by
  unfold at'
  rw [List.filter_append, List.map_append, List.sum_append]

theorem at'_one (r c : ℤ) (t : Triplet) : at' r c [t] = if t.row = r ∧ t.col = c then t.value else 0 := by
  unfold at'
  by_cases h : t.row = r ∧ t.col = c <;> simp [h]

theorem countLoop_at (ai r c col : ℤ) (ρ : ℤ → ℤ) (g : ℚ) : ∀ (n : ℕ) (t tmp : ℤ) (ct : ℕ), 0 < n →
    (ct = 0 ∧ tmp = t.tdiv ai ∨ (t - 1).tdiv ai = tmp) →
    at' r c (countLoop ai (fun t ct => ⟨ρ (t.tdiv ai), col, g * ct⟩) n t tmp ct) =
      (if ρ tmp = r ∧ col = c then g * ct else 0) +
        ((List.range n).map fun i : ℕ => if ρ ((t + i).tdiv ai) = r ∧ col = c then g else 0).sum := by
  intro n
  induction n with
  | zero => intro t tmp ct h; omega
  | succ n ih =>
    intro t tmp ct _ hinv
    have hsum : ((List.range (n + 1)).map fun i : ℕ => if ρ ((t + i).tdiv ai) = r ∧ col = c then g else 0).sum =
        (if ρ (t.tdiv ai) = r ∧ col = c then g else 0) +
          ((List.range n).map fun i : ℕ => if ρ ((t + 1 + i).tdiv ai) = r ∧ col = c then g else 0).sum := by
      rw [List.range_succ_eq_map, List.map_cons, List.sum_cons, List.map_map]
      simp only [Nat.cast_zero, add_zero]
      congr 3
      funext i
      simp only [Function.comp, Nat.succ_eq_add_one]
      push_cast
      rw [show t + ((i : ℤ) + 1) = t + 1 + i by ring]
    rw [hsum]
    unfold countLoop
    simp only
    by_cases hs : t.tdiv ai = tmp
    · simp only [hs, if_true, List.nil_append]
      rcases Nat.eq_zero_or_pos n with h0 | h0
      · subst h0
        simp only [if_true]
        rw [at'_append, at'_one]
        simp only [countLoop, hs]
        split <;> simp [at']
        ring
      · rw [if_neg (by omega), List.nil_append, ih (t + 1) tmp (ct + 1) h0 (Or.inr (by rw [show t + 1 - 1 = t by ring, hs]))]
        push_cast
        split <;> ring
    · have h1 : (t - 1).tdiv ai = tmp := by
        rcases hinv with ⟨_, h⟩ | h
        · exact absurd h.symm hs
        · exact h
      simp only [hs, if_false]
      rw [at'_append, at'_append, at'_one]
      simp only [h1]
      rcases Nat.eq_zero_or_pos n with h0 | h0
      · subst h0
        simp only [if_true]
        rw [at'_one]
        simp only [countLoop]
        simp [at']
      · have hn : n ≠ 0 := by omega
        simp only [hn, if_false]
        rw [ih (t + 1) _ 1 h0 (Or.inr (by rw [show t + 1 - 1 = t by ring]))]
        simp [at']

theorem countLoop_mem (ai col : ℤ) (ρ : ℤ → ℤ) (g : ℚ) : ∀ (n : ℕ) (t tmp : ℤ) (ct : ℕ),
    (ct = 0 ∧ tmp = t.tdiv ai ∨ (t - 1).tdiv ai = tmp) →
    ∀ x ∈ countLoop ai (fun t ct => ⟨ρ (t.tdiv ai), col, g * ct⟩) n t tmp ct, x.col = col ∧
      (x.row = ρ tmp ∨ ∃ i < n, x.row = ρ ((t + (i : ℕ)).tdiv ai)) := by
  intro n
  induction n with
  | zero => intro t tmp ct _ x hx; simp [countLoop] at hx
  | succ n ih =>
    intro t tmp ct hinv x hx
    unfold countLoop at hx
    simp only [List.mem_append] at hx
    have next : ∀ tmp' ct', t.tdiv ai = tmp' →
        x ∈ countLoop ai (fun t ct => ⟨ρ (t.tdiv ai), col, g * ct⟩) n (t + 1) tmp' ct' →
        x.col = col ∧ (x.row = ρ tmp ∨ ∃ i < n + 1, x.row = ρ ((t + (i : ℕ)).tdiv ai)) := by
      intro tmp' ct' htmp hx
      obtain ⟨h1, h2⟩ := ih (t + 1) tmp' ct' (Or.inr (by rw [show t + 1 - 1 = t by ring, htmp])) x hx
      refine ⟨h1, Or.inr ?_⟩
      rcases h2 with h2 | ⟨i, hi, h2⟩
      · exact ⟨0, by omega, by rw [h2, ← htmp]; simp⟩
      · exact ⟨i + 1, by omega, by rw [h2]; push_cast; rw [show t + 1 + (i : ℤ) = t + (i + 1) by ring]⟩
    by_cases hs : t.tdiv ai = tmp
    · simp only [hs, if_true, List.not_mem_nil, false_or] at hx
      rcases hx with hx | hx
      · split at hx
        · rw [List.mem_singleton] at hx
          subst hx
          exact ⟨rfl, Or.inl (by simp [hs])⟩
        · simp at hx
      · exact next _ _ hs hx
    · have h1 : (t - 1).tdiv ai = tmp := by
        rcases hinv with ⟨_, h⟩ | h
        · exact absurd h.symm hs
        · exact h
      simp only [hs, if_false, List.mem_singleton] at hx
      rcases hx with (hx | hx) | hx
      · subst hx
        exact ⟨rfl, Or.inl (by simp [h1])⟩
      · split at hx
        · rw [List.mem_singleton] at hx
          subst hx
          exact ⟨rfl, Or.inr ⟨0, by omega, by simp⟩⟩
        · simp at hx
      · exact next _ _ rfl hx

theorem radix {n i j x y : ℤ} (hi : 0 ≤ i ∧ i < n) (hj : 0 ≤ j ∧ j < n) : i + n * x = j + n * y ↔ i = j ∧ x = y := by
  constructor
  · intro h
    have h1 : (i + n * x) % n = (j + n * y) % n := by rw [h]
    rw [Int.add_mul_emod_self_left, Int.add_mul_emod_self_left, Int.emod_eq_of_lt hi.1 hi.2, Int.emod_eq_of_lt hj.1 hj.2] at h1
    subst h1
    refine ⟨rfl, ?_⟩
    have : n * x = n * y := by linarith
    exact mul_left_cancel₀ (by omega) this
  · rintro ⟨rfl, rfl⟩
    rfl

/-- `tripletsFor` without the check of the divisor. -/
def tripletsFor' (reg : List ℤ) (nPaths ai : ℤ) (path start l a stop : ℤ) (g : ℚ) : List Triplet :=
  countLoop ai (fun t ct => triplet reg.length nPaths ai path start t (reg.idxOf l) (g * ct)) (stop - a).toNat a (a.tdiv ai) 0

theorem total_append (ai l h j g : ℤ) (xs ys : List Rec) : total ai l h j g (xs ++ ys) = total ai l h j g xs + total ai l h j g ys := by
  unfold total
  rw [List.filter_append, List.map_append, List.sum_append]

theorem filter_sum {A : Type} (p : A → Bool) (f : A → ℚ) (xs : List A) :
    ((xs.filter p).map f).sum = (xs.map fun x => if p x then f x else 0).sum := by
  induction xs with
  | nil => rfl
  | cons x xs ih =>
    rw [List.filter_cons]
    split <;> simp [*]

theorem emit_at {reg : List ℤ} {nPaths ai path : ℤ} {start a stop : ℕ} {l : ℤ} (G : ℚ) (hai : 0 < ai) (hn : reg.Nodup)
    (hl : l ∈ reg) (hp : 0 ≤ path ∧ path < nPaths) {i : ℕ} (hi : i < reg.length) {j : ℤ} (hj : 0 ≤ j ∧ j < nPaths)
    (h g : ℤ) :
    at' (i + reg.length * h) (j + nPaths * g) (tripletsFor' reg nPaths ai path start l a stop G) =
      total ai reg[i] h j g (recsFor path start l a stop G) := by
  unfold tripletsFor' triplet total recsFor
  rw [filter_sum, List.map_map]
  have hidx := List.idxOf_lt_length_of_mem hl
  have key : ∀ t : ℕ, ((reg.idxOf l : ℤ) + reg.length * (t : ℤ).tdiv ai = i + reg.length * h ∧
      path + nPaths * (start : ℤ).tdiv ai = j + nPaths * g) ↔
      (l = reg[i] ∧ (t : ℤ) / ai = h ∧ path = j ∧ (start : ℤ) / ai = g) := by
    intro t
    rw [radix ⟨by omega, by omega⟩ ⟨by omega, by omega⟩, radix hp hj, Int.tdiv_eq_ediv_of_nonneg (by omega),
      Int.tdiv_eq_ediv_of_nonneg (by omega)]
    have : ((reg.idxOf l : ℤ) = i) ↔ l = reg[i] := by
      constructor
      · intro h
        have h' : reg.idxOf l = i := by exact_mod_cast h
        subst h'
        exact (List.getElem_idxOf hidx).symm
      · intro h
        rw [h, hn.idxOf_getElem]
    rw [this]
    tauto
  rcases Nat.lt_or_ge a stop with h0 | h0
  · have := countLoop_at ai (i + reg.length * h) (j + nPaths * g) (path + nPaths * (start : ℤ).tdiv ai)
      (fun x => reg.idxOf l + reg.length * x) G ((stop : ℤ) - a).toNat a ((a : ℤ).tdiv ai) 0 (by omega) (Or.inl ⟨rfl, rfl⟩)
    rw [this]
    simp only [Nat.cast_zero, mul_zero, ite_self, zero_add]
    congr 1
    refine List.map_congr_left fun m _ => ?_
    have := key (a + m)
    push_cast at this
    simp only [Function.comp, decide_eq_true_eq, this]
  · rw [show ((stop : ℤ) - a).toNat = 0 by omega]
    simp [countLoop, at']

theorem all_at {reg : List ℤ} {ai : ℤ} (hai : 0 < ai) (hn : reg.Nodup) {D : Data} {T : ℕ} {unit σ : ℚ} {thr : ℤ}
    {paths : List (ℤ × List ℤ)} {np : ℤ} (hp : ∀ p ∈ paths, 0 ≤ p.1 ∧ p.1 < np) {starts : List ℕ}
    {i : ℕ} (hi : i < reg.length) {j : ℤ} (hj : 0 ≤ j ∧ j < np) (h g : ℤ) :
    at' (i + reg.length * h) (j + np * g) (D.all (tripletsFor' reg np ai) T unit σ thr reg paths starts) =
      total ai reg[i] h j g (D.records T unit σ thr reg paths starts) := by
  rw [← all_recs]
  have flat : ∀ {A : Type} (xs : List A) (f : A → List Triplet) (f' : A → List Rec),
      (∀ x ∈ xs, at' (i + reg.length * h) (j + np * g) (f x) = total ai reg[i] h j g (f' x)) →
      at' (i + reg.length * h) (j + np * g) (xs.flatMap f) = total ai reg[i] h j g (xs.flatMap f') := by
    intro A xs f f'
    induction xs with
    | nil => intro _; rfl
    | cons x xs ih =>
      intro hx
      rw [List.flatMap_cons, List.flatMap_cons, at'_append, total_append, hx x (by simp), ih fun y hy => hx y (by simp [hy])]
  unfold Data.all
  refine flat _ _ _ fun p hpp => ?_
  split
  swap
  · rfl
  refine flat _ _ _ fun x _ => flat _ _ _ fun v _ => ?_
  unfold Data.gen
  split
  swap
  · rfl
  rename_i c
  exact emit_at _ hai hn c.1 (hp p hpp) hi hj h g

theorem all_mem {reg : List ℤ} {ai n : ℤ} (hai : 0 < ai) {D : Data} {T : ℕ} {unit σ : ℚ} {thr : ℤ} (hn : (T : ℤ) ≤ ai * n)
    {paths : List (ℤ × List ℤ)} {np : ℤ} (hp : ∀ p ∈ paths, 0 ≤ p.1 ∧ p.1 < np) {starts : List ℕ}
    (hs : ∀ x ∈ starts, x < T) (hL : ∀ p ∈ paths, ∀ l ∈ p.2, D.L l ≤ T) :
    ∀ t ∈ D.all (tripletsFor' reg np ai) T unit σ thr reg paths starts,
      0 ≤ t.row ∧ t.row < n * reg.length ∧ 0 ≤ t.col ∧ t.col < n * np := by
  intro t ht
  unfold Data.all at ht
  rw [List.mem_flatMap] at ht
  obtain ⟨p, hpp, ht⟩ := ht
  split at ht
  swap
  · simp at ht
  rw [List.mem_flatMap] at ht
  obtain ⟨x, hx, ht⟩ := ht
  rw [List.mem_flatMap] at ht
  obtain ⟨v, hv, ht⟩ := ht
  have vis : ∀ (ls : List ℤ) (t u : ℕ) (v : ℤ × ℕ), v ∈ D.visits T thr t u ls → v.1 ∈ ls := by
    intro ls
    induction ls with
    | nil => intro t u v hv; simp [Data.visits] at hv
    | cons l ls ih =>
      intro t u v hv
      unfold Data.visits at hv
      set a := if D.pq l = true then t else u
      simp only at hv
      split at hv
      · rcases List.mem_cons.1 hv with rfl | hv
        · simp
        · simp [ih _ _ v hv]
      · simp at hv
  have hvL := hL p hpp v.1 (vis _ _ _ v hv)
  unfold Data.gen at ht
  split at ht
  swap
  · simp at ht
  rename_i c
  have hidx := List.idxOf_lt_length_of_mem c.1
  obtain ⟨p1, p2⟩ := hp p hpp
  have quot : ∀ y : ℤ, 0 ≤ y → y < T → 0 ≤ y.tdiv ai ∧ y.tdiv ai < n := by
    intro y h0 h1
    rw [Int.tdiv_eq_ediv_of_nonneg h0]
    exact ⟨Int.ediv_nonneg h0 hai.le, Int.ediv_lt_of_lt_mul hai (by rw [mul_comm]; omega)⟩
  have cell : ∀ m i y : ℤ, 0 ≤ i → i < m → 0 ≤ y ∧ y < n → 0 ≤ i + m * y ∧ i + m * y < n * m := by
    intro m i y h0 h1 h2
    have e1 : 0 ≤ m * y := mul_nonneg (by omega) h2.1
    have e2 : m * (y + 1) ≤ m * n := mul_le_mul_of_nonneg_left (by omega) (by omega)
    constructor
    · omega
    · nlinarith
  have hst := hs x hx
  unfold tripletsFor' triplet at ht
  rcases Nat.lt_or_ge v.2 (min (D.d v.1 v.2) (D.L v.1)) with h0 | h0
  · obtain ⟨t1, t2⟩ := countLoop_mem ai (p.1 + np * (x : ℤ).tdiv ai) (fun y => reg.idxOf v.1 + reg.length * y) _ _ _ _ 0
      (Or.inl ⟨rfl, rfl⟩) t ht
    have hc := cell np p.1 _ p1 p2 (quot x (by omega) (by omega))
    rw [t1]
    refine ⟨?_, ?_, hc⟩
    all_goals
      rcases t2 with t2 | ⟨m, hm, t2⟩
      · have := cell reg.length (reg.idxOf v.1) _ (by omega) (by omega) (quot v.2 (by omega) (by omega))
        rw [t2]
        first | exact this.1 | exact this.2
      · have := cell reg.length (reg.idxOf v.1) _ (by omega) (by omega) (quot ((v.2 : ℤ) + m) (by omega) (by omega))
        rw [t2]
        first | exact this.1 | exact this.2
  · rw [show (((min (D.d v.1 v.2) (D.L v.1) : ℕ) : ℤ) - v.2).toNat = 0 by omega] at ht
    simp [countLoop] at ht

end Verif.Ltg

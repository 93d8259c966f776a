import Verif.Spec.MTrees
import Verif.Lemmas.Trees
import Verif.Lemmas.MHistory

/-! # Lemmas about the trees of curves of cars and trucks during the loading -/

namespace Verif.MNet
open Ults Curve Net Tab Tt

theorem fixedCls_same {c : Net.Cfg} {truck : ℕ → Bool} {cl : Bool} {pt : PathTable} {o : RouteOracle} {u : ℕ}
    {s s' : Net.State} (hu : ∀ oid ∈ c.originIds, u ∉ s.queue (c.origin oid).node)
    (h : fixedCls c truck cl pt o s = .ok s') : Same u s s' := by
  unfold fixedCls at h
  refine routeAll_same ?_ ?_ ?_ hu h
  · intro n s s' v h
    split at h
    · exact fixedOrigin_routed h
    · cases h; exact Routed.refl _
  · intro n s s' v hv h
    split at h
    · exact fixedOrigin_same hv h
    · cases h; exact Same.refl _ _
  · intro n s s' v h
    split at h
    · exact fixedLink_same h
    · cases h; exact Same.refl _ _

theorem updateView_same {c : Net.Cfg} {truck : ℕ → Bool} {o : RouteOracle} {r : Routing} {u : ℕ}
    {s s' : Net.State} (hu : ∀ oid ∈ c.originIds, u ∉ s.queue (c.origin oid).node)
    (h : r.updateView c truck o s = .ok s') : Same u s s' := by
  cases r with
  | net r => exact routing_same hu h
  | biclass tr pc pt =>
    unfold Routing.updateView at h
    rw [Res.bind_eq_ok'] at h
    obtain ⟨s1, h1, h⟩ := h
    rw [Res.bind_eq_ok'] at h
    obtain ⟨s2, h2, h3⟩ := h
    have A : Same u s s1 ∧ s1.queue = s.queue := by
      cases tr with
      | none => cases h1; exact ⟨Same.refl _ _, rfl⟩
      | some t =>
        have h1' : (Net.Routing.adaptive t).update c o s = .ok s1 := h1
        exact ⟨routing_same hu h1', (routing_routed h1').queue⟩
    have hu1 : ∀ oid ∈ c.originIds, u ∉ s1.queue (c.origin oid).node := by rw [A.2]; exact hu
    have R := fixedCls_routed h2
    have hu2 : ∀ oid ∈ c.originIds, u ∉ s2.queue (c.origin oid).node := by rw [R.queue]; exact hu1
    exact (A.1.trans (fixedCls_same hu1 h2)).trans (fixedCls_same hu2 h3)

/-! ### Growing trees -/

/-- The movements that the tree of class `b` of link `l` should know. -/
def intoP (truck : ℕ → Bool) (b : Bool) (l : ℕ) (e : Event) : Bool :=
  decide (e.src ≠ none ∧ e.dst = some l ∧ truck e.veh = b)

/-- The trees of the links in `ls` record the movements of `log`. -/
structure Grown (σ : ℚ) (ls : List ℕ) (vehs : ℕ → Veh) (truck : ℕ → Bool) (log : List Event) (f : Woods) : Prop where
  none : ∀ b l, l ∉ ls → f b l = none
  tree : ∀ b, ∀ l ∈ ls, ∃ tr, f b l = some tr ∧ record (itemsOf σ vehs (intoP truck b l) log) = .ok tr

theorem itemsOf_filter {σ : ℚ} {vehs : ℕ → Veh} {p q : Event → Bool} {log : List Event}
    (h : ∀ e ∈ log, p e = q e) : itemsOf σ vehs p log = itemsOf σ vehs q log := by
  unfold itemsOf
  rw [List.filter_congr h]

theorem Grown.congr {σ : ℚ} {ls : List ℕ} {vehs vehs' : ℕ → Veh} {truck truck' : ℕ → Bool} {log : List Event}
    {f : Woods} (g : Grown σ ls vehs truck log f)
    (h : ∀ e ∈ log, (vehs' e.veh).path = (vehs e.veh).path ∧ (vehs' e.veh).assign = (vehs e.veh).assign)
    (ht : ∀ e ∈ log, truck' e.veh = truck e.veh) :
    Grown σ ls vehs' truck' log f :=
  ⟨g.none, fun b l hl => by
    rw [itemsOf_congr _ h, itemsOf_filter (q := intoP truck b l) fun e he => by unfold intoP; rw [ht e he]]
    exact g.tree b l hl⟩

theorem treeMove_grown {σ : ℚ} (hσ : 0 < σ) {ls : List ℕ} {vehs : ℕ → Veh} {truck : ℕ → Bool} {log : List Event}
    {f : Woods} (g : Grown σ ls vehs truck log f) {e : Event} (ht : ∀ x ∈ log ++ [e], x.t + 1 < 10000)
    (hs : (log ++ [e]).Pairwise fun a b => a.t ≤ b.t) :
    ∃ f', treeMove σ vehs truck f e = .ok f' ∧ Grown σ ls vehs truck (log ++ [e]) f' := by
  have hL := fun p => itemsOf_legal hσ vehs p ht hs
  have skip : (e.src = none ∨ e.dst = none) → treeMove σ vehs truck f e = .ok f ∧
      Grown σ ls vehs truck (log ++ [e]) f := by
    intro h
    refine ⟨?_, g.none, ?_⟩
    · unfold treeMove
      rcases h with h | h
      · rw [h]
      · rw [h]; cases e.src <;> rfl
    · intro b l hl
      rw [itemsOf_snoc, if_neg (by unfold intoP; rcases h with h | h <;> simp [h]), List.append_nil]
      exact g.tree b l hl
  cases hi : e.src with
  | none => exact ⟨f, skip (Or.inl hi)⟩
  | some i =>
    cases ho : e.dst with
    | none => exact ⟨f, skip (Or.inr ho)⟩
    | some o =>
      have hin : ∃ a, treeFlow σ e.t (vehs e.veh) (f (truck e.veh) o) = .ok a ∧ (o ∉ ls → a = none) ∧
          (o ∈ ls → ∃ tr, a = some tr ∧
            record (itemsOf σ vehs (intoP truck (truck e.veh) o) (log ++ [e])) = .ok tr) := by
        by_cases h : o ∈ ls
        · obtain ⟨tr, h1, h2⟩ := g.tree (truck e.veh) o h
          have hl := hL (intoP truck (truck e.veh) o)
          rw [itemsOf_snoc, if_pos (by simp [intoP, hi, ho])] at hl ⊢
          obtain ⟨tr', h3, h4⟩ := treeFlow_ok h2 hl
          exact ⟨some tr', by rw [h1]; exact h3, fun k => absurd h k, fun _ => ⟨tr', rfl, h4⟩⟩
        · exact ⟨none, by rw [g.none _ o h]; rfl, fun _ => rfl, fun k => absurd k h⟩
      obtain ⟨a, a1, a2, a3⟩ := hin
      refine ⟨fun b => if b = truck e.veh then upd (f b) o a else f b, ?_, ?_, ?_⟩
      · unfold treeMove
        rw [hi, ho]
        simp only [a1, Res.bind_ok']
      · intro b l hl
        by_cases hb : b = truck e.veh
        · rw [if_pos hb]
          by_cases h : l = o
          · subst h; simp [a2 hl]
          · rw [upd_other _ _ _ _ h]; exact g.none b l hl
        · rw [if_neg hb]; exact g.none b l hl
      · intro b l hl
        by_cases hb : b = truck e.veh
        · simp only [if_pos hb]
          by_cases h : l = o
          · subst h; subst hb; simp only [upd_same]; exact a3 hl
          · rw [upd_other _ _ _ _ h, itemsOf_snoc, if_neg (by simp [intoP, ho, Ne.symm h]), List.append_nil]
            exact g.tree b l hl
        · simp only [if_neg hb]
          rw [itemsOf_snoc, if_neg (by simp [intoP, Ne.symm hb]), List.append_nil]
          exact g.tree b l hl

theorem treeMoves_grown {σ : ℚ} (hσ : 0 < σ) {ls : List ℕ} {vehs : ℕ → Veh} {truck : ℕ → Bool} :
    ∀ (es log : List Event) (f : Woods),
    Grown σ ls vehs truck log f → (∀ x ∈ log ++ es, x.t + 1 < 10000) → (log ++ es).Pairwise (fun a b => a.t ≤ b.t) →
    ∃ f', Res.foldlM (treeMove σ vehs truck) f es = .ok f' ∧ Grown σ ls vehs truck (log ++ es) f'
  | [], log, f, g, _, _ => ⟨f, rfl, by rw [List.append_nil]; exact g⟩
  | e :: es, log, f, g, ht, hs => by
    have hap : log ++ e :: es = (log ++ [e]) ++ es := by simp
    rw [hap] at ht hs
    obtain ⟨f1, h1, g1⟩ := treeMove_grown hσ g (fun x hx => ht x (List.mem_append_left _ hx)) (List.pairwise_append.1 hs).1
    obtain ⟨f2, h2, g2⟩ := treeMoves_grown hσ es (log ++ [e]) f1 g1 ht hs
    refine ⟨f2, ?_, by rw [hap]; exact g2⟩
    rw [Res.foldlM_cons, h1, Res.ok_bind]; exact h2

/-! ### Whole loadings -/

theorem loadOnceT_grown {c : Cfg} (hc : c.net.Ok) (hsc : 0 < c.net.scalar) {o : StepOracle} (ho : o.Ok c)
    {ts assign : ℕ} (hts : ts + 1 < 10000) {ls : List ℕ} {s s' : State} {f : Woods} (h : MInv c ts s)
    (H : MHistInv c ts s) (g : Grown c.net.scalar ls s.vehs s.truck s.log f) (r : loadOnce c o ts assign s = .ok s') :
    ∃ f', loadOnceT c o ts assign (s, f) = .ok (s', f') ∧ Grown c.net.scalar ls s'.vehs s'.truck s'.log f' := by
  unfold loadOnce at r
  rw [Res.bind_eq_ok'] at r
  obtain ⟨s0, r0, r⟩ := r
  rw [Res.bind_eq_ok'] at r
  obtain ⟨s1, r1, r⟩ := r
  rw [Res.bind_eq_ok'] at r
  obtain ⟨s2, r2, r⟩ := r
  rw [Res.bind_eq_ok'] at r
  obtain ⟨s3, r3, r⟩ := r
  rw [Res.bind_eq_ok'] at r
  obtain ⟨s4, r4, r5⟩ := r
  have L0 := setAttrs_step h.inv r0
  have h0 := h.attrs L0
  obtain ⟨k, R⟩ := stepRelease_rel ho r1
  have h1 := h0.toMCore.rel hc R
  obtain ⟨T, Te, Tv⟩ := update_routed r2
  have h2 := h1.routed T Te
  have N := stepNodes_step hc ho r3
  obtain ⟨es, HS⟩ := stepNodes_hist hc ho r3
  have h3 := h2.node hsc.ne' N
  have L := linksStep_all h3.inv r4
  have H0 := H.linksStep L0
  have H1 := H0.rel h0.toMCore R
  have H2 := H1.routed Te
  have H3 := H2.nodes hc N h3 HS
  have g0 : Grown c.net.scalar ls s0.vehs s0.truck s0.log f := by
    have e1 : s0.vehs = s.vehs := by rw [L0.rest]
    have e2 : s0.truck = s.truck := by rw [L0.rest]
    have e3 : s0.log = s.log := by rw [L0.rest]
    rw [e1, e2, e3]; exact g
  have g1 : Grown c.net.scalar ls s1.vehs s1.truck s1.log f := by
    have e3 : s1.log = s0.log := R.view.log
    rw [e3]
    refine g0.congr ?_ ?_
    · intro e he
      have := R.view.old e.veh (Or.inl (H0.moved e he).1.2)
      have : s1.vehs e.veh = s0.vehs e.veh := this
      rw [this]
      exact ⟨rfl, rfl⟩
    · intro e he
      exact R.truck _ (H0.moved e he).1.2
  have g2 : Grown c.net.scalar ls s2.vehs s2.truck s2.log f := by
    have e3 : s2.log = s1.log := by rw [Te]
    have e2 : s2.truck = s1.truck := by rw [Te]
    rw [e3, e2]
    refine g1.congr ?_ (fun _ _ => rfl)
    intro e he
    refine updateView_same (u := e.veh) (s := s1.view) (s' := s2.view) ?_ Tv
    intro oid hoid
    obtain ⟨hn, outs, hk⟩ := hc.origins oid hoid
    exact (H1.moved e he).2 _ hn (by rw [hk]; exact fun h => h)
  have et3 : s3.truck = s2.truck := N.rest.truck
  have g3 : Grown c.net.scalar ls s3.vehs s3.truck s2.log f := by
    refine g2.congr ?_ (fun _ _ => by rw [et3])
    intro e he
    have := N.view.frame.veh e.veh
    have e1 : s3.view.vehs = s3.vehs := rfl
    have e2 : s2.view.vehs = s2.vehs := rfl
    rw [e1, e2] at this
    simp only [Veh.mk.injEq] at this
    tauto
  have HSl : s3.log = s2.log ++ es := HS.log
  obtain ⟨f', e1, g4⟩ := treeMoves_grown hsc es s2.log f g3
    (by rw [← HSl]; intro x hx; have := H3.time x hx; omega) (by rw [← HSl]; exact H3.sorted)
  rw [← HSl] at g4
  have e2 : s4.vehs = s3.vehs := by rw [L.rest]
  have e3 : s4.log = s3.log := by rw [L.rest]
  have e4 : s4.truck = s3.truck := by rw [L.rest]
  rw [← e2, ← e3, ← e4] at g4
  refine ⟨f', ?_, ?_⟩
  · unfold loadOnceT
    have : s3.log.drop s2.log.length = es := by rw [HSl, List.drop_left]
    simp only [r0, r1, r2, r3, r4, r5, Res.bind_ok', this, e1]
  · have h4 := h3.links L
    have hL : s4.view = { s3.view with links := s4.view.links } := by rw [L.rest]; rfl
    have I4 := recvInv_of hc h0.net R.view T N.view h4.view hL
    have := Res.foldlM_inv_mem (P := fun t => (MCore c t ∧ RecvInv c.net ts t.view) ∧
        Grown c.net.scalar ls t.vehs t.truck t.log f') c.net.destIds (by
      intro b d b' hd hb hbe
      refine ⟨hb.1.1.receive hc hd hb.1.2 hbe, ?_⟩
      obtain ⟨V, Rc⟩ := receive_view hbe
      obtain ⟨S, _⟩ := receive_spec V (hb.1.2.core.queue_nodup (hc.dests d hd).1)
      have e1 : b'.log = b.log := S.log
      rw [e1]
      refine hb.2.congr ?_ (fun _ _ => by rw [Rc.truck])
      intro e _
      have := S.veh e.veh
      have k1 : b'.view.vehs = b'.vehs := rfl
      have k2 : b.view.vehs = b.vehs := rfl
      rw [k1, k2] at this
      simp only [Veh.mk.injEq] at this
      tauto) s4 s' ⟨⟨h4, I4⟩, g4⟩ r5
    exact this.2

theorem loadManyT_grown {c : Cfg} (hc : c.net.Ok) (hsc : 0 < c.net.scalar) {ls : List ℕ} : ∀ (os : List StepOracle)
    (ts assign : ℕ) (s : State) (f : Woods) (r : State × ℕ × ℕ), (∀ o ∈ os, o.Ok c) → ts + os.length < 10000 →
    MInv c ts s → MHistInv c ts s → Grown c.net.scalar ls s.vehs s.truck s.log f → loadMany c os ts assign s = .ok r →
    ∃ f', loadManyT c os ts assign (s, f) = .ok ((r.1, f'), r.2) ∧ Grown c.net.scalar ls r.1.vehs r.1.truck r.1.log f'
  | [], ts, assign, s, f, r, _, _, _, _, g, e => by
    simp only [loadMany, Res.ok.injEq] at e
    subst e
    exact ⟨f, rfl, g⟩
  | o :: os, ts, assign, s, f, r, ho, hts, hi, h, g, e => by
    simp only [loadMany] at e
    rw [Res.bind_eq_ok'] at e
    obtain ⟨s1, e1, e2⟩ := e
    simp only [List.length_cons] at hts
    obtain ⟨f1, a1, g1⟩ := loadOnceT_grown hc hsc (ho o (by simp)) (by omega) hi h g e1
    obtain ⟨f2, a2, g2⟩ := loadManyT_grown hc hsc os _ _ s1 f1 r (fun x hx => ho x (by simp [hx])) (by omega)
      (loadOnce_inv hc hsc.ne' (ho o (by simp)) hi e1) (loadOnce_hist hc hsc.ne' (ho o (by simp)) hi h e1) g1 e2
    refine ⟨f2, ?_, g2⟩
    simp only [loadManyT, a1, Res.bind_ok']
    exact a2

theorem loadManyT_load {c : Cfg} : ∀ (os : List StepOracle) (ts assign : ℕ) (s : State × Woods)
    (r : (State × Woods) × ℕ × ℕ), loadManyT c os ts assign s = .ok r →
    loadMany c os ts assign s.1 = .ok (r.1.1, r.2)
  | [], ts, assign, s, r, e => by
    simp only [loadManyT, Res.ok.injEq] at e
    subst e
    rfl
  | o :: os, ts, assign, s, r, e => by
    simp only [loadManyT] at e
    rw [Res.bind_eq_ok'] at e
    obtain ⟨s1, e1, e2⟩ := e
    have := loadManyT_load os _ _ s1 r e2
    simp only [loadMany]
    have h1 : loadOnce c o ts assign s.1 = .ok s1.1 := by
      unfold loadOnceT at e1
      rw [Res.bind_eq_ok'] at e1
      obtain ⟨t0, r0, e1⟩ := e1
      rw [Res.bind_eq_ok'] at e1
      obtain ⟨t1, r1, e1⟩ := e1
      rw [Res.bind_eq_ok'] at e1
      obtain ⟨t2, r2, e1⟩ := e1
      rw [Res.bind_eq_ok'] at e1
      obtain ⟨t3, r3, e1⟩ := e1
      rw [Res.bind_eq_ok'] at e1
      obtain ⟨f, _, e1⟩ := e1
      rw [Res.bind_eq_ok'] at e1
      obtain ⟨t4, r4, e1⟩ := e1
      rw [Res.bind_eq_ok'] at e1
      obtain ⟨t5, r5, e1⟩ := e1
      cases e1
      unfold loadOnce
      simp only [r0, r1, r2, r3, r4, r5, Res.bind_ok']
    rw [h1, Res.bind_ok']
    exact this

/-! ### Assignment intervals -/

theorem releaseDests_assign {c : Cfg} {scalar : ℚ} {ts oid assign : ℕ} (hoid : oid ∈ c.net.originIds)
    (orc : ReleaseOracle) (cl : Bool) (u : ℕ → ℚ) (own : ℕ → Option (ℕ → ℚ)) (labels : List ℚ) :
    ∀ (dem : List (ℕ × (ℕ → ℚ))) (k : ℕ) (ratio : ℚ) (s : State) (p : State × ℚ),
    releaseDests scalar (c.net.origin oid).node oid (c.net.origin oid).freq orc ts assign cl u own
      labels k ratio dem s = .ok p →
      ∀ v, s.numVeh < v → v ≤ p.1.numVeh → (p.1.vehs v).assign = (ts / (c.net.origin oid).freq : ℕ)
  | [], k, ratio, s, p, h, v, h1, h2 => by
    simp only [releaseDests, Res.ok.injEq] at h
    subst h
    simp only at h2
    omega
  | (d, f) :: dem, k, ratio, s, p, h, v, h1, h2 => by
    simp only [releaseDests] at h
    rw [Res.bind_eq_ok'] at h
    obtain ⟨n, _, h⟩ := h
    have B := fun r => (releaseVehs_spec (c := c) (ts := ts) (d := d) hoid orc cl r labels n.toNat s)
    obtain ⟨m, R⟩ := releaseDests_rel hoid orc cl u own labels dem _ _ _ _ h
    have ih := releaseDests_assign hoid orc cl u own labels dem _ _ _ _ h v
    rcases Nat.lt_or_ge (s.numVeh + n.toNat) v with hv | hv
    · exact ih (by rw [(B _).1.numVeh]; exact hv) h2
    · have e := R.view.old v (Or.inl (by show v ≤ State.numVeh _; rw [(B _).1.numVeh]; exact hv))
      exact (congrArg Veh.assign e).trans (congrArg Veh.assign ((B _).2.veh v h1 hv).1)

theorem releaseOne_assign {c : Cfg} {ts oid assign : ℕ} (hoid : oid ∈ c.net.originIds) {orc : ReleaseOracle}
    {m : Release} {s s' : State} (h : releaseOne c oid orc ts assign m s = .ok s') :
    ∀ v, s.numVeh < v → v ≤ s'.numVeh → (s'.vehs v).assign = (ts / (c.net.origin oid).freq : ℕ) := by
  have key : ∀ (p q : State × ℚ) (r1 r2 : ℚ),
      releaseDests c.net.scalar (c.net.origin oid).node oid (c.net.origin oid).freq orc ts assign false orc.uCar
        (c.dem oid).ratioCar (c.dem oid).labelCar 0 r1 (c.dem oid).car s = .ok p →
      releaseDests c.net.scalar (c.net.origin oid).node oid (c.net.origin oid).freq orc ts assign true orc.uTruck
        (c.dem oid).ratioTruck (c.dem oid).labelTruck 0 r2 (c.dem oid).truck p.1 = .ok q →
      ∀ v, s.numVeh < v → v ≤ q.1.numVeh → (q.1.vehs v).assign = (ts / (c.net.origin oid).freq : ℕ) := by
    intro p q r1 r2 hp hq v h1 h2
    obtain ⟨m, R⟩ := releaseDests_rel hoid orc true _ _ _ _ _ _ _ _ hq
    rcases Nat.lt_or_ge p.1.numVeh v with hv | hv
    · exact releaseDests_assign hoid orc true _ _ _ _ _ _ _ _ hq v hv h2
    · have e : q.1.vehs v = p.1.vehs v := R.view.old v (Or.inl hv)
      rw [e]
      exact releaseDests_assign hoid orc false _ _ _ _ _ _ _ _ hp v h1 hv
  unfold releaseOne at h
  simp only at h
  split at h
  · simp at h
  cases m with
  | one r =>
    simp only at h
    rw [Res.bind_eq_ok'] at h
    obtain ⟨p, hp, h⟩ := h
    rw [Res.bind_eq_ok'] at h
    obtain ⟨q, hq, h⟩ := h
    cases h
    exact key p q _ _ hp hq
  | two rc rt =>
    simp only at h
    rw [Res.bind_eq_ok'] at h
    obtain ⟨p, hp, h⟩ := h
    rw [Res.bind_eq_ok'] at h
    obtain ⟨q, hq, h⟩ := h
    cases h
    exact key p q _ _ hp hq
  | nothing =>
    cases h
    intro v h1 h2; omega

theorem stepRelease_assign {c : Cfg} {o : StepOracle} (ho : o.Ok c) {ts assign : ℕ} {s s' : State}
    (hf : ∀ oid ∈ c.net.originIds, (c.net.origin oid).freq = c.net.assignFreq)
    (h : stepRelease c o ts assign s = .ok s') :
    ∀ v, s.numVeh < v → v ≤ s'.numVeh →
      (s'.vehs v).assign = (ts / c.net.assignFreq : ℕ) ∧ assign < c.net.totalAssign := by
  unfold stepRelease at h
  split at h
  · simp at h
  split at h
  swap
  · cases h; intro v h1 h2; omega
  split at h
  · cases h; intro v h1 h2; omega
  rename_i _ _ hA
  have := Res.foldlM_inv_mem (P := fun t => (∃ n, MRel c ts n s t) ∧ ∀ v, s.numVeh < v → v ≤ t.numVeh →
    (t.vehs v).assign = (ts / c.net.assignFreq : ℕ)) c.net.originIds (by
      rintro b oid b' hoid ⟨⟨n, hn⟩, hb⟩ he
      obtain ⟨m, hm⟩ := releaseOne_rel hoid (ho.release oid) he
      refine ⟨⟨_, hn.trans hm⟩, ?_⟩
      intro v h1 h2
      rcases Nat.lt_or_ge b.numVeh v with hv | hv
      · rw [← hf oid hoid]; exact releaseOne_assign hoid he v hv h2
      · have e : b'.vehs v = b.vehs v := hm.view.old v (Or.inl hv)
        rw [e]; exact hb v h1 hv) s s'
    ⟨⟨0, MRel.refl _ _ _⟩, by intro v h1 h2; omega⟩ h
  intro v h1 h2
  exact ⟨this.2 v h1 h2, by omega⟩

/-- Every vehicle knows its assignment interval. -/
def DepInv (c : Cfg) (s : State) : Prop := ∀ v, 1 ≤ v → v ≤ s.numVeh → ∃ k : ℕ, (s.vehs v).start = k ∧
  (s.vehs v).assign = (k / c.net.assignFreq : ℕ) ∧ k / c.net.assignFreq < c.net.totalAssign

theorem DepInv.keep {c : Cfg} {s s' : State} (h : DepInv c s) (hn : s'.numVeh = s.numVeh)
    (hv : ∀ v, (s'.vehs v).start = (s.vehs v).start ∧ (s'.vehs v).assign = (s.vehs v).assign) : DepInv c s' := by
  intro v h1 h2
  rw [(hv v).1, (hv v).2]; exact h v h1 (by omega)

theorem loadOnce_dep {c : Cfg} (hc : c.net.Ok) (hsc : c.net.scalar ≠ 0) {o : StepOracle} (ho : o.Ok c)
    (hf : ∀ oid ∈ c.net.originIds, (c.net.origin oid).freq = c.net.assignFreq) {ts assign : ℕ}
    (ha : assign = ts / c.net.assignFreq) {s s' : State} (h : MInv c ts s) (d : DepInv c s)
    (r : loadOnce c o ts assign s = .ok s') : DepInv c s' := by
  unfold loadOnce at r
  rw [Res.bind_eq_ok'] at r
  obtain ⟨s0, r0, r⟩ := r
  rw [Res.bind_eq_ok'] at r
  obtain ⟨s1, r1, r⟩ := r
  rw [Res.bind_eq_ok'] at r
  obtain ⟨s2, r2, r⟩ := r
  rw [Res.bind_eq_ok'] at r
  obtain ⟨s3, r3, r⟩ := r
  rw [Res.bind_eq_ok'] at r
  obtain ⟨s4, r4, r5⟩ := r
  have L0 := setAttrs_step h.inv r0
  have h0 := h.attrs L0
  obtain ⟨k, R⟩ := stepRelease_rel ho r1
  have h1 := h0.toMCore.rel hc R
  obtain ⟨T, Te, Tv⟩ := update_routed r2
  have h2 := h1.routed T Te
  have N := stepNodes_step hc ho r3
  have h3 := h2.node hsc N
  have L := linksStep_all h3.inv r4
  have d0 : DepInv c s0 := d.keep (by rw [L0.rest]) fun v => by rw [L0.rest]; exact ⟨rfl, rfl⟩
  have d1 : DepInv c s1 := by
    intro v h1 h2
    rcases Nat.lt_or_ge s0.numVeh v with hv | hv
    · obtain ⟨a1, a2⟩ := stepRelease_assign ho hf r1 v hv h2
      exact ⟨ts, (R.view.new v hv (by rw [← R.view.num]; exact h2)).1, a1, by omega⟩
    · have e : s1.vehs v = s0.vehs v := R.view.old v (Or.inl hv)
      rw [e]; exact d0 v h1 hv
  have d2 : DepInv c s2 := d1.keep (by rw [Te]) fun v => by
    have := T.veh v
    have k1 : s1.view.vehs = s1.vehs := rfl
    have k2 : s2.view.vehs = s2.vehs := rfl
    rw [k1, k2] at this
    simp only [Veh.mk.injEq] at this; tauto
  have d3 : DepInv c s3 := d2.keep N.view.frame.factory.1 fun v => by
    have := N.view.frame.veh v
    have k1 : s3.view.vehs = s3.vehs := rfl
    have k2 : s2.view.vehs = s2.vehs := rfl
    rw [k1, k2] at this
    simp only [Veh.mk.injEq] at this; tauto
  have d4 : DepInv c s4 := d3.keep (by rw [L.rest]) fun v => by rw [L.rest]; exact ⟨rfl, rfl⟩
  have h4 := h3.links L
  have hL : s4.view = { s3.view with links := s4.view.links } := by rw [L.rest]; rfl
  have I4 := recvInv_of hc h0.net R.view T N.view h4.view hL
  have := Res.foldlM_inv_mem (P := fun t => (MCore c t ∧ RecvInv c.net ts t.view) ∧ DepInv c t) c.net.destIds (by
    intro b d b' hd hb hbe
    refine ⟨hb.1.1.receive hc hd hb.1.2 hbe, ?_⟩
    obtain ⟨V, Rc⟩ := receive_view hbe
    obtain ⟨S, _⟩ := receive_spec V (hb.1.2.core.queue_nodup (hc.dests d hd).1)
    refine hb.2.keep S.num fun v => ?_
    have := S.veh v
    have k1 : b'.view.vehs = b'.vehs := rfl
    have k2 : b.view.vehs = b.vehs := rfl
    rw [k1, k2] at this
    simp only [Veh.mk.injEq] at this
    tauto) s4 s' ⟨⟨h4, I4⟩, d4⟩ r5
  exact this.2

theorem loadMany_dep {c : Cfg} (hc : c.net.Ok) (hsc : c.net.scalar ≠ 0)
    (hf : ∀ oid ∈ c.net.originIds, (c.net.origin oid).freq = c.net.assignFreq) : ∀ (os : List StepOracle)
    (ts assign : ℕ) (s : State) (r : State × ℕ × ℕ), (∀ o ∈ os, o.Ok c) → assign = ts / c.net.assignFreq →
    MInv c ts s → DepInv c s → loadMany c os ts assign s = .ok r → DepInv c r.1
  | [], ts, assign, s, r, _, _, _, h, e => by
    simp only [loadMany, Res.ok.injEq] at e
    subst e
    exact h
  | o :: os, ts, assign, s, r, ho, ha, hi, h, e => by
    simp only [loadMany] at e
    rw [Res.bind_eq_ok'] at e
    obtain ⟨s1, e1, e2⟩ := e
    refine loadMany_dep hc hsc hf os _ _ s1 r (fun x hx => ho x (by simp [hx])) ?_
      (loadOnce_inv hc hsc (ho o (by simp)) hi e1) (loadOnce_dep hc hsc (ho o (by simp)) hf ha hi h e1) e2
    rw [ha, Nat.succ_div]
    simp only [Nat.dvd_iff_mod_eq_zero]
    split <;> rfl

end Verif.MNet

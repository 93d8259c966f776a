import Verif.Lemmas.MNodeEnds
import Verif.Lemmas.Route

/-! # Adaptive vehicles when adaptive routing is switched off -/

namespace Verif.MNet
open Ults Curve Net

theorem registerVeh_keeps {c : Net.Cfg} {pt : PathTable} {r : ℚ} {v : ℕ} {b : Bool} {s s' : Net.State}
    (h : registerVeh c pt r v b s = .ok s') (w : ℕ) : (s'.vehs w).next = (s.vehs w).next := by
  unfold registerVeh at h
  split at h
  · simp at h
  split at h
  · simp at h
  cases h
  simp only [upd]
  split
  · rename_i e; subst e; rfl
  · rfl

theorem fixedOrigin_keeps {c : Net.Cfg} {pt : PathTable} {o : RouteOracle} {s s' : Net.State} {v : ℕ}
    (h : fixedOrigin c pt o s v = .ok s') (w : ℕ) (hw : (s.vehs w).adaptive = true) :
    (s'.vehs w).next = (s.vehs w).next := by
  unfold fixedOrigin at h
  split at h
  · split at h
    · exact registerVeh_keeps h w
    · cases h; rfl
  · rename_i hv
    split at h
    · cases h; rfl
    · rw [Res.bind_eq_ok'] at h
      obtain ⟨s1, h1, h2⟩ := h
      have hne : w ≠ v := by rintro rfl; exact hv hw
      rw [((nextFromTracker_one h2).1.veh w hne), (registerVeh_one h1).veh w hne]

theorem fixedLink_keeps {c : Net.Cfg} {l : ℕ} {s s' : Net.State} {v : ℕ}
    (h : fixedLink c l s v = .ok s') (w : ℕ) (hw : (s.vehs w).adaptive = true) :
    (s'.vehs w).next = (s.vehs w).next := by
  unfold fixedLink at h
  split at h
  · cases h; rfl
  rename_i hv
  have hne : w ≠ v := by rintro rfl; exact hv hw
  split at h
  · split at h
    · simp at h
    · cases h; simp only [upd_other _ _ _ _ hne]
    · simp at h
  · split at h
    · simp at h
    · split at h
      · rw [(nextFromTracker_one h).1.veh w hne]
      · cases h; rfl

theorem fixedCls_keeps {c : Net.Cfg} {truck : ℕ → Bool} {cl : Bool} {pt : PathTable} {o : RouteOracle}
    {s s' : Net.State} (h : fixedCls c truck cl pt o s = .ok s') (w : ℕ)
    (hw : (s.vehs w).adaptive = true) : (s'.vehs w).next = (s.vehs w).next := by
  unfold fixedCls routeAll at h
  rw [Res.bind_eq_ok'] at h
  obtain ⟨s1, h1, h2⟩ := h
  have P := Res.foldlM_inv (P := fun t : Net.State => (t.vehs w).adaptive = true ∧
      (t.vehs w).next = (s.vehs w).next) (f := fun s oid =>
      Res.foldlM ((fun _ s v => if truck v = cl then fixedOrigin c pt o s v else .ok s)
        (c.origin oid).node) s (s.queue (c.origin oid).node)) (by
    intro t oid t' ht he
    refine Res.foldlM_inv (P := fun t : Net.State => (t.vehs w).adaptive = true ∧
      (t.vehs w).next = (s.vehs w).next) ?_ _ _ _ ht he
    rintro a v a' ⟨q1, q2⟩ hb
    simp only at hb
    split at hb
    · exact ⟨by rw [(fixedOrigin_routed hb).adaptive]; exact q1,
        by rw [fixedOrigin_keeps hb w q1]; exact q2⟩
    · cases hb; exact ⟨q1, q2⟩) _ _ _ ⟨hw, rfl⟩ h1
  have Q := Res.foldlM_inv (P := fun t : Net.State => (t.vehs w).adaptive = true ∧
      (t.vehs w).next = (s.vehs w).next) (f := fun s l =>
      Res.foldlM ((fun l s v => if truck v = cl then fixedLink c l s v else .ok s) l) s
        (s.links l).link.finished) (by
    intro t oid t' ht he
    refine Res.foldlM_inv (P := fun t : Net.State => (t.vehs w).adaptive = true ∧
      (t.vehs w).next = (s.vehs w).next) ?_ _ _ _ ht he
    rintro a v a' ⟨q1, q2⟩ hb
    simp only at hb
    split at hb
    · exact ⟨by rw [(fixedLink_routed hb).adaptive]; exact q1,
        by rw [fixedLink_keeps hb w q1]; exact q2⟩
    · cases hb; exact ⟨q1, q2⟩) _ _ _ P h2
  exact Q.2

/-- Adaptive vehicles wait in the queue of their origin, without a next link. -/
def Stuck (c : Cfg) (s : State) : Prop := ∀ v, 1 ≤ v → v ≤ s.numVeh → (s.vehs v).adaptive = true →
  (s.vehs v).origin ∈ c.net.originIds ∧ v ∈ s.queue (c.net.origin (s.vehs v).origin).node ∧
  (s.vehs v).next = none

/-- No vehicles are released, no routes are changed, and no vehicle without next link leaves the
queue of an origin node. -/
structure Calm (c : Cfg) (s s' : State) : Prop where
  num : s'.numVeh = s.numVeh
  veh : ∀ v, (s'.vehs v).adaptive = (s.vehs v).adaptive ∧ (s'.vehs v).origin = (s.vehs v).origin ∧
    (s'.vehs v).next = (s.vehs v).next
  queue : ∀ n outs, c.net.node n = .origin outs → ∀ v ∈ s.queue n, (s.vehs v).next = none →
    v ∈ s'.queue n

theorem Calm.refl (c : Cfg) (s : State) : Calm c s s :=
  ⟨rfl, fun _ => ⟨rfl, rfl, rfl⟩, fun _ _ _ _ hv _ => hv⟩

theorem Calm.trans {c : Cfg} {a b d : State} (h : Calm c a b) (k : Calm c b d) : Calm c a d := by
  refine ⟨k.num.trans h.num, ?_, ?_⟩
  · intro v
    obtain ⟨h1, h2, h3⟩ := h.veh v
    obtain ⟨k1, k2, k3⟩ := k.veh v
    exact ⟨k1.trans h1, k2.trans h2, k3.trans h3⟩
  · intro n outs hn v hv h0
    exact k.queue n outs hn v (h.queue n outs hn v hv h0) (by rw [(h.veh v).2.2]; exact h0)

theorem Stuck.calm {c : Cfg} (hc : c.net.Ok) {s s' : State} (h : Stuck c s) (k : Calm c s s') :
    Stuck c s' := by
  intro v h1 h2 h3
  obtain ⟨k1, k2, k3⟩ := k.veh v
  rw [k.num] at h2
  rw [k1] at h3
  obtain ⟨a1, a2, a3⟩ := h v h1 h2 h3
  obtain ⟨outs, ho⟩ := (hc.origins _ a1).2
  rw [k2, k3]
  exact ⟨a1, k.queue _ outs ho v a2 a3, a3⟩

theorem OnlyQueues.same {s s' : State} (h : OnlyQueues s s') : s'.numVeh = s.numVeh ∧
    ∀ v, (s'.vehs v).adaptive = (s.vehs v).adaptive ∧ (s'.vehs v).origin = (s.vehs v).origin ∧
      (s'.vehs v).next = (s.vehs v).next := by
  refine ⟨by rw [OnlyMoves.rest h], ?_⟩
  intro v
  have := OnlyMoves.veh h v
  simp only [Veh.mk.injEq] at this
  tauto

theorem nodeEvolve_calm {c : Cfg} (hc : c.net.Ok) (hs : 0 < c.net.scalar) (hf : 0 ≤ c.factor)
    {o : StepOracle} (ho : o.Ok c) {ts n : ℕ} (hn : n ∈ c.net.nodeIds) {s s' : State}
    (h : nodeEvolve c.net.scalar c.factor ts n (o.u n) (o.order n) s (c.net.node n) = .ok s') :
    Calm c s s' := by
  have hins := (hc.ins n hn).1
  have houts := (hc.outs n hn).1
  have hord := ho.order n
  cases hnd : c.net.node n with
  | origin outs =>
    rw [hnd] at h houts
    simp only [nodeEvolve] at h
    obtain ⟨lvs, e1, S, _⟩ := origin_spec h houts
    obtain ⟨q1, q2⟩ := S.only.same
    refine ⟨q1, q2, ?_⟩
    intro n' outs' hn' v hv hnone
    by_cases e : n' = n
    · subst e
      have := S.rest (fun w => decide ((s.vehs w).next = none)) (by
        intro w hw lv _
        simp only [decide_eq_true_eq] at hw
        simp [State.heads, hw])
      have hm : v ∈ (s.queue n').filter (fun w => decide ((s.vehs w).next = none)) := by
        simp [List.mem_filter, hv, hnone]
      rw [← this] at hm
      exact (List.mem_filter.1 hm).1
    · rw [S.queueOther n' e]; exact hv
  | dest ins =>
    rw [hnd] at h hins
    simp only [nodeEvolve] at h
    have S := dest_spec ins s s' h hins
    obtain ⟨q1, q2⟩ := S.only.same
    refine ⟨q1, q2, ?_⟩
    intro n' outs' hn' v hv hnone
    rw [S.queueOther n' (by rintro rfl; rw [hnd] at hn'; simp at hn')]; exact hv
  | fwj ins outs =>
    rw [hnd] at h hins houts hord
    simp only [nodeEvolve] at h
    obtain ⟨k, S⟩ := junction_spec hs hf hins houts hord h
    have hq : s'.queue = s.queue := by rw [S.only.rest]
    have : OnlyQueues s s' := by unfold OnlyQueues; rw [hq]; exact S.only
    obtain ⟨q1, q2⟩ := this.same
    exact ⟨q1, q2, fun _ _ _ _ hv _ => by rw [hq]; exact hv⟩
  | grj ins outs => rw [hnd] at h; simp [nodeEvolve] at h

theorem receive_calm {c : Cfg} (hc : c.net.Ok) {ts d : ℕ} (hd : d ∈ c.net.destIds) {s s' : State}
    (h : receive c ts s d = .ok s') : Calm c s s' := by
  unfold receive at h
  rw [Res.bind_eq_ok'] at h
  obtain ⟨s1, h1, h⟩ := h
  cases h
  have P := Res.foldlM_inv (P := fun t : State => t.numVeh = s.numVeh ∧ t.queue = s.queue ∧
      ∀ v, (t.vehs v).adaptive = (s.vehs v).adaptive ∧ (t.vehs v).origin = (s.vehs v).origin ∧
        (t.vehs v).next = (s.vehs v).next) (f := receiveVeh ts d) (by
    rintro t v t' ⟨p1, p2, p3⟩ he
    unfold receiveVeh at he
    split at he
    · simp at he
    unfold State.removeFinished at he
    simp only at he
    split at he
    · cases he
      refine ⟨p1, p2, ?_⟩
      intro w
      simp only [upd]
      split
      · rename_i e; subst e; exact p3 w
      · exact p3 w
    · simp at he) _ _ _ ⟨rfl, rfl, fun _ => ⟨rfl, rfl, rfl⟩⟩ h1
  refine ⟨P.1, P.2.2, ?_⟩
  intro n outs hn v hv _
  obtain ⟨ins, hi⟩ := (hc.dests d hd).2
  simp only
  rw [upd_other _ _ _ _ (by rintro rfl; rw [hn] at hi; simp at hi), P.2.1]
  exact hv

theorem LStep.calm {c : Cfg} {s s' : State} (h : LStep c s s') : Calm c s s' := by
  have e := h.rest
  refine ⟨by rw [e], fun v => ⟨by rw [e], by rw [e], by rw [e]⟩, ?_⟩
  intro n outs _ v hv _
  rw [e]; exact hv

theorem update_calm {c : Cfg} {o : RouteOracle} {pc pt : PathTable} {s s' : State}
    (h : (Routing.biclass none pc pt).update c.net o s = .ok s') :
    ∀ v, (s'.vehs v).adaptive = (s.vehs v).adaptive ∧ (s'.vehs v).origin = (s.vehs v).origin ∧
      ((s.vehs v).adaptive = true → (s'.vehs v).next = (s.vehs v).next) := by
  obtain ⟨T, _, h3⟩ := update_routed h
  simp only [Routing.updateView] at h3
  rw [Res.bind_eq_ok'] at h3
  obtain ⟨s1, e1, h3⟩ := h3
  cases e1
  rw [Res.bind_eq_ok'] at h3
  obtain ⟨s2, h4, h5⟩ := h3
  intro v
  refine ⟨T.adaptive v, ?_, ?_⟩
  · have := T.veh v
    simp only [Veh.mk.injEq] at this
    exact this.2.2.2.1
  · intro ha
    have a1 := fixedCls_keeps h4 v ha
    have a2 := fixedCls_keeps h5 v (by rw [(fixedCls_routed h4).adaptive]; exact ha)
    exact a2.trans a1

theorem loadOnce_stuck {c : Cfg} (hc : c.net.Ok) (hs : 0 < c.net.scalar) (hf : 0 ≤ c.factor)
    {o : StepOracle} (ho : o.Ok c) (hr : ∃ pc pt, o.routing = .biclass none pc pt) {ts assign : ℕ}
    {s s' : State} (hi : MInv c ts s) (h : Stuck c s) (r : loadOnce c o ts assign s = .ok s') :
    Stuck c s' := by
  unfold loadOnce at r
  rw [Res.bind_eq_ok'] at r
  obtain ⟨s0, r0, r⟩ := r
  rw [Res.bind_eq_ok'] at r
  obtain ⟨s1, r1, r⟩ := r
  rw [Res.bind_eq_ok'] at r
  obtain ⟨s2, r2, r⟩ := r
  rw [Res.bind_eq_ok'] at r
  obtain ⟨s3, r3, r⟩ := r
  rw [Res.bind_eq_ok'] at r
  obtain ⟨s4, r4, r5⟩ := r
  have L0 := setAttrs_step hi.inv r0
  have h0 := h.calm hc L0.calm
  have i0 := hi.attrs L0
  obtain ⟨k, R⟩ := stepRelease_rel ho r1
  have i1 := i0.toMCore.rel hc R
  have h1 : Stuck c s1 := by
    intro v v1 v2 va
    have hperm := R.view.queue (c.net.origin (s1.vehs v).origin).node
    by_cases hv : v ≤ s0.numVeh
    · have e : s1.vehs v = s0.vehs v := R.view.old v (Or.inl hv)
      rw [e] at va hperm ⊢
      obtain ⟨a1, a2, a3⟩ := h0 v v1 hv va
      refine ⟨a1, ?_, a3⟩
      have : v ∈ s1.view.queue (c.net.origin (s0.vehs v).origin).node := by
        rw [hperm.mem_iff, List.mem_append]
        exact Or.inl a2
      exact this
    · have hn : s1.numVeh = s0.numVeh + k := R.numVeh
      obtain ⟨_, _, _, a4, _, a6⟩ := R.view.new v (by show s0.numVeh < v; omega)
        (by show v ≤ s0.numVeh + k; omega)
      refine ⟨a6, ?_, a4⟩
      have : v ∈ s1.view.queue (c.net.origin (s1.vehs v).origin).node := by
        rw [hperm.mem_iff, List.mem_append, List.mem_filter, List.mem_range'_1]
        refine Or.inr ⟨⟨by show s0.numVeh + 1 ≤ v; omega, by show v < s0.numVeh + 1 + k; omega⟩, ?_⟩
        simp only [decide_eq_true_eq]
        rfl
      exact this
  obtain ⟨pc, pt, hr⟩ := hr
  rw [hr] at r2
  obtain ⟨T, Te, _⟩ := update_routed r2
  have i2 := i1.routed T Te
  have h2 : Stuck c s2 := by
    have hnum : s2.numVeh = s1.numVeh := T.num
    have hq : s2.queue = s1.queue := T.queue
    intro v v1 v2 va
    obtain ⟨u1, u2, u3⟩ := update_calm r2 v
    rw [u1] at va
    obtain ⟨a1, a2, a3⟩ := h1 v v1 (by omega) va
    rw [u2, hq, u3 va]
    exact ⟨a1, a2, a3⟩
  have hn := Res.foldlM_inv_mem (P := Calm c s2) (f := fun s n =>
      nodeEvolve c.net.scalar c.factor ts n (o.u n) (o.order n) s (c.net.node n)) c.net.nodeIds (by
    intro a n a' hn ha he
    exact ha.trans (nodeEvolve_calm hc hs hf ho hn he)) s2 s3 (Calm.refl c s2) r3
  have h3 := h2.calm hc hn
  have i3 := i2.node hs.ne' (stepNodes_step hc ho r3)
  have h4 := h3.calm hc (linksStep_all i3.inv r4).calm
  have hd := Res.foldlM_inv_mem (P := Calm c s4) (f := receive c ts) c.net.destIds (by
    intro a n a' hn ha he
    exact ha.trans (receive_calm hc hn he)) s4 s' (Calm.refl c s4) r5
  exact h4.calm hc hd

theorem loadMany_stuck {c : Cfg} (hc : c.net.Ok) (hs : 0 < c.net.scalar) (hf : 0 ≤ c.factor) :
    ∀ (os : List StepOracle) (ts assign : ℕ) (s : State) (r : State × ℕ × ℕ),
    (∀ o ∈ os, o.Ok c ∧ ∃ pc pt, o.routing = .biclass none pc pt) → MInv c ts s → Stuck c s →
    loadMany c os ts assign s = .ok r → Stuck c r.1
  | [], ts, assign, s, r, _, _, h, e => by simp only [loadMany] at e; cases e; exact h
  | o :: os, ts, assign, s, r, ho, hi, h, e => by
    simp only [loadMany] at e
    rw [Res.bind_eq_ok'] at e
    obtain ⟨s1, e1, e2⟩ := e
    obtain ⟨o1, o2⟩ := ho o (by simp)
    exact loadMany_stuck hc hs hf os _ _ s1 r (fun x hx => ho x (by simp [hx]))
      (loadOnce_inv hc hs.ne' o1 hi e1) (loadOnce_stuck hc hs hf o1 o2 hi h e1) e2

end Verif.MNet

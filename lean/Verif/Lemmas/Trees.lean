import Verif.Spec.Trees
import Verif.Lemmas.History
import Verif.Lemmas.Dar

/-! # Lemmas about the trees of curves during the loading -/

namespace Verif.Net
open Ults Curve Lnk Tab Tt

/-! ### Paths and assignment intervals stay -/

/-- Vehicle `v` has the same path and assignment interval. -/
def Same (v : ℕ) (s s' : State) : Prop :=
  (s'.vehs v).path = (s.vehs v).path ∧ (s'.vehs v).assign = (s.vehs v).assign

theorem Same.refl (v : ℕ) (s : State) : Same v s s := ⟨rfl, rfl⟩

theorem Same.trans {v : ℕ} {a b d : State} (h : Same v a b) (k : Same v b d) : Same v a d :=
  ⟨k.1.trans h.1, k.2.trans h.2⟩

theorem same_next (s : State) (u v : ℕ) (x : Option ℕ) (t : ℕ → Option (List ℕ)) :
    Same u s { s with vehs := upd s.vehs v { s.vehs v with next := x }, tracker := t } := by
  by_cases h : u = v
  · subst h; exact ⟨by simp, by simp⟩
  · exact ⟨by simp [upd_other _ _ _ _ h], by simp [upd_other _ _ _ _ h]⟩

theorem nextFromTracker_same {c : Cfg} {u v : ℕ} {s s' : State} (h : nextFromTracker c v s = .ok s') :
    Same u s s' := by
  unfold nextFromTracker at h
  split at h
  · simp at h
  · simp at h
  rw [Res.bind_eq_ok'] at h
  obtain ⟨l, _, h⟩ := h
  cases h
  exact same_next _ _ _ _ _

theorem fixedLink_same {c : Cfg} {l u v : ℕ} {s s' : State} (h : fixedLink c l s v = .ok s') : Same u s s' := by
  unfold fixedLink at h
  split at h
  · cases h; exact Same.refl _ _
  split at h
  · split at h
    · simp at h
    · cases h; exact same_next s u v none s.tracker
    · simp at h
  · split at h
    · simp at h
    · split at h
      · exact nextFromTracker_same h
      · cases h; exact Same.refl _ _

theorem adaptiveOrigin_same {c : Cfg} {tr : Trees} {n u v : ℕ} {s s' : State}
    (h : adaptiveOrigin c tr n s v = .ok s') : Same u s s' := by
  unfold adaptiveOrigin at h
  split at h
  · split at h
    · simp at h
    split at h
    · simp at h
    rw [Res.bind_eq_ok'] at h
    obtain ⟨l, _, h⟩ := h
    cases h; exact same_next s u v _ s.tracker
  · cases h; exact Same.refl _ _

theorem adaptiveLink_same {c : Cfg} {tr : Trees} {o : RouteOracle} {l u v : ℕ} {s s' : State}
    (h : adaptiveLink c tr o l s v = .ok s') : Same u s s' := by
  unfold adaptiveLink at h
  split at h
  · split at h
    · simp at h
    split at h
    · cases h; exact same_next s u v _ s.tracker
    split at h
    · simp at h
    simp only at h
    rw [Res.bind_eq_ok'] at h
    obtain ⟨k, _, h⟩ := h
    split at h
    · simp at h
    split at h
    · simp at h
    cases h; exact same_next s u v _ s.tracker
  · cases h; exact Same.refl _ _

theorem randomOrigin_same {c : Cfg} {o : RouteOracle} {n u v : ℕ} {s s' : State}
    (h : randomOrigin c o n s v = .ok s') : Same u s s' := by
  unfold randomOrigin at h
  split at h
  · simp at h
  · rw [Res.bind_eq_ok'] at h
    obtain ⟨l, _, h⟩ := h
    cases h; exact same_next s u v _ s.tracker

theorem randomLink_same {c : Cfg} {o : RouteOracle} {l u v : ℕ} {s s' : State}
    (h : randomLink c o l s v = .ok s') : Same u s s' := by
  unfold randomLink at h
  split at h
  · cases h; exact same_next s u v _ s.tracker
  · rw [Res.bind_eq_ok'] at h
    obtain ⟨l, _, h⟩ := h
    cases h; exact same_next s u v _ s.tracker

theorem fixedOrigin_same {c : Cfg} {pt : PathTable} {o : RouteOracle} {u v : ℕ} (huv : v ≠ u) {s s' : State}
    (h : fixedOrigin c pt o s v = .ok s') : Same u s s' := by
  have := (fixedOrigin_one h).veh u (Ne.symm huv)
  exact ⟨by rw [this], by rw [this]⟩

theorem routeAll_same {c : Cfg} {u : ℕ} {fo fl : ℕ → State → ℕ → Res State}
    (hro : ∀ n s s' v, fo n s v = .ok s' → Routed s s')
    (ho : ∀ n s s' v, v ≠ u → fo n s v = .ok s' → Same u s s')
    (hl : ∀ n s s' v, fl n s v = .ok s' → Same u s s') {s s' : State}
    (hu : ∀ oid ∈ c.originIds, u ∉ s.queue (c.origin oid).node) (h : routeAll c fo fl s = .ok s') :
    Same u s s' := by
  unfold routeAll at h
  rw [Res.bind_eq_ok'] at h
  obtain ⟨s1, h1, h2⟩ := h
  have A : s1.queue = s.queue ∧ Same u s s1 := by
    refine Res.foldlM_inv_mem (P := fun t => t.queue = s.queue ∧ Same u s t) c.originIds ?_ _ _ ⟨rfl, Same.refl u s⟩ h1
    intro b oid b' hoid hb he
    refine Res.foldlM_inv_mem (P := fun t => t.queue = s.queue ∧ Same u s t) _ ?_ _ _ hb he
    intro x v x' hv hx hvx
    refine ⟨(hro _ _ _ _ hvx).queue.trans hx.1, hx.2.trans (ho _ _ _ _ ?_ hvx)⟩
    rintro rfl
    rw [hb.1] at hv
    exact hu oid hoid hv
  refine Res.foldlM_inv (P := fun t => Same u s t) ?_ _ _ _ A.2 h2
  intro b l b' hb he
  refine Res.foldlM_inv (P := fun t => Same u s t) ?_ _ _ _ hb he
  intro x v x' hx hv
  exact hx.trans (hl _ _ _ _ hv)

theorem routing_same {c : Cfg} {o : RouteOracle} {r : Routing} {u : ℕ} {s s' : State}
    (hu : ∀ oid ∈ c.originIds, u ∉ s.queue (c.origin oid).node) (h : r.update c o s = .ok s') : Same u s s' := by
  have hf : ∀ pt s s', (∀ oid ∈ c.originIds, u ∉ s.queue (c.origin oid).node) →
      fixedRouting c pt o s = .ok s' → Same u s s' := fun pt s s' hu h =>
    routeAll_same (fun _ _ _ _ h => fixedOrigin_routed h) (fun _ _ _ _ hn h => fixedOrigin_same hn h)
      (fun _ _ _ _ h => fixedLink_same h) hu h
  have ha : ∀ tr s s', (∀ oid ∈ c.originIds, u ∉ s.queue (c.origin oid).node) →
      adaptiveRouting c tr o s = .ok s' → Same u s s' := fun tr s s' hu h =>
    routeAll_same (fun _ _ _ _ h => adaptiveOrigin_routed h) (fun _ _ _ _ _ h => adaptiveOrigin_same h)
      (fun _ _ _ _ h => adaptiveLink_same h) hu h
  cases r with
  | random =>
    have h' : randomRouting c o s = .ok s' := h
    exact routeAll_same (fun _ _ _ _ h => randomOrigin_routed h) (fun _ _ _ _ _ h => randomOrigin_same h)
      (fun _ _ _ _ h => randomLink_same h) hu h'
  | adaptive tr => exact ha tr s s' hu h
  | fixed pt => exact hf pt s s' hu h
  | hybrid tr pt =>
    have h' : (adaptiveRouting c tr o s).bind (fixedRouting c pt o) = .ok s' := h
    rw [Res.bind_eq_ok'] at h'
    obtain ⟨s1, h1, h2⟩ := h'
    have R : Routed s s1 := routing_routed (r := .adaptive tr) h1
    exact (ha tr s s1 hu h1).trans (hf pt s1 s' (by rw [R.queue]; exact hu) h2)

/-! ### Growing trees -/

/-- The items of the movements that satisfy `p`. -/
def itemsOf (σ : ℚ) (vehs : ℕ → Veh) (p : Event → Bool) (log : List Event) : List Item :=
  (log.filter p).map (itemOf σ vehs)

/-- The trees of the links in `ls` record the movements of `log`. -/
structure Grown (σ : ℚ) (ls : List ℕ) (vehs : ℕ → Veh) (log : List Event) (f : Forest) : Prop where
  none : ∀ l, l ∉ ls → f.inT l = none ∧ f.outT l = none
  inT : ∀ l ∈ ls, ∃ tr, f.inT l = some tr ∧
    record (itemsOf σ vehs (fun e => decide (e.src ≠ Option.none ∧ e.dst = some l)) log) = .ok tr
  outT : ∀ l ∈ ls, ∃ tr, f.outT l = some tr ∧
    record (itemsOf σ vehs (fun e => decide (e.dst ≠ Option.none ∧ e.src = some l)) log) = .ok tr

theorem itemsOf_congr {σ : ℚ} {vehs vehs' : ℕ → Veh} {log : List Event} (p : Event → Bool)
    (h : ∀ e ∈ log, (vehs' e.veh).path = (vehs e.veh).path ∧ (vehs' e.veh).assign = (vehs e.veh).assign) :
    itemsOf σ vehs' p log = itemsOf σ vehs p log := by
  unfold itemsOf
  apply List.map_congr_left
  intro e he
  obtain ⟨h1, h2⟩ := h e (List.mem_of_mem_filter he)
  unfold itemOf
  rw [h1, h2]

theorem Grown.congr {σ : ℚ} {ls : List ℕ} {vehs vehs' : ℕ → Veh} {log : List Event} {f : Forest}
    (g : Grown σ ls vehs log f)
    (h : ∀ e ∈ log, (vehs' e.veh).path = (vehs e.veh).path ∧ (vehs' e.veh).assign = (vehs e.veh).assign) :
    Grown σ ls vehs' log f :=
  ⟨g.none, fun l hl => by rw [itemsOf_congr _ h]; exact g.inT l hl,
    fun l hl => by rw [itemsOf_congr _ h]; exact g.outT l hl⟩

theorem itemsOf_legal {σ : ℚ} (hσ : 0 < σ) (vehs : ℕ → Veh) (p : Event → Bool) {log : List Event}
    (ht : ∀ e ∈ log, e.t + 1 < 10000) (hs : log.Pairwise fun a b => a.t ≤ b.t) :
    LegalItems (itemsOf σ vehs p log) := by
  constructor
  · intro x hx
    obtain ⟨e, he, rfl⟩ := List.mem_map.1 hx
    refine ⟨⟨e.t + 1, ht e (List.mem_of_mem_filter he), ?_⟩, ?_⟩
    · simp [itemOf]
    · simp only [itemOf]; positivity
  · unfold itemsOf
    rw [List.pairwise_map]
    refine (hs.filter p).imp ?_
    intro a b h
    simp only [itemOf]
    have : (a.t : ℚ) ≤ b.t := by exact_mod_cast h
    linarith

theorem itemsOf_snoc (σ : ℚ) (vehs : ℕ → Veh) (p : Event → Bool) (log : List Event) (e : Event) :
    itemsOf σ vehs p (log ++ [e]) = itemsOf σ vehs p log ++ if p e then [itemOf σ vehs e] else [] := by
  unfold itemsOf
  rw [List.filter_append, List.map_append]
  congr 1
  cases h : p e <;> simp [h]

theorem record_snoc (h : List Item) (x : Item) :
    record (h ++ [x]) = (record h).bind fun tr => addFlow tr x.time x.flow x.path x.dep := by
  unfold record
  rw [Res.foldlM_append]
  cases Res.foldlM (fun tr x => addFlow tr x.time x.flow x.path x.dep) [] h with
  | ok tr =>
    rw [Res.ok_bind, Res.bind_ok', Res.foldlM_cons]
    cases addFlow tr x.time x.flow x.path x.dep <;> rfl
  | _ => rfl

theorem treeFlow_ok {σ : ℚ} {vehs : ℕ → Veh} {e : Event} {h : List Item} {tr : Tree} (hr : record h = .ok tr)
    (hl : LegalItems (h ++ [itemOf σ vehs e])) :
    ∃ tr', treeFlow σ e.t (vehs e.veh) (some tr) = .ok (some tr') ∧ record (h ++ [itemOf σ vehs e]) = .ok tr' := by
  obtain ⟨tr', h1, _⟩ := record_spec _ hl
  have h2 := h1
  rw [record_snoc, hr, Res.bind_ok'] at h2
  refine ⟨tr', ?_, h1⟩
  show (addFlow tr ((e.t : ℚ) + 1) (1 / σ) (pathKey (vehs e.veh).path) (vehs e.veh).assign).bind _ = _
  have : addFlow tr ((e.t : ℚ) + 1) (1 / σ) (pathKey (vehs e.veh).path) (vehs e.veh).assign = .ok tr' := h2
  rw [this]; rfl

theorem treeMove_grown {σ : ℚ} (hσ : 0 < σ) {ls : List ℕ} {vehs : ℕ → Veh} {log : List Event} {f : Forest}
    (g : Grown σ ls vehs log f) {e : Event} (ht : ∀ x ∈ log ++ [e], x.t + 1 < 10000)
    (hs : (log ++ [e]).Pairwise fun a b => a.t ≤ b.t) :
    ∃ f', treeMove σ vehs f e = .ok f' ∧ Grown σ ls vehs (log ++ [e]) f' := by
  have hL := fun p => itemsOf_legal hσ vehs p ht hs
  cases hi : e.src with
  | none =>
    refine ⟨f, by unfold treeMove; rw [hi], g.none, ?_, ?_⟩
    · intro l hl
      rw [itemsOf_snoc, if_neg (by simp [hi]), List.append_nil]; exact g.inT l hl
    · intro l hl
      rw [itemsOf_snoc, if_neg (by simp [hi]), List.append_nil]; exact g.outT l hl
  | some i =>
    cases ho : e.dst with
    | none =>
      refine ⟨f, by unfold treeMove; rw [hi, ho], g.none, ?_, ?_⟩
      · intro l hl
        rw [itemsOf_snoc, if_neg (by simp [ho]), List.append_nil]; exact g.inT l hl
      · intro l hl
        rw [itemsOf_snoc, if_neg (by simp [ho]), List.append_nil]; exact g.outT l hl
    | some o =>
      have hin : ∃ a, treeFlow σ e.t (vehs e.veh) (f.inT o) = .ok a ∧ (o ∉ ls → a = none) ∧
          (o ∈ ls → ∃ tr, a = some tr ∧ record (itemsOf σ vehs
            (fun e => decide (e.src ≠ Option.none ∧ e.dst = some o)) (log ++ [e])) = .ok tr) := by
        by_cases h : o ∈ ls
        · obtain ⟨tr, h1, h2⟩ := g.inT o h
          have hl := hL fun e => decide (e.src ≠ Option.none ∧ e.dst = some o)
          rw [itemsOf_snoc, if_pos (by simp [hi, ho])] at hl ⊢
          obtain ⟨tr', h3, h4⟩ := treeFlow_ok h2 hl
          exact ⟨some tr', by rw [h1]; exact h3, fun k => absurd h k, fun _ => ⟨tr', rfl, h4⟩⟩
        · exact ⟨none, by rw [(g.none o h).1]; rfl, fun _ => rfl, fun k => absurd k h⟩
      have hout : ∃ b, treeFlow σ e.t (vehs e.veh) (f.outT i) = .ok b ∧ (i ∉ ls → b = none) ∧
          (i ∈ ls → ∃ tr, b = some tr ∧ record (itemsOf σ vehs
            (fun e => decide (e.dst ≠ Option.none ∧ e.src = some i)) (log ++ [e])) = .ok tr) := by
        by_cases h : i ∈ ls
        · obtain ⟨tr, h1, h2⟩ := g.outT i h
          have hl := hL fun e => decide (e.dst ≠ Option.none ∧ e.src = some i)
          rw [itemsOf_snoc, if_pos (by simp [hi, ho])] at hl ⊢
          obtain ⟨tr', h3, h4⟩ := treeFlow_ok h2 hl
          exact ⟨some tr', by rw [h1]; exact h3, fun k => absurd h k, fun _ => ⟨tr', rfl, h4⟩⟩
        · exact ⟨none, by rw [(g.none i h).2]; rfl, fun _ => rfl, fun k => absurd k h⟩
      obtain ⟨a, a1, a2, a3⟩ := hin
      obtain ⟨b, b1, b2, b3⟩ := hout
      refine ⟨⟨upd f.inT o a, upd f.outT i b⟩, ?_, ?_, ?_, ?_⟩
      · unfold treeMove
        rw [hi, ho]
        simp only [a1, b1, Res.bind_ok']
      · intro l hl
        constructor
        · by_cases h : l = o
          · subst h; simp [a2 hl]
          · simp only [upd_other _ _ _ _ h]; exact (g.none l hl).1
        · by_cases h : l = i
          · subst h; simp [b2 hl]
          · simp only [upd_other _ _ _ _ h]; exact (g.none l hl).2
      · intro l hl
        by_cases h : l = o
        · subst h; simp only [upd_same]; exact a3 hl
        · simp only [upd_other _ _ _ _ h]
          rw [itemsOf_snoc, if_neg (by simp [ho, Ne.symm h]), List.append_nil]; exact g.inT l hl
      · intro l hl
        by_cases h : l = i
        · subst h; simp only [upd_same]; exact b3 hl
        · simp only [upd_other _ _ _ _ h]
          rw [itemsOf_snoc, if_neg (by simp [hi, Ne.symm h]), List.append_nil]; exact g.outT l hl

theorem treeMoves_grown {σ : ℚ} (hσ : 0 < σ) {ls : List ℕ} {vehs : ℕ → Veh} : ∀ (es log : List Event) (f : Forest),
    Grown σ ls vehs log f → (∀ x ∈ log ++ es, x.t + 1 < 10000) → (log ++ es).Pairwise (fun a b => a.t ≤ b.t) →
    ∃ f', Res.foldlM (treeMove σ vehs) f es = .ok f' ∧ Grown σ ls vehs (log ++ es) f'
  | [], log, f, g, _, _ => ⟨f, rfl, by rw [List.append_nil]; exact g⟩
  | e :: es, log, f, g, ht, hs => by
    have hap : log ++ e :: es = (log ++ [e]) ++ es := by simp
    rw [hap] at ht hs
    obtain ⟨f1, h1, g1⟩ := treeMove_grown hσ g (fun x hx => ht x (List.mem_append_left _ hx)) (List.pairwise_append.1 hs).1
    obtain ⟨f2, h2, g2⟩ := treeMoves_grown hσ es (log ++ [e]) f1 g1 ht hs
    refine ⟨f2, ?_, by rw [hap]; exact g2⟩
    rw [Res.foldlM_cons, h1, Res.ok_bind]; exact h2

/-! ### Whole loadings -/

theorem loadOnceT_grown {c : Cfg} (hc : c.Ok) (hsc : 0 < c.scalar) {o : StepOracle} (ho : o.Ok c)
    {ts assign : ℕ} (hts : ts + 1 < 10000) {ls : List ℕ} {s s' : State} {f : Forest} (hi : NetInv c ts s)
    (h : HistInv c ts s) (g : Grown c.scalar ls s.vehs s.log f) (r : loadOnce c o ts assign s = .ok s') :
    ∃ f', loadOnceT c o ts assign (s, f) = .ok (s', f') ∧ Grown c.scalar ls s'.vehs s'.log f' := by
  unfold loadOnce at r
  rw [Res.bind_eq_ok'] at r
  obtain ⟨s1, r1, r⟩ := r
  rw [Res.bind_eq_ok'] at r
  obtain ⟨s2, r2, r⟩ := r
  rw [Res.bind_eq_ok'] at r
  obtain ⟨s3, r3, r⟩ := r
  rw [Res.bind_eq_ok'] at r
  obtain ⟨s4, r4, r5⟩ := r
  have h4 := before_receive hc hsc.ne' ho hi r1 r2 r3 r4
  obtain ⟨k, R⟩ := stepRelease_rel ho r1
  have T := routing_routed r2
  have N := stepNodes_step hc ho r3
  obtain ⟨es, H⟩ := stepNodes_hist hc ho r3
  have C2 := (hi.core.rel hc R).routed T
  have C3 := C2.node hsc.ne' N
  have hh1 := h.rel hc R
  have hh3 := (hh1.routed T).nodes C2 N C3 H
  have L4 := linksStep_all r4
  have g1 : Grown c.scalar ls s1.vehs s1.log f := by
    rw [R.log]
    refine g.congr ?_
    intro e he
    rw [R.old e.veh (Or.inl (h.moved e he).1.2)]
    exact ⟨rfl, rfl⟩
  have g2 : Grown c.scalar ls s2.vehs s2.log f := by
    rw [T.log]
    refine g1.congr ?_
    intro e he
    refine routing_same ?_ r2
    intro oid hoid
    obtain ⟨hn, outs, hk⟩ := hc.origins oid hoid
    exact (hh1.moved e he).2 _ hn (by rw [hk]; exact fun h => h)
  have g3 : Grown c.scalar ls s3.vehs s2.log f := by
    refine g2.congr ?_
    intro e he
    have := N.frame.veh e.veh
    simp only [Veh.mk.injEq] at this
    tauto
  obtain ⟨f', e1, g4⟩ := treeMoves_grown hsc es s2.log f g3
    (by rw [← H.log]; intro x hx; have := hh3.time x hx; omega) (by rw [← H.log]; exact hh3.sorted)
  rw [← H.log] at g4
  have e2 : s4.vehs = s3.vehs := by rw [L4.rest]
  have e3 : s4.log = s3.log := by rw [L4.rest]
  rw [← e2, ← e3] at g4
  refine ⟨f', ?_, ?_⟩
  · unfold loadOnceT
    have : s3.log.drop s2.log.length = es := by rw [H.log, List.drop_left]
    simp only [r1, r2, r3, r4, r5, Res.bind_ok', this, e1]
  · have hh4 := hh3.linksStep C3 L4
    have := Res.foldlM_inv_mem (P := fun t => RecvInv c ts t ∧ Grown c.scalar ls t.vehs t.log f') c.destIds (by
      intro b d b' hd hb hbe
      refine ⟨(hb.1.receive hc hd hbe).1, ?_⟩
      obtain ⟨S, _⟩ := receive_spec hbe (hb.1.core.queue_nodup (hc.dests d hd).1)
      have e1 : b'.log = b.log := S.log
      rw [e1]
      refine hb.2.congr ?_
      intro e _
      have := S.veh e.veh
      simp only [Veh.mk.injEq] at this
      tauto) s4 s' ⟨h4, g4⟩ r5
    exact this.2

theorem loadManyT_grown {c : Cfg} (hc : c.Ok) (hsc : 0 < c.scalar) {ls : List ℕ} : ∀ (os : List StepOracle)
    (ts assign : ℕ) (s : State) (f : Forest) (r : State × ℕ × ℕ), (∀ o ∈ os, o.Ok c) → ts + os.length < 10000 →
    NetInv c ts s → HistInv c ts s → Grown c.scalar ls s.vehs s.log f → loadMany c os ts assign s = .ok r →
    ∃ f', loadManyT c os ts assign (s, f) = .ok ((r.1, f'), r.2) ∧ Grown c.scalar ls r.1.vehs r.1.log f'
  | [], ts, assign, s, f, r, _, _, _, _, g, e => by
    simp only [loadMany, Res.ok.injEq] at e
    subst e
    exact ⟨f, rfl, g⟩
  | o :: os, ts, assign, s, f, r, ho, hts, hi, h, g, e => by
    simp only [loadMany] at e
    rw [Res.bind_eq_ok'] at e
    obtain ⟨s1, e1, e2⟩ := e
    simp only [List.length_cons] at hts
    obtain ⟨f1, a1, g1⟩ := loadOnceT_grown hc hsc (ho o (by simp)) (by omega) hi h g e1
    obtain ⟨f2, a2, g2⟩ := loadManyT_grown hc hsc os _ _ s1 f1 r (fun x hx => ho x (by simp [hx])) (by omega)
      (loadOnce_inv hc hsc.ne' (ho o (by simp)) hi e1) (loadOnce_hist hc hsc.ne' (ho o (by simp)) hi h e1) g1 e2
    refine ⟨f2, ?_, g2⟩
    simp only [loadManyT, a1, Res.bind_ok']
    exact a2

theorem loadManyT_load {c : Cfg} : ∀ (os : List StepOracle) (ts assign : ℕ) (s : State × Forest)
    (r : (State × Forest) × ℕ × ℕ), loadManyT c os ts assign s = .ok r →
    loadMany c os ts assign s.1 = .ok (r.1.1, r.2)
  | [], ts, assign, s, r, e => by
    simp only [loadManyT, Res.ok.injEq] at e
    subst e
    rfl
  | o :: os, ts, assign, s, r, e => by
    simp only [loadManyT] at e
    rw [Res.bind_eq_ok'] at e
    obtain ⟨s1, e1, e2⟩ := e
    have := loadManyT_load os _ _ s1 r e2
    simp only [loadMany]
    have h1 : loadOnce c o ts assign s.1 = .ok s1.1 := by
      unfold loadOnceT at e1
      rw [Res.bind_eq_ok'] at e1
      obtain ⟨t1, r1, e1⟩ := e1
      rw [Res.bind_eq_ok'] at e1
      obtain ⟨t2, r2, e1⟩ := e1
      rw [Res.bind_eq_ok'] at e1
      obtain ⟨t3, r3, e1⟩ := e1
      rw [Res.bind_eq_ok'] at e1
      obtain ⟨f, _, e1⟩ := e1
      rw [Res.bind_eq_ok'] at e1
      obtain ⟨t4, r4, e1⟩ := e1
      rw [Res.bind_eq_ok'] at e1
      obtain ⟨t5, r5, e1⟩ := e1
      cases e1
      unfold loadOnce
      simp only [r1, r2, r3, r4, r5, Res.bind_ok']
    rw [h1, Res.bind_ok']
    exact this

/-! ### Assignment intervals -/

theorem releaseDests_assign {c : Cfg} {scalar : ℚ} {ts oid assign : ℕ} (hoid : oid ∈ c.originIds)
    (orc : ReleaseOracle) : ∀ (dem : List (ℕ × (ℕ → ℚ))) (k : ℕ) (ratio : ℚ) (s s' : State),
    releaseDests scalar (c.origin oid) oid orc ts assign k ratio dem s = .ok s' →
      ∀ v, s.numVeh < v → v ≤ s'.numVeh → (s'.vehs v).assign = (ts / (c.origin oid).freq : ℕ)
  | [], k, ratio, s, s', h, v, h1, h2 => by
    simp only [releaseDests, Res.ok.injEq] at h
    subst h
    omega
  | (d, f) :: dem, k, ratio, s, s', h, v, h1, h2 => by
    simp only [releaseDests] at h
    rw [Res.bind_eq_ok'] at h
    obtain ⟨n, _, h⟩ := h
    have B := fun r => (releaseVehs_spec (c := c) (ts := ts) (d := d) hoid orc r n.toNat s)
    obtain ⟨m, R, _⟩ := releaseDests_rel hoid orc dem _ _ _ _ h
    have ih := releaseDests_assign hoid orc dem _ _ _ _ h v
    rcases Nat.lt_or_ge (s.numVeh + n.toNat) v with hv | hv
    · exact ih (by rw [(B _).1.num]; exact hv) h2
    · rw [R.old v (Or.inl (by rw [(B _).1.num]; exact hv)), (B _).2.veh v h1 hv]

theorem stepRelease_assign {c : Cfg} {o : StepOracle} (ho : o.Ok c) {ts assign : ℕ} {s s' : State}
    (hf : ∀ oid ∈ c.originIds, (c.origin oid).freq = c.assignFreq)
    (h : stepRelease c o ts assign s = .ok s') :
    ∀ v, s.numVeh < v → v ≤ s'.numVeh → (s'.vehs v).assign = (ts / c.assignFreq : ℕ) ∧ assign < c.totalAssign := by
  unfold stepRelease at h
  split at h
  · simp at h
  split at h
  swap
  · cases h; intro v h1 h2; omega
  split at h
  · cases h; intro v h1 h2; omega
  rename_i _ _ hA
  split at h
  · cases h; intro v h1 h2; omega
  have := Res.foldlM_inv_mem (P := fun t => (∃ n, Rel c ts n s t) ∧ ∀ v, s.numVeh < v → v ≤ t.numVeh →
    (t.vehs v).assign = (ts / c.assignFreq : ℕ)) c.originIds (by
      rintro b oid b' hoid ⟨⟨n, hn⟩, hb⟩ he
      obtain ⟨m, hm⟩ := releaseOne_rel hoid (ho.release oid) he
      refine ⟨⟨_, hn.trans hm⟩, ?_⟩
      intro v h1 h2
      rcases Nat.lt_or_ge b.numVeh v with hv | hv
      · unfold releaseOne at he
        split at he
        · simp at he
        rw [Res.bind_eq_ok'] at he
        obtain ⟨s1, he1, he2⟩ := he
        cases he2
        rw [← hf oid hoid]
        exact releaseDests_assign hoid _ _ _ _ _ _ he1 v hv h2
      · rw [hm.old v (Or.inl hv)]; exact hb v h1 hv) s s'
    ⟨⟨0, Rel.refl _ _ _⟩, by intro v h1 h2; omega⟩ h
  intro v h1 h2
  exact ⟨this.2 v h1 h2, by omega⟩

/-- Every vehicle knows its assignment interval. -/
def DepInv (c : Cfg) (s : State) : Prop := ∀ v, 1 ≤ v → v ≤ s.numVeh → ∃ k : ℕ, (s.vehs v).start = k ∧
  (s.vehs v).assign = (k / c.assignFreq : ℕ) ∧ k / c.assignFreq < c.totalAssign

theorem DepInv.keep {c : Cfg} {s s' : State} (h : DepInv c s) (hn : s'.numVeh = s.numVeh)
    (hv : ∀ v, (s'.vehs v).start = (s.vehs v).start ∧ (s'.vehs v).assign = (s.vehs v).assign) : DepInv c s' := by
  intro v h1 h2
  rw [(hv v).1, (hv v).2]; exact h v h1 (by omega)

theorem loadOnce_dep {c : Cfg} (hc : c.Ok) (hsc : c.scalar ≠ 0) {o : StepOracle} (ho : o.Ok c)
    (hf : ∀ oid ∈ c.originIds, (c.origin oid).freq = c.assignFreq) {ts assign : ℕ}
    (ha : assign = ts / c.assignFreq) {s s' : State} (hi : NetInv c ts s) (h : DepInv c s)
    (r : loadOnce c o ts assign s = .ok s') : DepInv c s' := by
  unfold loadOnce at r
  rw [Res.bind_eq_ok'] at r
  obtain ⟨s1, r1, r⟩ := r
  rw [Res.bind_eq_ok'] at r
  obtain ⟨s2, r2, r⟩ := r
  rw [Res.bind_eq_ok'] at r
  obtain ⟨s3, r3, r⟩ := r
  rw [Res.bind_eq_ok'] at r
  obtain ⟨s4, r4, r5⟩ := r
  have h4 := before_receive hc hsc ho hi r1 r2 r3 r4
  obtain ⟨k, R⟩ := stepRelease_rel ho r1
  have T := routing_routed r2
  have N := stepNodes_step hc ho r3
  have L4 := linksStep_all r4
  have d1 : DepInv c s1 := by
    intro v h1 h2
    rcases Nat.lt_or_ge s.numVeh v with hv | hv
    · obtain ⟨a1, a2⟩ := stepRelease_assign ho hf r1 v hv h2
      exact ⟨ts, (R.new v hv (by rw [← R.num]; exact h2)).1, a1, by omega⟩
    · rw [R.old v (Or.inl hv)]; exact h v h1 hv
  have d2 : DepInv c s2 := d1.keep T.num fun v => by
    have := T.veh v; simp only [Veh.mk.injEq] at this; tauto
  have d3 : DepInv c s3 := d2.keep N.frame.factory.1 fun v => by
    have := N.frame.veh v; simp only [Veh.mk.injEq] at this; tauto
  have d4 : DepInv c s4 := d3.keep (by rw [L4.rest]) fun v => by rw [L4.rest]; exact ⟨rfl, rfl⟩
  have := Res.foldlM_inv_mem (P := fun t => RecvInv c ts t ∧ DepInv c t) c.destIds (by
    intro b d b' hd hb hbe
    refine ⟨(hb.1.receive hc hd hbe).1, ?_⟩
    obtain ⟨S, _⟩ := receive_spec hbe (hb.1.core.queue_nodup (hc.dests d hd).1)
    refine hb.2.keep S.num fun v => ?_
    have := S.veh v
    simp only [Veh.mk.injEq] at this
    tauto) s4 s' ⟨h4, d4⟩ r5
  exact this.2

theorem loadMany_dep {c : Cfg} (hc : c.Ok) (hsc : c.scalar ≠ 0) 
    (hf : ∀ oid ∈ c.originIds, (c.origin oid).freq = c.assignFreq) : ∀ (os : List StepOracle)
    (ts assign : ℕ) (s : State) (r : State × ℕ × ℕ), (∀ o ∈ os, o.Ok c) → assign = ts / c.assignFreq →
    NetInv c ts s → DepInv c s → loadMany c os ts assign s = .ok r → DepInv c r.1
  | [], ts, assign, s, r, _, _, _, h, e => by
    simp only [loadMany, Res.ok.injEq] at e
    subst e
    exact h
  | o :: os, ts, assign, s, r, ho, ha, hi, h, e => by
    simp only [loadMany] at e
    rw [Res.bind_eq_ok'] at e
    obtain ⟨s1, e1, e2⟩ := e
    refine loadMany_dep hc hsc hf os _ _ s1 r (fun x hx => ho x (by simp [hx])) ?_
      (loadOnce_inv hc hsc (ho o (by simp)) hi e1) (loadOnce_dep hc hsc (ho o (by simp)) hf ha hi h e1) e2
    rw [ha, Nat.succ_div]
    simp only [Nat.dvd_iff_mod_eq_zero]
    split <;> rfl

end Verif.Net

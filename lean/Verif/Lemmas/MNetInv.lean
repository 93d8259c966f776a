import Verif.Lemmas.MNet

/-! # The invariant of the loading loop with cars and trucks -/

namespace Verif.MNet
open Ults Curve Net

/-! ### Release -/

/-- The release of `k` vehicles. -/
structure MRel (c : Cfg) (ts k : ℕ) (s s' : State) : Prop where
  view : Rel c.net ts k s.view s'.view
  links : s'.links = s.links
  truck : ∀ v, v ≤ s.numVeh → s'.truck v = s.truck v
  num : ∀ b, s'.num b = s.num b + cls s'.truck b (List.range' (s.numVeh + 1) k)
  under : ∀ b, s'.under b = s.under b + cls s'.truck b (List.range' (s.numVeh + 1) k)
  done : ∀ b, s'.done b = s.done b
  time : ∀ b, s'.time b = s.time b

theorem MRel.numVeh {c : Cfg} {ts k : ℕ} {s s' : State} (h : MRel c ts k s s') :
    s'.numVeh = s.numVeh + k := h.view.num

theorem MRel.refl (c : Cfg) (ts : ℕ) (s : State) : MRel c ts 0 s s :=
  ⟨Rel.refl _ _ _, rfl, fun _ _ => rfl, by simp, by simp, fun _ => rfl, fun _ => rfl⟩

theorem MRel.trans {c : Cfg} {ts k k' : ℕ} {a b d : State} (h : MRel c ts k a b)
    (h' : MRel c ts k' b d) : MRel c ts (k + k') a d := by
  have hr : List.range' (a.numVeh + 1) (k + k')
      = List.range' (a.numVeh + 1) k ++ List.range' (b.numVeh + 1) k' := by
    rw [h.numVeh, List.range'_append_1.symm]
    congr 2
    omega
  have hcl : ∀ x, cls d.truck x (List.range' (a.numVeh + 1) k)
      = cls b.truck x (List.range' (a.numVeh + 1) k) := by
    intro x
    apply cls_congr
    intro v hv
    rw [List.mem_range'_1] at hv
    apply h'.truck
    rw [h.numVeh]; omega
  refine ⟨h.view.trans h'.view, h'.links.trans h.links, ?_, ?_, ?_,
    fun x => (h'.done x).trans (h.done x), fun x => (h'.time x).trans (h.time x)⟩
  · intro v hv
    rw [h'.truck v (by rw [h.numVeh]; omega), h.truck v hv]
  · intro x
    rw [hr, cls_append, h'.num, h.num, hcl]; omega
  · intro x
    rw [hr, cls_append, h'.under, h.under, hcl]; push_cast; ring

theorem MRel.one {c : Cfg} {ts oid d : ℕ} (hoid : oid ∈ c.net.originIds) (cl ad : Bool)
    (assign label : ℤ) (s : State) :
    MRel c ts 1 s { s.makeVeh cl ts ad oid d assign label with
      queue := upd s.queue (c.net.origin oid).node
        (s.queue (c.net.origin oid).node ++ [s.numVeh + 1]) } := by
  refine ⟨release_one_veh (c := c.net) (ts := ts) (d := d) hoid ad assign label s.view, rfl, ?_, ?_, ?_,
    fun b => by cases b <;> rfl, fun b => by cases b <;> rfl⟩
  · intro v hv
    simp only [State.makeVeh]
    rw [upd_other]; omega
  · intro b
    cases b <;> cases cl <;> simp [State.makeVeh, State.num, cls]
  · intro b
    cases b <;> cases cl <;> simp [State.makeVeh, State.under, cls]

/-- What the loop for one destination does. -/
structure MRelDest (ts oid d n : ℕ) (cl : Bool) (ad : ℕ → Bool) (assign : ℤ) (label : ℕ → ℤ)
    (node : ℕ) (s s' : State) : Prop where
  veh : ∀ v, s.numVeh < v → v ≤ s.numVeh + n →
    s'.vehs v = ⟨ts, -1, ad v, oid, d, none, none, none, assign, label v⟩ ∧ s'.truck v = cl
  queue : s'.queue node = s.queue node ++ List.range' (s.numVeh + 1) n
  other : ∀ k, k ≠ node → s'.queue k = s.queue k

theorem releaseVehs_spec {c : Cfg} {ts oid d : ℕ} (hoid : oid ∈ c.net.originIds)
    (orc : ReleaseOracle) (cl : Bool) (ratio : ℚ) (labels : List ℚ) : ∀ (n : ℕ) (s : State),
    MRel c ts n s (releaseVehs (c.net.origin oid).node oid (c.net.origin oid).freq orc ts d cl ratio
      labels n s) ∧
    MRelDest ts oid d n cl (fun v => if ratio = 0 then false else if ratio = 1 then true
        else decide (orc.r v ≤ ratio)) (ts / (c.net.origin oid).freq : ℕ)
      (fun v => generateLabel labels (orc.l v)) (c.net.origin oid).node s
      (releaseVehs (c.net.origin oid).node oid (c.net.origin oid).freq orc ts d cl ratio labels n s)
  | 0, s => ⟨MRel.refl c ts s, ⟨by intro v h1 h2; omega, by simp [releaseVehs], fun _ _ => rfl⟩⟩
  | n + 1, s => by
    simp only [releaseVehs]
    have A := MRel.one (ts := ts) (d := d) hoid cl
      (if ratio = 0 then false else if ratio = 1 then true else decide (orc.r (s.numVeh + 1) ≤ ratio))
      (ts / (c.net.origin oid).freq : ℕ) (generateLabel labels (orc.l (s.numVeh + 1))) s
    obtain ⟨B, B'⟩ := releaseVehs_spec hoid orc cl ratio labels n
      { s.makeVeh cl ts (if ratio = 0 then false else if ratio = 1 then true
          else decide (orc.r (s.numVeh + 1) ≤ ratio)) oid d (ts / (c.net.origin oid).freq : ℕ)
          (generateLabel labels (orc.l (s.numVeh + 1))) with
        queue := upd s.queue (c.net.origin oid).node
          (s.queue (c.net.origin oid).node ++ [s.numVeh + 1]) }
    have AB := A.trans B
    rw [Nat.add_comm 1 n] at AB
    refine ⟨AB, ?_, ?_, ?_⟩
    · intro v h1 h2
      by_cases hv : v = s.numVeh + 1
      · subst hv
        have h3 := B.view.old (s.numVeh + 1) (Or.inl (by simp [State.view, State.makeVeh]))
        have h4 := B.truck (s.numVeh + 1) (by simp [State.makeVeh])
        refine ⟨h3.trans ?_, h4.trans ?_⟩ <;> simp [State.view, State.makeVeh]
      · exact B'.veh v (by simp only [State.makeVeh]; omega) (by simp only [State.makeVeh]; omega)
    · refine B'.queue.trans ?_
      simp only [State.makeVeh, upd_same]
      rw [List.append_assoc]
      rfl
    · intro k hk
      refine (B'.other k hk).trans ?_
      exact upd_other _ _ _ _ hk

theorem releaseDests_rel {c : Cfg} {scalar : ℚ} {ts oid assign : ℕ} (hoid : oid ∈ c.net.originIds)
    (orc : ReleaseOracle) (cl : Bool) (u : ℕ → ℚ) (own : ℕ → Option (ℕ → ℚ)) (labels : List ℚ) :
    ∀ (dem : List (ℕ × (ℕ → ℚ))) (k : ℕ) (ratio : ℚ) (s : State) (p : State × ℚ),
    releaseDests scalar (c.net.origin oid).node oid (c.net.origin oid).freq orc ts assign cl u own
      labels k ratio dem s = .ok p → ∃ n, MRel c ts n s p.1
  | [], k, ratio, s, p, h => by
    simp only [releaseDests, Res.ok.injEq] at h
    subst h
    exact ⟨0, MRel.refl c ts s⟩
  | (d, f) :: dem, k, ratio, s, p, h => by
    simp only [releaseDests] at h
    rw [Res.bind_eq_ok'] at h
    obtain ⟨n, _, h⟩ := h
    obtain ⟨m, hm⟩ := releaseDests_rel hoid orc cl u own labels dem _ _ _ _ h
    exact ⟨_, (releaseVehs_spec (c := c) (ts := ts) (d := d) hoid orc cl _ labels n.toNat s).1.trans hm⟩

theorem MRel.shuffle {c : Cfg} {ts k : ℕ} {s s' : State} (h : MRel c ts k s s') (n : ℕ) {q : List ℕ}
    (hq : q.Perm (s'.queue n)) : MRel c ts k s { s' with queue := upd s'.queue n q } :=
  ⟨h.view.shuffle n hq, h.links, h.truck, h.num, h.under, h.done, h.time⟩

theorem releaseOne_rel {c : Cfg} {ts oid assign : ℕ} (hoid : oid ∈ c.net.originIds)
    {orc : ReleaseOracle} (hsh : ∀ l, (orc.shuffle l).Perm l) {m : Release} {s s' : State}
    (h : releaseOne c oid orc ts assign m s = .ok s') : ∃ n, MRel c ts n s s' := by
  unfold releaseOne at h
  simp only at h
  split at h
  · simp at h
  cases m with
  | one r =>
    simp only at h
    rw [Res.bind_eq_ok'] at h
    obtain ⟨p, h1, h⟩ := h
    rw [Res.bind_eq_ok'] at h
    obtain ⟨q, h2, h⟩ := h
    cases h
    obtain ⟨n1, e1⟩ := releaseDests_rel hoid orc _ _ _ _ _ _ _ _ _ h1
    obtain ⟨n2, e2⟩ := releaseDests_rel hoid orc _ _ _ _ _ _ _ _ _ h2
    exact ⟨_, (e1.trans e2).shuffle _ (hsh _)⟩
  | two rc rt =>
    simp only at h
    rw [Res.bind_eq_ok'] at h
    obtain ⟨p, h1, h⟩ := h
    rw [Res.bind_eq_ok'] at h
    obtain ⟨q, h2, h⟩ := h
    cases h
    obtain ⟨n1, e1⟩ := releaseDests_rel hoid orc _ _ _ _ _ _ _ _ _ h1
    obtain ⟨n2, e2⟩ := releaseDests_rel hoid orc _ _ _ _ _ _ _ _ _ h2
    exact ⟨_, (e1.trans e2).shuffle _ (hsh _)⟩
  | nothing => cases h; exact ⟨0, MRel.refl _ _ _⟩

theorem stepRelease_rel {c : Cfg} {o : StepOracle} (ho : o.Ok c) {ts assign : ℕ} {s s' : State}
    (h : stepRelease c o ts assign s = .ok s') : ∃ n, MRel c ts n s s' := by
  unfold stepRelease at h
  split at h
  · simp at h
  split at h
  swap
  · cases h; exact ⟨0, MRel.refl _ _ _⟩
  split at h
  · cases h; exact ⟨0, MRel.refl _ _ _⟩
  refine Res.foldlM_inv_mem (P := fun t => ∃ n, MRel c ts n s t) c.net.originIds ?_ s s'
    ⟨0, MRel.refl _ _ _⟩ h
  rintro b oid b' hoid ⟨n, hn⟩ hb
  obtain ⟨m, hm⟩ := releaseOne_rel hoid (ho.release oid) hb
  exact ⟨_, hn.trans hm⟩

/-! ### Routing -/

theorem fixedCls_routed {c : Net.Cfg} {truck : ℕ → Bool} {cl : Bool} {pt : PathTable} {o : RouteOracle}
    {s s' : Net.State} (h : fixedCls c truck cl pt o s = .ok s') : Routed s s' := by
  unfold fixedCls at h
  refine routeAll_routed ?_ ?_ h
  · intro n s s' v h
    split at h
    · exact fixedOrigin_routed h
    · cases h; exact Routed.refl _
  · intro n s s' v h
    split at h
    · exact fixedLink_routed h
    · cases h; exact Routed.refl _

theorem updateView_routed {c : Net.Cfg} {truck : ℕ → Bool} {o : RouteOracle} {r : Routing}
    {s s' : Net.State} (h : r.updateView c truck o s = .ok s') : Routed s s' := by
  cases r with
  | net r => exact routing_routed h
  | biclass tr pc pt =>
    simp only [Routing.updateView] at h
    rw [Res.bind_eq_ok'] at h
    obtain ⟨s1, h1, h⟩ := h
    rw [Res.bind_eq_ok'] at h
    obtain ⟨s2, h2, h3⟩ := h
    have A : Routed s s1 := by
      cases tr with
      | none => cases h1; exact Routed.refl _
      | some t =>
        exact routeAll_routed (fun _ _ _ _ h => adaptiveOrigin_routed h)
          (fun _ _ _ _ h => adaptiveLink_routed h) h1
    exact (A.trans (fixedCls_routed h2)).trans (fixedCls_routed h3)

/-- Routing changes vehicles and the tracker, and in vehicles only next link and path. -/
theorem update_routed {c : Net.Cfg} {o : RouteOracle} {r : Routing} {s s' : State}
    (h : r.update c o s = .ok s') :
    Routed s.view s'.view ∧ s' = { s with vehs := s'.vehs, tracker := s'.tracker } ∧
      r.updateView c s.truck o s.view = .ok s'.view := by
  unfold Routing.update at h
  rw [Res.bind_eq_ok'] at h
  obtain ⟨t, h1, h2⟩ := h
  cases h2
  have R := updateView_routed h1
  have e : (State.view { s with vehs := t.vehs, tracker := t.tracker }) = t := by
    obtain ⟨a1, a2, a3, a4, a5, a6, a7, a8⟩ := t
    have := R.links; have := R.queue; have := R.log; have := R.num; have := R.map
    have := R.enroute; have := R.finished; have := R.time
    simp only [State.view] at *
    simp only [Net.State.mk.injEq]
    tauto
  rw [e]
  exact ⟨R, rfl, h1⟩

/-! ### Links -/

/-- What changes of links that keep all vehicles do. -/
structure LStep (c : Cfg) (s s' : State) : Prop where
  rest : s' = { s with links := s'.links }
  inv : ∀ l ∈ c.net.linkIds, MLnk.Inv s.truck (s'.links l).link
  on : ∀ l, (s'.on l).Perm (s.on l)
  nIn : ∀ l b, (s'.links l).nIn b = (s.links l).nIn b
  nOut : ∀ l b, (s'.links l).nOut b = (s.links l).nOut b

theorem LStep.refl {c : Cfg} {s : State} (h : ∀ l ∈ c.net.linkIds, MLnk.Inv s.truck (s.links l).link) :
    LStep c s s := ⟨rfl, h, fun _ => List.Perm.refl _, fun _ _ => rfl, fun _ _ => rfl⟩

theorem LStep.truck {c : Cfg} {s s' : State} (h : LStep c s s') : s'.truck = s.truck := by rw [h.rest]

theorem LStep.trans {c : Cfg} {a b d : State} (h : LStep c a b) (k : LStep c b d) : LStep c a d := by
  refine ⟨?_, ?_, fun l => (k.on l).trans (h.on l), fun l x => (k.nIn l x).trans (h.nIn l x),
    fun l x => (k.nOut l x).trans (h.nOut l x)⟩
  · rw [k.rest]
    conv_lhs => rw [h.rest]
  · intro l hl
    rw [← h.truck]; exact k.inv l hl

theorem LStep.upd {c : Cfg} {s : State} (h : ∀ l ∈ c.net.linkIds, MLnk.Inv s.truck (s.links l).link)
    {l : ℕ} {x : MLnk.Link ℕ} (hi : MLnk.Inv s.truck x)
    (hl : ∀ b, x.lane s.truck b = (s.links l).link.lane s.truck b) :
    LStep c s { s with links := upd s.links l { s.links l with link := x } } := by
  refine ⟨rfl, ?_, ?_, ?_, ?_⟩
  · intro k hk
    by_cases e : k = l
    · subst e; simpa using hi
    · simp only [upd_other _ _ _ _ e]; exact h k hk
  · intro k
    by_cases e : k = l
    · subst e
      rw [List.perm_iff_count]
      intro v
      rw [on_count s.truck, on_count s.truck]
      simp only [upd_same, hl]
    · unfold State.on State.fin State.inc
      simp only [upd_other _ _ _ _ e]
      exact List.Perm.refl _
  · intro k b
    by_cases e : k = l
    · subst e; simp [LinkSt.nIn]
    · simp only [upd_other _ _ _ _ e]
  · intro k b
    by_cases e : k = l
    · subst e; simp [LinkSt.nOut]
    · simp only [upd_other _ _ _ _ e]

theorem linkStep_step {c : Cfg} {o : StepOracle} {s s' : State} {l : ℕ} (hl : l ∈ c.net.linkIds)
    (hi : ∀ l ∈ c.net.linkIds, MLnk.Inv s.truck (s.links l).link)
    (h : linkStep o s l = .ok s') : LStep c s s' := by
  unfold linkStep at h
  rw [Res.bind_eq_ok'] at h
  obtain ⟨x, hx, h⟩ := h
  rw [Res.bind_eq_ok'] at h
  obtain ⟨y, hy, h⟩ := h
  cases h
  have A := MLnk.clear_inv (hi l hl) hx
  have B := MLnk.evolve_inv A.1 hy
  exact LStep.upd hi B.1 fun b => (B.2.1 b).trans (A.2.1 b)

theorem linksStep_all {c : Cfg} {o : StepOracle} {s s' : State}
    (hi : ∀ l ∈ c.net.linkIds, MLnk.Inv s.truck (s.links l).link)
    (h : Res.foldlM (linkStep o) s c.net.linkIds = .ok s') : LStep c s s' := by
  refine Res.foldlM_inv_mem (P := fun t => LStep c s t) c.net.linkIds ?_ s s' (LStep.refl hi) h
  intro b l b' hl hb he
  refine hb.trans (linkStep_step hl ?_ he)
  intro k hk
  rw [hb.truck]; exact hb.inv k hk

theorem setAttr_step {c : Cfg} {s s' : State} {p : ℕ × MLnk.Args}
    (hi : ∀ l ∈ c.net.linkIds, MLnk.Inv s.truck (s.links l).link)
    (h : setAttr c s p = .ok s') : LStep c s s' := by
  unfold setAttr at h
  split at h
  swap
  · simp at h
  rename_i hl
  rw [Res.bind_eq_ok'] at h
  obtain ⟨x, hx, h⟩ := h
  cases h
  obtain ⟨a1, a2, a3⟩ := MLnk.modify_inv (hi _ hl) hx
  refine LStep.upd hi a1 ?_
  intro b
  unfold MLnk.Link.lane
  rw [a2 b]
  unfold MLnk.Link.finished MLnk.Link.incoming
  rw [a3]

theorem setAttrs_step {c : Cfg} {s s' : State} {ps : List (ℕ × MLnk.Args)}
    (hi : ∀ l ∈ c.net.linkIds, MLnk.Inv s.truck (s.links l).link)
    (h : Res.foldlM (setAttr c) s ps = .ok s') : LStep c s s' := by
  refine Res.foldlM_inv (P := fun t => LStep c s t) ?_ _ _ _ (LStep.refl hi) h
  intro b l b' hb he
  refine hb.trans (setAttr_step ?_ he)
  intro k hk
  rw [hb.truck]; exact hb.inv k hk

/-! ### Receiving -/

theorem receiveVeh_view {ts d : ℕ} {s s' : State} {v : ℕ} (h : receiveVeh ts d s v = .ok s') :
    Net.receiveVeh ts d s.view v = .ok s'.view ∧ s'.links = s.links ∧ s'.truck = s.truck ∧
    s'.queue = s.queue ∧ (∀ w, (s'.vehs w).start = (s.vehs w).start) ∧
    ∀ b, s'.num b = s.num b ∧ s'.under b = s.under b - cls s.truck b [v] ∧
      s'.done b = s.done b + cls s.truck b [v] ∧
      s'.time b = s.time b + (([v].filter fun w => s.truck w == b).map fun w =>
        (((ts : ℤ) - (s.vehs w).start : ℤ) : ℚ)).sum := by
  unfold receiveVeh at h
  split at h
  · simp at h
  rename_i hd
  unfold State.removeFinished at h
  simp only at h
  split at h
  swap
  · simp at h
  rename_i hm
  cases h
  refine ⟨?_, rfl, rfl, rfl, ?_, ?_⟩
  · unfold Net.receiveVeh
    rw [if_neg (by exact hd)]
    unfold Net.State.removeFinished
    rw [if_pos (by exact hm)]
    rfl
  · intro w
    by_cases e : w = v
    · subst e; simp
    · simp only [upd_other _ _ _ _ e]
  · intro b
    cases b <;> cases ht : s.truck v <;>
      simp [State.num, State.under, State.done, State.time, cls, ht]

/-- What receiving the vehicles `vs` does to the counters. -/
structure Recv (ts : ℕ) (vs : List ℕ) (s s' : State) : Prop where
  links : s'.links = s.links
  truck : s'.truck = s.truck
  start : ∀ w, (s'.vehs w).start = (s.vehs w).start
  num : ∀ b, s'.num b = s.num b
  under : ∀ b, s'.under b = s.under b - cls s.truck b vs
  done : ∀ b, s'.done b = s.done b + cls s.truck b vs
  time : ∀ b, s'.time b = s.time b + ((vs.filter fun w => s.truck w == b).map fun w =>
    (((ts : ℤ) - (s.vehs w).start : ℤ) : ℚ)).sum

theorem receiveVehs_view {ts d : ℕ} : ∀ (vs : List ℕ) (s s' : State),
    Res.foldlM (receiveVeh ts d) s vs = .ok s' →
    Res.foldlM (Net.receiveVeh ts d) s.view vs = .ok s'.view ∧ Recv ts vs s s' ∧ s'.queue = s.queue
  | [], s, s', h => by
    simp only [Res.foldlM_nil, Res.ok.injEq] at h
    subst h
    exact ⟨rfl, ⟨rfl, rfl, fun _ => rfl, fun _ => rfl, by simp, by simp, by simp⟩, rfl⟩
  | v :: vs, s, s', h => by
    rw [Res.foldlM_cons, Res.bind_eq_ok] at h
    obtain ⟨s1, h1, h2⟩ := h
    obtain ⟨a1, a2, a3, a4, a5, a6⟩ := receiveVeh_view h1
    obtain ⟨b1, B, b2⟩ := receiveVehs_view vs s1 s' h2
    refine ⟨?_, ⟨B.links.trans a2, B.truck.trans a3, fun w => (B.start w).trans (a5 w),
      fun b => (B.num b).trans (a6 b).1, ?_, ?_, ?_⟩, b2.trans a4⟩
    · rw [Res.foldlM_cons, Res.bind_eq_ok]
      exact ⟨_, a1, b1⟩
    · intro b
      rw [B.under, (a6 b).2.1, a3, show v :: vs = [v] ++ vs from rfl, cls_append]
      push_cast; ring
    · intro b
      rw [B.done, (a6 b).2.2.1, a3, show v :: vs = [v] ++ vs from rfl, cls_append]
      omega
    · intro b
      rw [B.time, (a6 b).2.2.2, a3, show v :: vs = [v] ++ vs from rfl, List.filter_append,
        List.map_append, List.sum_append]
      simp only [a5]
      ring

theorem receive_view {c : Cfg} {ts d : ℕ} {s s' : State} (h : receive c ts s d = .ok s') :
    Net.receive c.net ts s.view d = .ok s'.view ∧ Recv ts (s.queue (c.net.destNode d)) s s' := by
  unfold receive at h
  rw [Res.bind_eq_ok'] at h
  obtain ⟨s1, h1, h⟩ := h
  cases h
  obtain ⟨a, A, _⟩ := receiveVehs_view _ _ _ h1
  refine ⟨?_, ⟨A.links, A.truck, A.start, A.num, A.under, A.done, A.time⟩⟩
  unfold Net.receive
  have e : s.view.queue (c.net.destNode d) = s.queue (c.net.destNode d) := rfl
  rw [e, a]
  rfl

/-! ### The invariant -/

/-- Travel time of a finished vehicle. -/
def State.tt (s : State) (v : ℕ) : ℚ := (((s.vehs v).finish - (s.vehs v).start : ℤ) : ℚ)

/-- Travel times of the vehicles of a class among `l`. -/
def clsTime (s : State) (b : Bool) (l : List ℕ) : ℚ := ((l.filter fun v => s.truck v == b).map s.tt).sum

/-- The part of the invariant about the two classes. -/
structure MCore (c : Cfg) (s : State) : Prop where
  view : Core c.net s.view
  inv : ∀ l ∈ c.net.linkIds, MLnk.Inv s.truck (s.links l).link
  num : ∀ b, s.num b = cls s.truck b (List.range' 1 s.numVeh)
  under : ∀ b, s.under b = cls s.truck b s.vehMap
  done : ∀ b, s.done b = cls s.truck b s.gone
  time : ∀ b, s.time b = clsTime s b s.gone
  both : ∀ l b, ((s.links l).nIn b).isSome = ((s.links l).nOut b).isSome
  cc : ∀ l ∈ c.net.linkIds, ∀ b ki ko, (s.links l).nIn b = some ki → (s.links l).nOut b = some ko →
    Net.total ki - Net.total ko = cls s.truck b (s.on l) / c.net.scalar

theorem gone_view (s : State) : s.gone = s.view.finishedIds := rfl

theorem MCore.place {c : Cfg} {s : State} (h : MCore c s) (v : ℕ) :
    (s.places c).count v = s.vehMap.count v := by
  rw [← view_places]; exact h.view.place v

theorem MCore.on_map {c : Cfg} {s : State} (h : MCore c s) {l : ℕ} (hl : l ∈ c.net.linkIds) {v : ℕ}
    (hv : v ∈ s.on l) : v ∈ s.vehMap := by
  rw [← List.count_pos_iff, ← h.place v, List.count_pos_iff]
  unfold State.places
  rw [List.mem_append, List.mem_flatMap, List.mem_flatMap]
  exact Or.inr ⟨l, hl, hv⟩

theorem MCore.on_old {c : Cfg} {s : State} (h : MCore c s) {l : ℕ} (hl : l ∈ c.net.linkIds) {v : ℕ}
    (hv : v ∈ s.on l) : v ≤ s.numVeh := (h.view.range v (h.on_map hl hv)).2

theorem on_links {s s' : State} (h : s'.links = s.links) (l : ℕ) : s'.on l = s.on l := by
  unfold State.on State.fin State.inc; rw [h]

theorem MCore.rel {c : Cfg} (hc : c.net.Ok) {ts k : ℕ} {s s' : State} (h : MCore c s)
    (r : MRel c ts k s s') : MCore c s' := by
  have hgone : s'.gone = s.gone := by
    unfold State.gone
    have hm : s'.vehMap = s.vehMap ++ List.range' (s.numVeh + 1) k := r.view.map
    rw [r.numVeh, ← List.range'_append_1, List.filter_append]
    have e1 : (List.range' 1 s.numVeh).filter (fun v => decide (v ∉ s'.vehMap))
        = (List.range' 1 s.numVeh).filter (fun v => decide (v ∉ s.vehMap)) := by
      apply List.filter_congr
      intro v hv
      rw [List.mem_range'_1] at hv
      have : v ∉ List.range' (s.numVeh + 1) k := by rw [List.mem_range'_1]; omega
      rw [hm]; simp [this]
    have e2 : (List.range' (1 + s.numVeh) k).filter (fun v => decide (v ∉ s'.vehMap)) = [] := by
      rw [List.filter_eq_nil_iff]
      intro v hv
      rw [Nat.add_comm] at hv
      rw [hm]; simp [hv]
    rw [e1, e2, List.append_nil]
  have hgt : ∀ v ∈ s.gone, s'.truck v = s.truck v := by
    intro v hv
    rw [gone_view] at hv
    exact r.truck v (mem_finishedIds.1 hv).2.1
  refine ⟨h.view.rel hc r.view, ?_, ?_, ?_, ?_, ?_, ?_, ?_⟩
  · intro l hl
    rw [r.links]
    refine inv_congr (h.inv l hl) ?_
    intro v hv
    apply r.truck
    apply h.on_old hl
    unfold State.on; simp [hv]
  · intro b
    rw [r.num, h.num, r.numVeh, ← List.range'_append_1, cls_append, Nat.add_comm 1]
    congr 1
    refine (cls_congr ?_).symm
    intro v hv
    rw [List.mem_range'_1] at hv
    exact r.truck v (by omega)
  · intro b
    have hm : s'.vehMap = s.vehMap ++ List.range' (s.numVeh + 1) k := r.view.map
    rw [r.under, h.under, hm, cls_append]
    have : cls s'.truck b s.vehMap = cls s.truck b s.vehMap :=
      cls_congr fun v hv => r.truck v (h.view.range v hv).2
    rw [this]; push_cast; ring
  · intro b
    rw [r.done, h.done, hgone]
    exact (cls_congr hgt).symm
  · intro b
    rw [r.time, h.time, hgone]
    unfold clsTime
    have : (s.gone.filter fun v => s'.truck v == b) = s.gone.filter fun v => s.truck v == b :=
      List.filter_congr fun v hv => by rw [hgt v hv]
    rw [this]
    congr 1
    apply List.map_congr_left
    intro v hv
    have hv := (List.mem_filter.1 hv).1
    rw [gone_view] at hv
    have e : s'.vehs v = s.vehs v := r.view.old v (Or.inl (mem_finishedIds.1 hv).2.1)
    unfold State.tt
    rw [e]
  · intro l b; rw [r.links]; exact h.both l b
  · intro l hl b ki ko hi ho
    rw [r.links] at hi ho
    rw [on_links r.links, h.cc l hl b ki ko hi ho]
    congr 2
    exact (cls_congr fun v hv => r.truck v (h.on_old hl hv)).symm

/-- Steps that leave classes, counters and times alone. -/
theorem MCore.of {c : Cfg} {s s' : State} (h : MCore c s) (hv : Core c.net s'.view)
    (ht : s'.truck = s.truck) (hm : s'.vehMap = s.vehMap) (hn : s'.numVeh = s.numVeh)
    (hnum : ∀ b, s'.num b = s.num b) (hund : ∀ b, s'.under b = s.under b)
    (hdone : ∀ b, s'.done b = s.done b) (htime : ∀ b, s'.time b = s.time b)
    (htt : s'.tt = s.tt) (hi : ∀ l ∈ c.net.linkIds, MLnk.Inv s.truck (s'.links l).link)
    (hb : ∀ l b, ((s'.links l).nIn b).isSome = ((s'.links l).nOut b).isSome)
    (hcc : ∀ l ∈ c.net.linkIds, ∀ b ki ko, (s'.links l).nIn b = some ki →
      (s'.links l).nOut b = some ko →
      Net.total ki - Net.total ko = cls s.truck b (s'.on l) / c.net.scalar) : MCore c s' := by
  have hg : s'.gone = s.gone := by unfold State.gone; rw [hm, hn]
  refine ⟨hv, by rw [ht]; exact hi, ?_, ?_, ?_, ?_, hb, by rw [ht]; exact hcc⟩
  · intro b; rw [hnum, ht, hn]; exact h.num b
  · intro b; rw [hund, ht, hm]; exact h.under b
  · intro b; rw [hdone, ht, hg]; exact h.done b
  · intro b; rw [htime, hg, h.time]; unfold clsTime; rw [ht, htt]

theorem MCore.routed {c : Cfg} {s s' : State} (h : MCore c s) (r : Routed s.view s'.view)
    (e : s' = { s with vehs := s'.vehs, tracker := s'.tracker }) : MCore c s' := by
  have hl : s'.links = s.links := by rw [e]
  refine h.of (h.view.routed r) (by rw [e]) (by rw [e]) (by rw [e]) ?_ ?_ ?_ ?_ ?_ ?_ ?_ ?_
  · intro b; rw [e]; rfl
  · intro b; rw [e]; rfl
  · intro b; rw [e]; rfl
  · intro b; rw [e]; rfl
  · funext v
    have h1 : (s'.vehs v).start = (s.vehs v).start := r.start v
    have h2 : (s'.vehs v).finish = (s.vehs v).finish := r.finish v
    unfold State.tt; rw [h1, h2]
  · rw [hl]; exact h.inv
  · rw [hl]; exact h.both
  · intro l hm b ki ko hi ho
    rw [hl] at hi ho
    rw [on_links hl]; exact h.cc l hm b ki ko hi ho

theorem inv_moved {truck : ℕ → Bool} {l : MLnk.Link ℕ} (h : MLnk.Inv truck l) (a b : List ℕ) :
    MLnk.Inv truck ((l.setFinished a).setIncoming b) := by
  cases l <;> exact h

theorem road_moved (l : MLnk.Link ℕ) (a b : List ℕ) :
    road ((l.setFinished a).setIncoming b) = road l := by
  cases l <;> rfl

theorem MCore.node {c : Cfg} (hsc : c.net.scalar ≠ 0) {s s' : State} (h : MCore c s)
    (r : NStep c s s') : MCore c s' := by
  have e := r.rest
  unfold Rest at e
  refine h.of (h.view.node hsc r.view) (by rw [e]) (by rw [e]) (by rw [e]) ?_ ?_ ?_ ?_ ?_ ?_ ?_ ?_
  · intro b; rw [e]; rfl
  · intro b; rw [e]; rfl
  · intro b; rw [e]; rfl
  · intro b; rw [e]; rfl
  · funext v
    have h1 : (s'.vehs v).start = (s.vehs v).start := r.view.frame.start v
    have h2 : (s'.vehs v).finish = (s.vehs v).finish := r.view.frame.finish v
    unfold State.tt; rw [h1, h2]
  · intro l hl; rw [r.link]; exact inv_moved (h.inv l hl) _ _
  · intro l b
    rw [(r.nIn l b).1, (r.nOut l b).1]; exact h.both l b
  · intro l hl b ki ko hi ho
    have h1 := r.nIn l b
    have h2 := r.nOut l b
    have hroad : road (s'.links l).link = road (s.links l).link := by rw [r.link l, road_moved]
    cases hi' : (s.links l).nIn b with
    | none => have := h1.1; rw [hi', hi] at this; simp at this
    | some ki' =>
      cases ho' : (s.links l).nOut b with
      | none => have := h2.1; rw [ho', ho] at this; simp at this
      | some ko' =>
        rw [h1.2 _ _ hi' hi, h2.2 _ _ ho' ho]
        have hcc := h.cc l hl b ki' ko' hi' ho'
        unfold State.on at hcc ⊢
        rw [cls_append, cls_append] at hcc ⊢
        rw [hroad]
        rw [eq_div_iff hsc] at hcc ⊢
        push_cast at hcc ⊢
        field_simp
        linarith

theorem MCore.links {c : Cfg} {s s' : State} (h : MCore c s) (r : LStep c s s') : MCore c s' := by
  have e := r.rest
  have hv : Core c.net s'.view := by
    refine h.view.of_veh ?_ ?_ ?_ ?_ ?_ ?_ ?_ (fun l => shell_inv _) ?_ (fun _ => rfl) ?_
    · intro v; rw [e]; rfl
    · intro v; rw [e]; rfl
    · rw [e]; rfl
    · rw [e]; rfl
    · rw [e]; rfl
    · rw [e]; rfl
    · rw [e]; rfl
    · intro v
      rw [view_places, view_places]
      unfold State.places
      rw [List.count_append, List.count_append]
      have hq : s'.queue = s.queue := by rw [e]
      have : ∀ A : List ℕ, (A.flatMap s'.on).count v = (A.flatMap s.on).count v := by
        intro A
        induction A with
        | nil => rfl
        | cons a A ih =>
          simp only [List.flatMap_cons, List.count_append, ih, (r.on a).count_eq v]
      rw [hq, this]
    · intro l ki ko hi _
      simp [State.view] at hi
  refine h.of hv (by rw [e]) (by rw [e]) (by rw [e]) ?_ ?_ ?_ ?_ ?_ r.inv ?_ ?_
  · intro b; rw [e]; rfl
  · intro b; rw [e]; rfl
  · intro b; rw [e]; rfl
  · intro b; rw [e]; rfl
  · rw [e]; rfl
  · intro l b; rw [r.nIn, r.nOut]; exact h.both l b
  · intro l hl b ki ko hi ho
    rw [r.nIn] at hi
    rw [r.nOut] at ho
    rw [cls_perm (r.on l)]
    exact h.cc l hl b ki ko hi ho

/-- What holds at the beginning of interval `ts`. -/
structure MInv (c : Cfg) (ts : ℕ) (s : State) : Prop extends MCore c s where
  net : NetInv c.net ts s.view

theorem clsTime_append (s : State) (b : Bool) (l m : List ℕ) :
    clsTime s b (l ++ m) = clsTime s b l + clsTime s b m := by
  unfold clsTime; rw [List.filter_append, List.map_append, List.sum_append]

theorem clsTime_perm {s : State} {b : Bool} {l m : List ℕ} (h : l.Perm m) :
    clsTime s b l = clsTime s b m := by
  unfold clsTime; exact ((h.filter _).map _).sum_eq

theorem MCore.receive {c : Cfg} (hc : c.net.Ok) {ts d : ℕ} (hd : d ∈ c.net.destIds) {s s' : State}
    (h : MCore c s) (hr : RecvInv c.net ts s.view) (r : receive c ts s d = .ok s') :
    MCore c s' ∧ RecvInv c.net ts s'.view := by
  have hnode := (hc.dests d hd).1
  obtain ⟨e, R⟩ := receive_view r
  have hr' := (hr.receive hc hd e).1
  obtain ⟨S, hq⟩ := receive_spec e (hr.core.queue_nodup hnode)
  obtain ⟨p1, p2, p3⟩ := hr.core.receive_perms hnode e
  have hvq : s.view.queue (c.net.destNode d) = s.queue (c.net.destNode d) := rfl
  rw [hvq] at p1 p2 p3
  have p1' : (s'.vehMap ++ s.queue (c.net.destNode d)).Perm s.vehMap := p1
  have p2' : s'.gone.Perm (s.gone ++ s.queue (c.net.destNode d)) := p2
  have hn : s'.numVeh = s.numVeh := S.num
  refine ⟨⟨hr'.core, ?_, ?_, ?_, ?_, ?_, ?_, ?_⟩, hr'⟩
  · rw [R.links, R.truck]; exact h.inv
  · intro b; rw [R.num, R.truck, hn]; exact h.num b
  · intro b
    rw [R.under, R.truck, h.under, ← cls_perm p1', cls_append]
    push_cast; ring
  · intro b
    rw [R.done, R.truck, h.done, cls_perm p2', cls_append]
  · intro b
    rw [clsTime_perm p2', clsTime_append, R.time, h.time]
    unfold clsTime
    rw [R.truck]
    congr 2
    · apply List.map_congr_left
      intro v hv
      have hv := (List.mem_filter.1 hv).1
      rw [gone_view] at hv
      have hk : v ∉ s.view.queue (c.net.destNode d) := fun hm =>
        (mem_finishedIds.1 hv).2.2 (S.known v hm)
      have e' : s'.vehs v = s.vehs v := S.other v hk
      unfold State.tt; rw [e']
    · apply List.map_congr_left
      intro v hv
      have hv := (List.mem_filter.1 hv).1
      have e' : (s'.vehs v).finish = ts := S.finish v hv
      unfold State.tt; rw [e', R.start]
  · rw [R.links]; exact h.both
  · intro l hl b ki ko hi ho
    rw [R.links] at hi ho
    rw [on_links R.links, R.truck]
    exact h.cc l hl b ki ko hi ho

theorem receive_allM {c : Cfg} (hc : c.net.Ok) {ts : ℕ} : ∀ (ds : List ℕ) (s s' : State),
    (∀ d ∈ ds, d ∈ c.net.destIds) → MCore c s → RecvInv c.net ts s.view →
    Res.foldlM (receive c ts) s ds = .ok s' →
    MCore c s' ∧ Res.foldlM (Net.receive c.net ts) s.view ds = .ok s'.view
  | [], s, s', _, h, hr, r => by
    simp only [Res.foldlM_nil, Res.ok.injEq] at r
    subst r
    exact ⟨h, rfl⟩
  | d :: ds, s, s', hds, h, hr, r => by
    rw [Res.foldlM_cons, Res.bind_eq_ok] at r
    obtain ⟨s1, r1, r2⟩ := r
    obtain ⟨h1, hr1⟩ := h.receive hc (hds d (by simp)) hr r1
    obtain ⟨h2, e2⟩ := receive_allM hc ds s1 s' (fun x hx => hds x (by simp [hx])) h1 hr1 r2
    refine ⟨h2, ?_⟩
    rw [Res.foldlM_cons, Res.bind_eq_ok]
    exact ⟨_, (receive_view r1).1, e2⟩

/-- Setting link attributes keeps the invariant. -/
theorem MInv.attrs {c : Cfg} {ts : ℕ} {s s' : State} (h : MInv c ts s) (r : LStep c s s') :
    MInv c ts s' := by
  have e := r.rest
  have C := h.toMCore.links r
  refine ⟨C, C.view, ?_, ?_, ?_⟩
  · have := h.net.start
    rw [e]; exact this
  · have := h.net.finish
    rw [e]; exact this
  · have := h.net.dest
    rw [e]; exact this

theorem loadOnce_inv {c : Cfg} (hc : c.net.Ok) (hsc : c.net.scalar ≠ 0) {o : StepOracle}
    (ho : o.Ok c) {ts assign : ℕ} {s s' : State} (h : MInv c ts s)
    (r : loadOnce c o ts assign s = .ok s') : MInv c (ts + 1) s' := by
  unfold loadOnce at r
  rw [Res.bind_eq_ok'] at r
  obtain ⟨s0, r0, r⟩ := r
  rw [Res.bind_eq_ok'] at r
  obtain ⟨s1, r1, r⟩ := r
  rw [Res.bind_eq_ok'] at r
  obtain ⟨s2, r2, r⟩ := r
  rw [Res.bind_eq_ok'] at r
  obtain ⟨s3, r3, r⟩ := r
  rw [Res.bind_eq_ok'] at r
  obtain ⟨s4, r4, r5⟩ := r
  have h0 := h.attrs (setAttrs_step h.inv r0)
  obtain ⟨k, R⟩ := stepRelease_rel ho r1
  have h1 := h0.toMCore.rel hc R
  obtain ⟨T, Te, _⟩ := update_routed r2
  have h2 := h1.routed T Te
  have N := stepNodes_step hc ho r3
  have h3 := h2.node hsc N
  have L := linksStep_all h3.inv r4
  have h4 := h3.links L
  have hL : s4.view = { s3.view with links := s4.view.links } := by rw [L.rest]; rfl
  have I4 := recvInv_of hc h0.net R.view T N.view h4.view hL
  obtain ⟨h5, e5⟩ := receive_allM hc _ _ _ (fun _ h => h) h4 I4 r5
  obtain ⟨i5, he, _⟩ := receive_all hc c.net.destIds s4.view s'.view (fun _ h => h) I4 e5
  refine ⟨h5, i5.core, ?_, ?_, he⟩
  · intro v hv
    have := i5.start v hv
    push_cast; omega
  · intro v hv
    have := i5.finish v hv
    push_cast; omega

theorem loadMany_inv {c : Cfg} (hc : c.net.Ok) (hsc : c.net.scalar ≠ 0) : ∀ (os : List StepOracle)
    (ts assign : ℕ) (s : State) (r : State × ℕ × ℕ), (∀ o ∈ os, o.Ok c) → MInv c ts s →
    loadMany c os ts assign s = .ok r → MInv c r.2.1 r.1 ∧ r.2.1 = ts + os.length
  | [], ts, assign, s, r, _, h, e => by
    simp only [loadMany, Res.ok.injEq] at e
    subst e
    exact ⟨h, rfl⟩
  | o :: os, ts, assign, s, r, ho, h, e => by
    simp only [loadMany] at e
    rw [Res.bind_eq_ok'] at e
    obtain ⟨s1, e1, e2⟩ := e
    have h1 := loadOnce_inv hc hsc (ho o (by simp)) h e1
    obtain ⟨h2, h3⟩ := loadMany_inv hc hsc os _ _ s1 r (fun x hx => ho x (by simp [hx])) h1 e2
    refine ⟨h2, ?_⟩
    rw [h3, List.length_cons]; omega

theorem fresh_inv {c : Cfg} {s : State} (h : Fresh s) : MInv c 0 s := by
  obtain ⟨links, rfl, hl⟩ := h
  have hempty : ∀ l, (State.init links).on l = [] := by
    intro l
    obtain ⟨⟨k, a, hk⟩, _⟩ := hl l
    obtain ⟨_, h1, h2⟩ := MLnk.mkLink_inv (truck := fun _ => false) hk
    have hz : ∀ b, (links l).link.lane (fun _ => false) b = [] := by
      intro b
      unfold MLnk.Link.lane MLnk.Link.finished MLnk.Link.incoming
      rw [h1, h2]; rfl
    rw [List.eq_nil_iff_forall_not_mem]
    intro v hv
    rw [← List.count_pos_iff, on_count (fun _ => false)] at hv
    simp only [State.init] at hv
    rw [hz, hz] at hv
    simp at hv
  have hgone : (State.init links).gone = [] := rfl
  have hv : Core c.net (State.init links).view := by
    refine ⟨fun l => shell_inv _, ?_, ?_, ?_, ?_, ?_, ?_, ?_, ?_, ?_, fun _ => rfl, ?_⟩
    · intro v
      rw [view_places]
      have e1 : c.net.nodeIds.flatMap (State.init links).queue = [] := by
        rw [List.flatMap_eq_nil_iff]; intro n _; rfl
      have e2 : c.net.linkIds.flatMap (State.init links).on = [] := by
        rw [List.flatMap_eq_nil_iff]; intro n _; exact hempty n
      unfold State.places
      rw [e1, e2]; rfl
    · exact List.nodup_nil
    · intro v hv; simp [State.init, State.view] at hv
    · rfl
    · rfl
    · intro v hv; simp [State.init, State.view] at hv
    · intro v hv; simp [State.init, State.view] at hv
    · intro v hv; rw [← gone_view, hgone] at hv; simp at hv
    · rw [← gone_view, hgone]; rfl
    · intro l ki ko hi _
      simp [State.view] at hi
  refine ⟨⟨hv, ?_, ?_, ?_, ?_, ?_, ?_, ?_⟩, hv, ?_, ?_, ?_⟩
  · intro l _
    obtain ⟨⟨k, a, hk⟩, _⟩ := hl l
    exact (MLnk.mkLink_inv hk).1
  · intro b; cases b <;> rfl
  · intro b; cases b <;> rfl
  · intro b; cases b <;> rfl
  · intro b; cases b <;> rfl
  · intro l b
    rcases (hl l).2 b with ⟨h1, h2⟩ | ⟨h1, h2⟩ <;> simp [State.init, h1, h2]
  · intro l _ b ki ko hi ho
    rw [hempty l]
    rcases (hl l).2 b with ⟨h1, h2⟩ | ⟨h1, h2⟩
    · simp [State.init, h1] at hi
    · simp only [State.init, h1, Option.some.injEq] at hi
      simp only [State.init, h2, Option.some.injEq] at ho
      subst hi; subst ho
      simp
  · intro v hv; simp [State.init, State.view] at hv
  · intro v hv; rw [← gone_view, hgone] at hv; simp at hv
  · intro d _; rfl

end Verif.MNet

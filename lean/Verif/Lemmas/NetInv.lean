import Verif.Lemmas.NetNodes

/-! # The invariant of the loading loop -/

namespace Verif.Net
open Ults Curve Lnk

theorem count_flatMap_append (A : List ℕ) (f g : ℕ → List ℕ) (v : ℕ) :
    (A.flatMap fun l => f l ++ g l).count v = (A.flatMap f).count v + (A.flatMap g).count v := by
  induction A with
  | nil => rfl
  | cons a A ih => simp only [List.flatMap_cons, List.count_append, ih]; omega

/-- The travelling vehicles of a link. -/
def State.trav (s : State) (l : ℕ) : List ℕ := (s.links l).link.travelling

theorem places_count (c : Cfg) (s : State) (v : ℕ) : (s.places c).count v
    = (c.nodeIds.flatMap s.queue).count v + waitCount c.linkIds c.linkIds s v
      + (c.linkIds.flatMap s.trav).count v := by
  have e : s.on = fun l => (s.fin l ++ s.trav l) ++ s.inc l := rfl
  unfold State.places waitCount
  rw [List.count_append, e, count_flatMap_append, count_flatMap_append]
  omega

/-- The finished vehicles. -/
def State.finishedIds (s : State) : List ℕ :=
  (List.range' 1 s.numVeh).filter fun v => decide (v ∉ s.vehMap)

theorem mem_finishedIds {s : State} {v : ℕ} :
    v ∈ s.finishedIds ↔ 1 ≤ v ∧ v ≤ s.numVeh ∧ v ∉ s.vehMap := by
  simp only [State.finishedIds, List.mem_filter, List.mem_range'_1, decide_eq_true_eq]
  constructor
  · rintro ⟨⟨h1, h2⟩, h3⟩; exact ⟨h1, by omega, h3⟩
  · rintro ⟨h1, h2, h3⟩; exact ⟨⟨h1, by omega⟩, h3⟩

theorem finishedIds_nodup (s : State) : s.finishedIds.Nodup :=
  List.Nodup.filter _ List.nodup_range'

/-- Travel time of a finished vehicle. -/
def State.tt (s : State) (v : ℕ) : ℚ := (((s.vehs v).finish - (s.vehs v).start : ℤ) : ℚ)

/-- The part of the invariant that holds in every phase. -/
structure Core (c : Cfg) (s : State) : Prop where
  links : ∀ l, Inv (s.links l).link
  place : ∀ v, (s.places c).count v = s.vehMap.count v
  nodup : s.vehMap.Nodup
  range : ∀ v ∈ s.vehMap, 1 ≤ v ∧ v ≤ s.numVeh
  len : s.vehMap.length + s.finished = s.numVeh
  enroute : s.enroute = s.vehMap.length
  finIn : ∀ v ∈ s.vehMap, (s.vehs v).finish = -1
  startIn : ∀ v ∈ s.vehMap, 0 ≤ (s.vehs v).start
  finOut : ∀ v ∈ s.finishedIds, 0 ≤ (s.vehs v).start ∧ (s.vehs v).start < (s.vehs v).finish
  time : s.totalTime = (s.finishedIds.map s.tt).sum
  both : ∀ l, BothCurves s l
  cc : ∀ l ki ko, (s.links l).nIn = some ki → (s.links l).nOut = some ko →
    total ki - total ko = (s.on l).length / c.scalar

theorem Core.rel {c : Cfg} (hc : c.Ok) {ts k : ℕ} {s s' : State} (h : Core c s)
    (r : Rel c ts k s s') : Core c s' := by
  have hnew : ∀ v, v ∈ List.range' (s.numVeh + 1) k ↔ s.numVeh < v ∧ v ≤ s.numVeh + k := by
    intro v; rw [List.mem_range'_1]; omega
  have hold : ∀ v ∈ s.vehMap, s'.vehs v = s.vehs v := fun v hv =>
    r.old v (Or.inl (h.range v hv).2)
  have hfin : s'.finishedIds = s.finishedIds := by
    unfold State.finishedIds
    rw [r.num, ← List.range'_append_1, List.filter_append]
    have e1 : (List.range' 1 s.numVeh).filter (fun v => decide (v ∉ s'.vehMap))
        = (List.range' 1 s.numVeh).filter (fun v => decide (v ∉ s.vehMap)) := by
      apply List.filter_congr
      intro v hv
      rw [List.mem_range'_1] at hv
      have : v ∉ List.range' (s.numVeh + 1) k := by rw [hnew]; omega
      rw [r.map]; simp [this]
    have e2 : (List.range' (1 + s.numVeh) k).filter (fun v => decide (v ∉ s'.vehMap)) = [] := by
      rw [List.filter_eq_nil_iff]
      intro v hv
      rw [Nat.add_comm] at hv
      rw [r.map]; simp [hv]
    rw [e1, e2, List.append_nil]
  have holdf : ∀ v ∈ s.finishedIds, s'.vehs v = s.vehs v := fun v hv =>
    r.old v (Or.inl (mem_finishedIds.1 hv).2.1)
  have hon : ∀ l, s'.on l = s.on l := fun l => by unfold State.on; rw [r.links]
  refine ⟨by rw [r.links]; exact h.links, ?_, ?_, ?_, ?_, ?_, ?_, ?_, ?_, ?_, ?_, ?_⟩
  · intro v
    have hl : c.linkIds.flatMap s'.on = c.linkIds.flatMap s.on :=
      List.flatMap_congr fun l _ => hon l
    have hq : (c.nodeIds.flatMap s'.queue).count v = (c.nodeIds.flatMap s.queue).count v
        + (List.range' (s.numVeh + 1) k).count v := by
      have e : ∀ A : List ℕ, (A.flatMap s'.queue).count v = (A.flatMap fun n => s.queue n ++
          (List.range' (s.numVeh + 1) k).filter
            fun v => decide ((c.origin (s'.vehs v).origin).node = n)).count v := by
        intro A
        induction A with
        | nil => rfl
        | cons a A ih =>
          simp only [List.flatMap_cons, List.count_append, ih, (r.queue a).count_eq v]
      rw [e, count_flatMap_append]
      congr 1
      by_cases hv : v ∈ List.range' (s.numVeh + 1) k
      · have hv' := (hnew v).1 hv
        have hmem : (c.origin (s'.vehs v).origin).node ∈ c.nodeIds :=
          (hc.origins _ (r.new v hv'.1 hv'.2).2.2.2.2.2).1
        have : ∀ A : List ℕ, A.Nodup → (A.flatMap fun n => (List.range' (s.numVeh + 1) k).filter
            fun v => decide ((c.origin (s'.vehs v).origin).node = n)).count v
            = if (c.origin (s'.vehs v).origin).node ∈ A then (List.range' (s.numVeh + 1) k).count v
              else 0 := by
          intro A hA
          induction A with
          | nil => simp
          | cons a A ih =>
            rw [List.nodup_cons] at hA
            simp only [List.flatMap_cons, List.count_append, ih hA.2]
            by_cases ha : (c.origin (s'.vehs v).origin).node = a
            · rw [List.count_filter (by simp [ha])]
              rw [← ha] at hA ⊢
              simp [hA.1]
            · have : ((List.range' (s.numVeh + 1) k).filter
                  fun v => decide ((c.origin (s'.vehs v).origin).node = a)).count v = 0 := by
                rw [List.count_eq_zero]
                simp [ha]
              rw [this]
              simp [ha]
        rw [this c.nodeIds hc.nodes, if_pos hmem]
      · rw [List.count_eq_zero.2 hv, List.count_eq_zero]
        simp only [List.mem_flatMap, List.mem_filter, not_exists, not_and]
        intro n _ hv'
        exact absurd hv' hv
    have hp := h.place v
    unfold State.places at hp ⊢
    rw [List.count_append] at hp ⊢
    rw [hl, hq, r.map, List.count_append]
    omega
  · rw [r.map, List.nodup_append]
    refine ⟨h.nodup, List.nodup_range', ?_⟩
    intro a ha b hb e
    have := (h.range a ha).2
    have := ((hnew b).1 hb).1
    omega
  · intro v hv
    rw [r.map, List.mem_append, hnew] at hv
    rw [r.num]
    rcases hv with hv | hv
    · have := h.range v hv; omega
    · omega
  · rw [r.map, r.num, r.finished, List.length_append, List.length_range']
    have := h.len; omega
  · rw [r.map, r.enroute, List.length_append, List.length_range', h.enroute]; push_cast; rfl
  · intro v hv
    rw [r.map, List.mem_append, hnew] at hv
    rcases hv with hv | hv
    · rw [hold v hv]; exact h.finIn v hv
    · exact (r.new v hv.1 hv.2).2.1
  · intro v hv
    rw [r.map, List.mem_append, hnew] at hv
    rcases hv with hv | hv
    · rw [hold v hv]; exact h.startIn v hv
    · rw [(r.new v hv.1 hv.2).1]; positivity
  · intro v hv
    rw [hfin] at hv
    rw [holdf v hv]; exact h.finOut v hv
  · rw [r.time, hfin, h.time]
    congr 1
    apply List.map_congr_left
    intro v hv
    unfold State.tt; rw [holdf v hv]
  · intro l; unfold BothCurves; rw [r.links]; exact h.both l
  · intro l ki ko hi ho
    rw [r.links] at hi ho
    rw [hon l]; exact h.cc l ki ko hi ho

theorem Core.of_veh {c : Cfg} {s s' : State} (h : Core c s)
    (hs : ∀ v, (s'.vehs v).start = (s.vehs v).start) (hf : ∀ v, (s'.vehs v).finish = (s.vehs v).finish)
    (hm : s'.vehMap = s.vehMap) (hn : s'.numVeh = s.numVeh) (he : s'.enroute = s.enroute)
    (hfi : s'.finished = s.finished) (ht : s'.totalTime = s.totalTime)
    (hl : ∀ l, Inv (s'.links l).link) (hp : ∀ v, (s'.places c).count v = (s.places c).count v)
    (hb : ∀ l, BothCurves s' l)
    (hcc : ∀ l ki ko, (s'.links l).nIn = some ki → (s'.links l).nOut = some ko →
      total ki - total ko = (s'.on l).length / c.scalar) : Core c s' := by
  have hfin : s'.finishedIds = s.finishedIds := by unfold State.finishedIds; rw [hm, hn]
  refine ⟨hl, by intro v; rw [hp, hm, h.place], by rw [hm]; exact h.nodup,
    by rw [hm, hn]; exact h.range, by rw [hm, hfi, hn]; exact h.len, by rw [he, hm]; exact h.enroute,
    ?_, ?_, ?_, ?_, hb, hcc⟩
  · intro v hv; rw [hf]; exact h.finIn v (hm ▸ hv)
  · intro v hv; rw [hs]; exact h.startIn v (hm ▸ hv)
  · intro v hv; rw [hs, hf]; exact h.finOut v (hfin ▸ hv)
  · rw [ht, hfin, h.time]
    congr 1
    apply List.map_congr_left
    intro v _
    unfold State.tt; rw [hs, hf]

theorem Routed.start {s s' : State} (r : Routed s s') (v : ℕ) : (s'.vehs v).start = (s.vehs v).start := by
  have := r.veh v; simp only [Veh.mk.injEq] at this; tauto

theorem Routed.finish {s s' : State} (r : Routed s s') (v : ℕ) :
    (s'.vehs v).finish = (s.vehs v).finish := by
  have := r.veh v; simp only [Veh.mk.injEq] at this; tauto

theorem Core.routed {c : Cfg} {s s' : State} (h : Core c s) (r : Routed s s') : Core c s' := by
  have hp : s'.places c = s.places c := by
    unfold State.places State.on; rw [r.links, r.queue]
  refine h.of_veh r.start r.finish r.map r.num r.enroute r.finished r.time
    (by rw [r.links]; exact h.links) (by intro v; rw [hp])
    (by intro l; unfold BothCurves; rw [r.links]; exact h.both l) ?_
  intro l ki ko hi ho
  rw [r.links] at hi ho
  unfold State.on
  rw [r.links]
  exact h.cc l ki ko hi ho

theorem Frame.start {s s' : State} (r : Frame s s') (v : ℕ) : (s'.vehs v).start = (s.vehs v).start := by
  have := r.veh v; simp only [Veh.mk.injEq] at this; tauto

theorem Frame.finish {s s' : State} (r : Frame s s') (v : ℕ) :
    (s'.vehs v).finish = (s.vehs v).finish := by
  have := r.veh v; simp only [Veh.mk.injEq] at this; tauto

theorem inv_moved {l : Link ℕ} (h : Inv l) (a b : List ℕ) :
    Inv ((l.setFinished a).setIncoming b) := by
  cases l <;> exact h

theorem Core.node {c : Cfg} (hsc : c.scalar ≠ 0) {s s' : State} (h : Core c s) (r : NodeStep c s s') : Core c s' := by
  have htrav : s'.trav = s.trav := funext fun l => r.frame.trav l
  have hlen : ∀ l (t : State), (t.on l).length = (t.fin l).length + (t.trav l).length + (t.inc l).length := by
    intro l t
    unfold State.on Link.holds State.fin State.trav State.inc
    simp [Nat.add_assoc]
  obtain ⟨f1, f2, f3, f4, f5⟩ := r.frame.factory
  refine h.of_veh r.frame.start r.frame.finish f5 f1 f2 f3 f4 ?_ ?_ (r.both h.both) ?_
  · intro l; rw [r.frame.link l]; exact inv_moved (h.links l) _ _
  · intro v
    rw [places_count, places_count, r.count v, htrav]
  · intro l ki ko hi ho
    have h1 := r.nIn h.both l
    have h2 := r.nOut h.both l
    cases hi' : (s.links l).nIn with
    | none => have := h1.1; rw [hi', hi] at this; simp at this
    | some ki' =>
      cases ho' : (s.links l).nOut with
      | none => have := h2.1; rw [ho', ho] at this; simp at this
      | some ko' =>
        rw [h1.2 _ _ hi' hi, h2.2 _ _ ho' ho]
        have hcc := h.cc l ki' ko' hi' ho'
        rw [hlen] at hcc ⊢
        rw [htrav]
        rw [eq_div_iff hsc] at hcc ⊢
        push_cast at hcc ⊢
        field_simp
        linarith

/-- What the link phase does. -/
structure LinksStep (s s' : State) : Prop where
  rest : s' = { s with links := s'.links }
  inv : (∀ l, Inv (s.links l).link) → ∀ l, Inv (s'.links l).link
  holds : (∀ l, Inv (s.links l).link) → ∀ l, s'.on l = s.on l
  nIn : ∀ l, (s'.links l).nIn = (s.links l).nIn
  nOut : ∀ l, (s'.links l).nOut = (s.links l).nOut

theorem LinksStep.refl (s : State) : LinksStep s s :=
  ⟨rfl, fun h => h, fun _ _ => rfl, fun _ => rfl, fun _ => rfl⟩

theorem LinksStep.trans {a b d : State} (h : LinksStep a b) (k : LinksStep b d) : LinksStep a d := by
  refine ⟨?_, fun hi => k.inv (h.inv hi), fun hi l => (k.holds (h.inv hi) l).trans (h.holds hi l),
    fun l => (k.nIn l).trans (h.nIn l), fun l => (k.nOut l).trans (h.nOut l)⟩
  rw [k.rest]
  conv_lhs => rw [h.rest]

theorem linkStep_step {o : StepOracle} {s s' : State} {l : ℕ} (h : linkStep o s l = .ok s') :
    LinksStep s s' := by
  unfold linkStep at h
  rw [Res.bind_eq_ok'] at h
  obtain ⟨x, hx, h⟩ := h
  rw [Res.bind_eq_ok'] at h
  obtain ⟨y, hy, h⟩ := h
  cases h
  refine ⟨rfl, ?_, ?_, ?_, ?_⟩
  · intro hi k
    by_cases hk : k = l
    · subst hk
      simp only [upd_same]
      exact (evolve_inv (clear_inv (hi k) hx).1 hy).1
    · simp only [upd_other _ _ _ _ hk]; exact hi k
  · intro hi k
    unfold State.on
    by_cases hk : k = l
    · subst hk
      simp only [upd_same]
      obtain ⟨a1, a2, _⟩ := clear_inv (hi k) hx
      obtain ⟨_, b2, b3⟩ := evolve_inv a1 hy
      rw [← a2]
      unfold Link.holds
      rw [b2, b3]
    · simp only [upd_other _ _ _ _ hk]
  · intro k
    by_cases hk : k = l
    · subst hk; simp
    · simp only [upd_other _ _ _ _ hk]
  · intro k
    by_cases hk : k = l
    · subst hk; simp
    · simp only [upd_other _ _ _ _ hk]

theorem linksStep_all {o : StepOracle} {s s' : State} {ls : List ℕ}
    (h : Res.foldlM (linkStep o) s ls = .ok s') : LinksStep s s' := by
  refine Res.foldlM_inv (P := fun t => LinksStep s t) ?_ _ _ _ (LinksStep.refl s) h
  intro b l b' hb he
  exact hb.trans (linkStep_step he)

theorem Core.linksStep {c : Cfg} {s s' : State} (h : Core c s) (r : LinksStep s s') : Core c s' := by
  have hon : s'.on = s.on := funext fun l => r.holds h.links l
  have hq : s'.queue = s.queue := by rw [r.rest]
  refine h.of_veh ?_ ?_ ?_ ?_ ?_ ?_ ?_ (r.inv h.links) ?_ ?_ ?_
  · intro v; rw [r.rest]
  · intro v; rw [r.rest]
  · rw [r.rest]
  · rw [r.rest]
  · rw [r.rest]
  · rw [r.rest]
  · rw [r.rest]
  · intro v; unfold State.places; rw [hon, hq]
  · intro l; unfold BothCurves; rw [r.nIn, r.nOut]; exact h.both l
  · intro l ki ko hi ho
    rw [r.nIn] at hi
    rw [r.nOut] at ho
    rw [hon]; exact h.cc l ki ko hi ho

theorem count_flatMap_le {A : List ℕ} {n v : ℕ} (hn : n ∈ A) (f : ℕ → List ℕ) :
    (f n).count v ≤ (A.flatMap f).count v := by
  induction A with
  | nil => simp at hn
  | cons a A ih =>
    simp only [List.flatMap_cons, List.count_append]
    rcases List.mem_cons.1 hn with rfl | hn
    · omega
    · have := ih hn; omega

theorem Core.queue_nodup {c : Cfg} {s : State} (h : Core c s) {n : ℕ} (hn : n ∈ c.nodeIds) :
    (s.queue n).Nodup := by
  rw [List.nodup_iff_count_le_one]
  intro v
  have h1 := h.place v
  have h2 := List.nodup_iff_count_le_one.1 h.nodup v
  have h3 := count_flatMap_le (v := v) hn s.queue
  unfold State.places at h1
  rw [List.count_append] at h1
  omega

/-- The vehicles received leave the map of vehicles and join the finished ones. -/
theorem Core.receive_perms {c : Cfg} {ts d : ℕ} {s s' : State} (h : Core c s)
    (hnode : c.destNode d ∈ c.nodeIds) (r : receive c ts s d = .ok s') :
    (s'.vehMap ++ s.queue (c.destNode d)).Perm s.vehMap ∧
    s'.finishedIds.Perm (s.finishedIds ++ s.queue (c.destNode d)) ∧
    ∀ v, v ∈ s'.vehMap ↔ v ∈ s.vehMap ∧ v ∉ s.queue (c.destNode d) := by
  obtain ⟨S, hq⟩ := receive_spec r (h.queue_nodup hnode)
  generalize hvs : s.queue (c.destNode d) = vs at *
  have hnd : vs.Nodup := hvs ▸ h.queue_nodup hnode
  have hmap : ∀ v, s'.vehMap.count v = s.vehMap.count v - vs.count v := S.map
  have hnum : s'.numVeh = s.numVeh := S.num
  have hvs1 : ∀ v ∈ vs, s.vehMap.count v = 1 ∧ vs.count v = 1 := by
    intro v hv
    exact ⟨List.count_eq_one_of_mem h.nodup (S.known v hv), List.count_eq_one_of_mem hnd hv⟩
  have hmem : ∀ v, v ∈ s'.vehMap ↔ v ∈ s.vehMap ∧ v ∉ vs := by
    intro v
    rw [← List.count_pos_iff, hmap v, ← List.count_pos_iff]
    constructor
    · intro hp
      refine ⟨by omega, fun hv => ?_⟩
      have := hvs1 v hv
      omega
    · rintro ⟨h1, h2⟩
      rw [List.count_eq_zero.2 h2]; omega
  have hp : (s'.vehMap ++ vs).Perm s.vehMap := by
    rw [List.perm_iff_count]
    intro v
    rw [List.count_append, hmap v]
    by_cases hv : v ∈ vs
    · have := hvs1 v hv; omega
    · rw [List.count_eq_zero.2 hv]; omega
  have hfin : s'.finishedIds.Perm (s.finishedIds ++ vs) := by
    rw [List.perm_ext_iff_of_nodup (finishedIds_nodup _)]
    · intro v
      rw [List.mem_append, mem_finishedIds, mem_finishedIds, hnum, hmem]
      constructor
      · rintro ⟨h1, h2, h3⟩
        by_cases hv : v ∈ vs
        · exact Or.inr hv
        · exact Or.inl ⟨h1, h2, fun hm => h3 ⟨hm, hv⟩⟩
      · rintro (⟨h1, h2, h3⟩ | hv)
        · exact ⟨h1, h2, fun hm => h3 hm.1⟩
        · have := h.range v (S.known v hv)
          exact ⟨this.1, this.2, fun hm => hm.2 hv⟩
    · rw [List.nodup_append]
      refine ⟨finishedIds_nodup _, hnd, ?_⟩
      intro a ha b hb e
      subst e
      exact (mem_finishedIds.1 ha).2.2 (S.known a hb)
  exact ⟨hp, hfin, hmem⟩

theorem Core.receive {c : Cfg} (hc : c.Ok) {ts d : ℕ} (hd : d ∈ c.destIds) {s s' : State} (h : Core c s)
    (hst : ∀ v ∈ s.queue (c.destNode d), (s.vehs v).start < ts)
    (r : receive c ts s d = .ok s') : Core c s' := by
  have hnode := (hc.dests d hd).1
  obtain ⟨S, hq⟩ := receive_spec r (h.queue_nodup hnode)
  generalize hvs : s.queue (c.destNode d) = vs at *
  have hnd : vs.Nodup := hvs ▸ h.queue_nodup hnode
  have hmap : ∀ v, s'.vehMap.count v = s.vehMap.count v - vs.count v := S.map
  obtain ⟨hperm, hfin, hmem⟩ := h.receive_perms hnode r
  rw [hvs] at hperm hfin hmem
  have hother : ∀ v, v ∉ vs → s'.vehs v = s.vehs v := S.other
  have hstart : ∀ v, (s'.vehs v).start = (s.vehs v).start := by
    intro v
    have := S.veh v; simp only [Veh.mk.injEq] at this; tauto
  have hnum : s'.numVeh = s.numVeh := S.num
  have hlinks : s'.links = s.links := S.links
  have hlen : s'.vehMap.length + vs.length = s.vehMap.length := by
    have := hperm.length_eq
    simpa using this
  have hon : s'.on = s.on := by unfold State.on; rw [hlinks]
  refine ⟨by rw [hlinks]; exact h.links, ?_, ?_, ?_, ?_, ?_, ?_, ?_, ?_, ?_, ?_, ?_⟩
  · intro v
    have hp := h.place v
    have hqc := count_flatMap_upd hc.nodes hnode (f := s.queue) (f' := s'.queue) (by
      intro k hk; rw [hq, upd_other _ _ _ _ hk]) v
    rw [hq] at hqc
    simp only [upd_same, List.count_nil, hvs] at hqc
    unfold State.places at hp ⊢
    rw [List.count_append] at hp ⊢
    rw [hon, hmap v, hq]
    omega
  · rw [List.nodup_iff_count_le_one]
    intro v
    have := List.nodup_iff_count_le_one.1 h.nodup v
    rw [hmap v]; omega
  · intro v hv
    rw [hnum]; exact h.range v ((hmem v).1 hv).1
  · rw [hnum]
    have h1 : s'.finished = s.finished + vs.length := S.finished
    have := h.len
    omega
  · have h1 : s'.enroute = s.enroute - vs.length := S.enroute
    rw [h1, h.enroute]
    omega
  · intro v hv
    have := (hmem v).1 hv
    rw [hother v this.2]; exact h.finIn v this.1
  · intro v hv
    rw [hstart]; exact h.startIn v ((hmem v).1 hv).1
  · intro v hv
    rcases List.mem_append.1 (hfin.mem_iff.1 hv) with hv | hv
    · have : v ∉ vs := fun hm => (mem_finishedIds.1 hv).2.2 (S.known v hm)
      rw [hother v this]; exact h.finOut v hv
    · rw [hstart]
      have e : (s'.vehs v).finish = ts := S.finish v hv
      rw [e]
      exact ⟨h.startIn v (S.known v hv), hst v hv⟩
  · have ht : s'.totalTime = s.totalTime +
        (vs.map fun v => (((ts : ℤ) - (s.vehs v).start : ℤ) : ℚ)).sum := S.time
    rw [ht, h.time, (hfin.map _).sum_eq, List.map_append, List.sum_append]
    congr 2
    · apply List.map_congr_left
      intro v hv
      have : v ∉ vs := fun hm => (mem_finishedIds.1 hv).2.2 (S.known v hm)
      unfold State.tt; rw [hother v this]
    · apply List.map_congr_left
      intro v hv
      have e : (s'.vehs v).finish = ts := S.finish v hv
      unfold State.tt; rw [e, hstart]
  · intro l; unfold BothCurves; rw [hlinks]; exact h.both l
  · intro l ki ko hi ho
    rw [hlinks] at hi ho
    rw [hon]; exact h.cc l ki ko hi ho

/-- The invariant at the beginning of interval `ts`. -/
structure NetInv (c : Cfg) (ts : ℕ) (s : State) : Prop where
  core : Core c s
  start : ∀ v ∈ s.vehMap, (s.vehs v).start < ts
  finish : ∀ v ∈ s.finishedIds, (s.vehs v).finish < ts
  dest : ∀ d ∈ c.destIds, s.queue (c.destNode d) = []

/-- The invariant while destinations receive vehicles in interval `ts`. -/
structure RecvInv (c : Cfg) (ts : ℕ) (s : State) : Prop where
  core : Core c s
  start : ∀ v ∈ s.vehMap, (s.vehs v).start ≤ ts
  finish : ∀ v ∈ s.finishedIds, (s.vehs v).finish ≤ ts
  dest : ∀ d ∈ c.destIds, ∀ v ∈ s.queue (c.destNode d), (s.vehs v).start < ts

theorem RecvInv.receive {c : Cfg} (hc : c.Ok) {ts d : ℕ} (hd : d ∈ c.destIds) {s s' : State}
    (h : RecvInv c ts s) (r : receive c ts s d = .ok s') :
    RecvInv c ts s' ∧ s'.queue = upd s.queue (c.destNode d) [] := by
  have hnode := (hc.dests d hd).1
  obtain ⟨S, hq⟩ := receive_spec r (h.core.queue_nodup hnode)
  have hnd := h.core.queue_nodup hnode
  have C := h.core.receive hc hd (h.dest d hd) r
  have hstart : ∀ v, (s'.vehs v).start = (s.vehs v).start := by
    intro v
    have := S.veh v; simp only [Veh.mk.injEq] at this; tauto
  have hsub : ∀ v, v ∈ s'.vehMap → v ∈ s.vehMap := by
    intro v
    rw [← List.count_pos_iff, ← List.count_pos_iff]
    have : s'.vehMap.count v = s.vehMap.count v - (s.queue (c.destNode d)).count v := S.map v
    omega
  refine ⟨⟨C, ?_, ?_, ?_⟩, hq⟩
  · intro v hv; rw [hstart]; exact h.start v (hsub v hv)
  · intro v hv
    by_cases hm : v ∈ s.queue (c.destNode d)
    · have e : (s'.vehs v).finish = ts := S.finish v hm
      rw [e]
    · have e : s'.vehs v = s.vehs v := S.other v hm
      rw [e]
      apply h.finish
      rw [mem_finishedIds] at hv ⊢
      have hn : s'.numVeh = s.numVeh := S.num
      rw [hn] at hv
      refine ⟨hv.1, hv.2.1, fun hv' => hv.2.2 ?_⟩
      rw [← List.count_pos_iff] at hv' ⊢
      have : s'.vehMap.count v = s.vehMap.count v - (s.queue (c.destNode d)).count v := S.map v
      rw [this, List.count_eq_zero.2 hm]; omega
  · intro d' hd' v hv
    rw [hstart]
    rw [hq] at hv
    by_cases e : c.destNode d' = c.destNode d
    · rw [e] at hv; simp at hv
    · rw [upd_other _ _ _ _ e] at hv
      exact h.dest d' hd' v hv

theorem receive_all {c : Cfg} (hc : c.Ok) {ts : ℕ} : ∀ (ds : List ℕ) (s s' : State),
    (∀ d ∈ ds, d ∈ c.destIds) → RecvInv c ts s → Res.foldlM (receive c ts) s ds = .ok s' →
    RecvInv c ts s' ∧ (∀ d ∈ ds, s'.queue (c.destNode d) = []) ∧
      ∀ n, s.queue n = [] → s'.queue n = []
  | [], s, s', _, h, r => by
    simp only [Res.foldlM_nil, Res.ok.injEq] at r
    subst r
    exact ⟨h, by simp, fun _ h => h⟩
  | d :: ds, s, s', hds, h, r => by
    rw [Res.foldlM_cons, Res.bind_eq_ok] at r
    obtain ⟨s1, r1, r2⟩ := r
    obtain ⟨h1, hq⟩ := h.receive hc (hds d (by simp)) r1
    obtain ⟨h2, he, hk⟩ := receive_all hc ds s1 s' (fun x hx => hds x (by simp [hx])) h1 r2
    refine ⟨h2, ?_, ?_⟩
    · intro x hx
      rcases List.mem_cons.1 hx with rfl | hx
      · apply hk; rw [hq]; simp
      · exact he x hx
    · intro n hn
      apply hk
      rw [hq]
      by_cases e : n = c.destNode d
      · subst e; simp
      · rw [upd_other _ _ _ _ e]; exact hn

/-- The state in which the destinations receive vehicles, from what the phases before it do. -/
theorem recvInv_of {c : Cfg} (hc : c.Ok) {ts k : ℕ} {s s1 s2 s3 s4 : State} (h : NetInv c ts s)
    (R : Rel c ts k s s1) (T : Routed s1 s2) (N : NodeStep c s2 s3) (C4 : Core c s4)
    (L : s4 = { s3 with links := s4.links }) : RecvInv c ts s4 := by
  -- start times
  have hs1 : ∀ v ∈ s1.vehMap, (s1.vehs v).start ≤ ts := by
    intro v hv
    rw [R.map, List.mem_append, List.mem_range'_1] at hv
    rcases hv with hv | hv
    · rw [R.old v (Or.inl (h.core.range v hv).2)]
      exact (h.start v hv).le
    · rw [(R.new v (by omega) (by omega)).1]
  have hf1 : ∀ l ∈ c.linkIds, ∀ v ∈ s1.fin l, (s1.vehs v).start < ts := by
    intro l hl v hv
    have hv0 : v ∈ s.vehMap := by
      rw [← List.count_pos_iff, ← h.core.place v, List.count_pos_iff]
      unfold State.places
      rw [List.mem_append, List.mem_flatMap, List.mem_flatMap]
      refine Or.inr ⟨l, hl, ?_⟩
      unfold State.fin at hv
      rw [R.links] at hv
      unfold State.on Link.holds
      simp [hv]
    rw [R.old v (Or.inl (h.core.range v hv0).2)]
    exact h.start v hv0
  have hd1 : ∀ d ∈ c.destIds, s1.queue (c.destNode d) = [] := by
    intro d hd
    have hp := R.queue (c.destNode d)
    rw [h.dest d hd, List.nil_append] at hp
    have : (List.range' (s.numVeh + 1) k).filter
        (fun v => decide ((c.origin (s1.vehs v).origin).node = c.destNode d)) = [] := by
      rw [List.filter_eq_nil_iff]
      intro v hv
      rw [List.mem_range'_1] at hv
      have hor := (R.new v (by omega) (by omega)).2.2.2.2.2
      obtain ⟨_, outs, e1⟩ := hc.origins _ hor
      obtain ⟨_, ins, e2⟩ := hc.dests d hd
      simp only [decide_eq_true_eq]
      intro e
      rw [e, e2] at e1
      simp at e1
    rw [this] at hp
    exact List.Perm.eq_nil hp
  -- the nodes
  have hq3 : ∀ d ∈ c.destIds, ∀ v ∈ s3.queue (c.destNode d), (s3.vehs v).start < ts := by
    intro d hd v hv
    have hq2 : s2.queue (c.destNode d) = [] := by rw [T.queue]; exact hd1 d hd
    rw [N.frame.start, T.start]
    rcases N.queue (c.destNode d) with hsub | ⟨_, _, hsub⟩
    · rw [hq2, List.sublist_nil] at hsub
      rw [hsub] at hv; simp at hv
    · rcases hsub v hv with hv | ⟨l, hl, hv⟩
      · rw [hq2] at hv; simp at hv
      · apply hf1 l hl
        unfold State.fin at hv ⊢
        rw [← T.links]; exact hv
  have hmap2 : s2.vehMap = s1.vehMap := T.map
  have hmap3 : s3.vehMap = s1.vehMap := by rw [N.frame.factory.2.2.2.2, hmap2]
  have hfin3 : s3.finishedIds = s.finishedIds := by
    have e : s3.numVeh = s1.numVeh := by rw [N.frame.factory.1, T.num]
    have e' : s3.finishedIds = s1.finishedIds := by unfold State.finishedIds; rw [hmap3, e]
    rw [e']
    unfold State.finishedIds
    rw [R.num, ← List.range'_append_1, List.filter_append]
    have e1 : (List.range' 1 s.numVeh).filter (fun v => decide (v ∉ s1.vehMap))
        = (List.range' 1 s.numVeh).filter (fun v => decide (v ∉ s.vehMap)) := by
      apply List.filter_congr
      intro v hv
      rw [List.mem_range'_1] at hv
      have : v ∉ List.range' (s.numVeh + 1) k := by rw [List.mem_range'_1]; omega
      rw [R.map]; simp [this]
    have e2 : (List.range' (1 + s.numVeh) k).filter (fun v => decide (v ∉ s1.vehMap)) = [] := by
      rw [List.filter_eq_nil_iff]
      intro v hv
      rw [Nat.add_comm] at hv
      rw [R.map]; simp [hv]
    rw [e1, e2, List.append_nil]
  refine ⟨C4, ?_, ?_, ?_⟩
  · intro v hv
    rw [L] at hv ⊢
    simp only at hv ⊢
    rw [hmap3] at hv
    rw [N.frame.start, T.start]
    exact hs1 v hv
  · intro v hv
    have e : s4.finishedIds = s3.finishedIds := by unfold State.finishedIds; rw [L]
    have e' : s4.vehs = s3.vehs := by rw [L]
    rw [e, hfin3] at hv
    rw [e', N.frame.finish, T.finish, R.old v (Or.inl (mem_finishedIds.1 hv).2.1)]
    exact (h.finish v hv).le
  · intro d hd v hv
    have e : s4.queue = s3.queue := by rw [L]
    have e' : s4.vehs = s3.vehs := by rw [L]
    rw [e] at hv
    rw [e']
    exact hq3 d hd v hv

/-- The state in which the destinations receive vehicles. -/
theorem before_receive {c : Cfg} (hc : c.Ok) (hsc : c.scalar ≠ 0) {o : StepOracle} (ho : o.Ok c)
    {ts assign : ℕ} {s s1 s2 s3 s4 : State} (h : NetInv c ts s)
    (r1 : stepRelease c o ts assign s = .ok s1) (r2 : o.routing.update c o.route s1 = .ok s2)
    (r3 : stepNodes c o ts s2 = .ok s3) (r4 : Res.foldlM (linkStep o) s3 c.linkIds = .ok s4) :
    RecvInv c ts s4 := by
  obtain ⟨k, R⟩ := stepRelease_rel ho r1
  have T := routing_routed r2
  have N := stepNodes_step hc ho r3
  have L := linksStep_all r4
  exact recvInv_of hc h R T N ((((h.core.rel hc R).routed T).node hsc N).linksStep L) L.rest

theorem loadOnce_inv {c : Cfg} (hc : c.Ok) (hsc : c.scalar ≠ 0) {o : StepOracle} (ho : o.Ok c)
    {ts assign : ℕ} {s s' : State} (h : NetInv c ts s) (r : loadOnce c o ts assign s = .ok s') :
    NetInv c (ts + 1) s' := by
  unfold loadOnce at r
  rw [Res.bind_eq_ok'] at r
  obtain ⟨s1, r1, r⟩ := r
  rw [Res.bind_eq_ok'] at r
  obtain ⟨s2, r2, r⟩ := r
  rw [Res.bind_eq_ok'] at r
  obtain ⟨s3, r3, r⟩ := r
  rw [Res.bind_eq_ok'] at r
  obtain ⟨s4, r4, r5⟩ := r
  have h4 := before_receive hc hsc ho h r1 r2 r3 r4
  obtain ⟨h5, he, _⟩ := receive_all hc c.destIds s4 s' (fun _ h => h) h4 r5
  refine ⟨h5.core, ?_, ?_, he⟩
  · intro v hv
    have := h5.start v hv
    push_cast; omega
  · intro v hv
    have := h5.finish v hv
    push_cast; omega

theorem loadMany_inv {c : Cfg} (hc : c.Ok) (hsc : c.scalar ≠ 0) : ∀ (os : List StepOracle)
    (ts assign : ℕ) (s : State) (r : State × ℕ × ℕ), (∀ o ∈ os, o.Ok c) → NetInv c ts s →
    loadMany c os ts assign s = .ok r → NetInv c r.2.1 r.1 ∧ r.2.1 = ts + os.length
  | [], ts, assign, s, r, _, h, e => by
    simp only [loadMany, Res.ok.injEq] at e
    subst e
    exact ⟨h, rfl⟩
  | o :: os, ts, assign, s, r, ho, h, e => by
    simp only [loadMany] at e
    rw [Res.bind_eq_ok'] at e
    obtain ⟨s1, e1, e2⟩ := e
    have h1 := loadOnce_inv hc hsc (ho o (by simp)) h e1
    obtain ⟨h2, h3⟩ := loadMany_inv hc hsc os _ _ s1 r (fun x hx => ho x (by simp [hx])) h1 e2
    refine ⟨h2, ?_⟩
    rw [h3, List.length_cons]; omega

theorem fresh_inv {c : Cfg} {s : State} (h : Fresh s) : NetInv c 0 s := by
  obtain ⟨links, rfl, hl⟩ := h
  have hempty : ∀ l, (State.init links).on l = [] := by
    intro l
    obtain ⟨⟨k, a, hk⟩, _⟩ := hl l
    exact (mkLink_empty hk).2
  have hfin : (State.init links).finishedIds = [] := rfl
  refine ⟨⟨?_, ?_, ?_, ?_, ?_, ?_, ?_, ?_, ?_, ?_, ?_, ?_⟩, ?_, ?_, ?_⟩
  · intro l
    obtain ⟨⟨k, a, hk⟩, _⟩ := hl l
    exact (mkLink_empty hk).1
  · intro v
    have e1 : c.nodeIds.flatMap (State.init links).queue = [] := by
      rw [List.flatMap_eq_nil_iff]; intro n _; rfl
    have e2 : c.linkIds.flatMap (State.init links).on = [] := by
      rw [List.flatMap_eq_nil_iff]; intro n _; exact hempty n
    unfold State.places
    rw [e1, e2]; rfl
  · exact List.nodup_nil
  · intro v hv; simp [State.init] at hv
  · rfl
  · rfl
  · intro v hv; simp [State.init] at hv
  · intro v hv; simp [State.init] at hv
  · intro v hv; rw [hfin] at hv; simp at hv
  · rw [hfin]; rfl
  · intro l
    rcases (hl l).2 with ⟨h1, h2⟩ | ⟨h1, h2⟩ <;> simp [BothCurves, State.init, h1, h2]
  · intro l ki ko hi ho
    rw [hempty l]
    rcases (hl l).2 with ⟨h1, h2⟩ | ⟨h1, h2⟩
    · simp [State.init, h1] at hi
    · simp only [State.init, h1, Option.some.injEq] at hi
      simp only [State.init, h2, Option.some.injEq] at ho
      subst hi; subst ho
      simp
  · intro v hv; simp [State.init] at hv
  · intro v hv; rw [hfin] at hv; simp at hv
  · intro d _; rfl

end Verif.Net

import Verif.Props.Node
import Verif.Lemmas.NetInv

/-! # Properties of the whole loading (C28-C31, C53) -/

namespace Verif
open Net Ults Curve Lnk

/-! ## C28 -/

/-- C28, every sequence of calls: the number of vehicles made is the number en route plus the number
finished, and the IDs handed out are 1, 2, 3, ..., so none is reused. -/
theorem C28_factory_counts (links : ℕ → LinkSt) (ops : List FactoryOp) :
    let r := runFactory (State.init links) ops
    (r.1.numVeh : ℤ) = r.1.enroute + r.1.finished ∧ r.2 = List.range' 1 r.1.numVeh := by
  have key : ∀ (ops : List FactoryOp) (s : State), (s.numVeh : ℤ) = s.enroute + s.finished →
      ((runFactory s ops).1.numVeh : ℤ) = (runFactory s ops).1.enroute + (runFactory s ops).1.finished
      ∧ s.numVeh ≤ (runFactory s ops).1.numVeh
      ∧ (runFactory s ops).2
        = List.range' (s.numVeh + 1) ((runFactory s ops).1.numVeh - s.numVeh) := by
    intro ops
    induction ops with
    | nil => intro s h; exact ⟨h, le_refl _, by simp [runFactory]⟩
    | cons op ops ih =>
      intro s h
      simp only [runFactory]
      cases op with
      | make st ad o d a l =>
        simp only [FactoryOp.run]
        obtain ⟨h1, h2, h3⟩ := ih (s.makeVeh st ad o d a l) (by
          simp only [State.makeVeh]; push_cast; omega)
        refine ⟨h1, ?_, ?_⟩
        · simp only [State.makeVeh] at h2 ⊢; omega
        · rw [h3]
          simp only [State.makeVeh] at h2 ⊢
          generalize (runFactory _ ops).1.numVeh = m at h2 ⊢
          have e : m - s.numVeh = (m - (s.numVeh + 1)) + 1 := by omega
          rw [e, List.range'_succ]
          simp
      | remove v del =>
        simp only [FactoryOp.run]
        have hs : (((s.removeFinished v del).stateOr s).numVeh : ℤ)
            = ((s.removeFinished v del).stateOr s).enroute + ((s.removeFinished v del).stateOr s).finished
            ∧ ((s.removeFinished v del).stateOr s).numVeh = s.numVeh := by
          unfold State.removeFinished
          split
          · refine ⟨?_, rfl⟩
            show (s.numVeh : ℤ) = (s.enroute - 1) + ((s.finished + 1 : ℕ) : ℤ)
            push_cast; omega
          · exact ⟨h, rfl⟩
        obtain ⟨h1, h2, h3⟩ := ih _ hs.1
        rw [hs.2] at h2 h3
        exact ⟨h1, h2, by rw [h3]; simp⟩
  obtain ⟨h1, _, h3⟩ := key ops (State.init links) rfl
  exact ⟨h1, by rw [h3]; simp [State.init]⟩

example : (fun r : State × List ℕ => (r.1.numVeh, r.1.enroute, r.1.finished, r.2))
    (runFactory (State.init fun _ => ⟨.pq ⟨1, 1, 1, 1, 1, 1, 1, 1, [], 0, [], []⟩, none, none⟩)
      [.make 0 false 0 0 0 0, .make 0 false 0 0 0 0, .remove 1 true, .remove 1 true,
        .make 3 true 0 0 1 0]) = (3, 2, 1, [1, 2, 3]) := by decide +kernel

/-- C28: removing a vehicle that the factory does not know raises an exception, and removing a known
one counts it as finished. -/
theorem C28_remove (s : State) (v : ℕ) (del : Bool) :
    (v ∉ s.vehMap → s.removeFinished v del = .throw "vehicle not found") ∧
    (v ∈ s.vehMap → ∃ s', s.removeFinished v del = .ok s' ∧ s'.finished = s.finished + 1 ∧
      s'.enroute = s.enroute - 1 ∧ s'.numVeh = s.numVeh ∧
      s'.totalTime = s.totalTime + (((s.vehs v).finish - (s.vehs v).start : ℤ) : ℚ) ∧
      s'.vehMap = if del then s.vehMap.erase v else s.vehMap) := by
  unfold State.removeFinished
  constructor
  · intro h; rw [if_neg h]
  · intro h; rw [if_pos h]; exact ⟨_, rfl, rfl, rfl, rfl, rfl, rfl⟩

/-! ## C29 -/

/-- C29, every network, every demand, every routing, any mix of link and node models, any number of
intervals and all random outcomes: when the intervals have been loaded, every vehicle released so
far is either in exactly one place (a queue at an origin or destination node, or a link) and not
finished, or nowhere and finished; no other vehicle is anywhere; and the factory's counters agree. -/
theorem C29_network_conservation (c : Cfg) (hc : c.Ok) (hsc : c.scalar ≠ 0) (s : State) (hs : Fresh s)
    (os : List StepOracle) (hos : ∀ o ∈ os, o.Ok c) (assign : ℕ) (r : State × ℕ × ℕ)
    (h : loadMany c os 0 assign s = .ok r) :
    (∀ v, 1 ≤ v → v ≤ r.1.numVeh →
      ((r.1.places c).count v = 1 ∧ (r.1.vehs v).finish = -1) ∨
      ((r.1.places c).count v = 0 ∧ 0 ≤ (r.1.vehs v).finish ∧ (r.1.vehs v).finish < os.length)) ∧
    (∀ v, v = 0 ∨ r.1.numVeh < v → (r.1.places c).count v = 0) ∧
    r.1.numVeh = (r.1.places c).length + r.1.finished ∧ r.1.enroute = (r.1.places c).length := by
  obtain ⟨I, hts⟩ := loadMany_inv hc hsc os 0 assign s r hos (fresh_inv hs) h
  have hp : (r.1.places c).Perm r.1.vehMap := by
    rw [List.perm_iff_count]; exact I.core.place
  refine ⟨?_, ?_, ?_, ?_⟩
  · intro v h1 h2
    rw [I.core.place v]
    by_cases hv : v ∈ r.1.vehMap
    · exact Or.inl ⟨List.count_eq_one_of_mem I.core.nodup hv, I.core.finIn v hv⟩
    · have hm := mem_finishedIds.2 ⟨h1, h2, hv⟩
      have a1 := I.core.finOut v hm
      have a2 := I.finish v hm
      rw [hts] at a2
      refine Or.inr ⟨List.count_eq_zero.2 hv, by omega, by simpa using a2⟩
  · intro v hv
    rw [I.core.place v, List.count_eq_zero]
    intro hm
    have := I.core.range v hm
    omega
  · rw [hp.length_eq]; exact I.core.len.symm
  · rw [hp.length_eq]; exact I.core.enroute

namespace NetEx

/-- Two point-queue links in a row: origin node 1, junction 2, destination node 3. -/
def cfg : Cfg where
  scalar := 1
  assignFreq := 2
  totalAssign := 2
  linkIds := [10, 11]
  nodeIds := [1, 2, 3]
  node n := if n = 1 then .origin [10] else if n = 2 then .fwj [10] [11] else .dest [11]
  toNode l := if l = 10 then 2 else 3
  outLinks n := if n = 1 then [10] else if n = 2 then [11] else []
  originIds := [100]
  origin _ := ⟨1, 2, [(200, fun k => if k = 0 then 3 else 1)], fun _ => none, []⟩
  destIds := [200]
  destNode _ := 3

/-- Links with both curves. -/
def links (l : ℕ) : LinkSt :=
  ⟨match (mkLink .pq ⟨1, 1, 1, 1, 1, 1, 1⟩ : Res (Link ℕ)) with
    | .ok x => x
    | _ => .pq ⟨l, 1, 1, 1, 1, 1, 1, 1, [], 0, [], []⟩, some install, some install⟩

/-- The only path uses both links. -/
def orc : StepOracle where
  release _ := ⟨fun _ => 0, fun _ => 0, fun _ => 0, List.reverse⟩
  ratio := some 0
  routing := .fixed ⟨fun _ _ => some [(5, 1)], fun _ => [10, 11]⟩
  route := ⟨fun _ => 1 / 2, fun _ => 0⟩
  node n := ⟨fun _ _ => 0, fun _ => [], fun _ => if n = 1 then [] else [0]⟩
  link _ _ := 0

theorem cfg_ok : cfg.Ok := by
  refine ⟨by decide, by decide, ?_, ?_, ?_, ?_⟩
  · intro n hn
    have h : n = 1 ∨ n = 2 ∨ n = 3 := by simpa [cfg] using hn
    rcases h with rfl | rfl | rfl <;> simp [cfg, Node.ins]
  · intro n hn
    have h : n = 1 ∨ n = 2 ∨ n = 3 := by simpa [cfg] using hn
    rcases h with rfl | rfl | rfl <;> simp [cfg, Node.outs]
  · intro o _; simp [cfg]
  · intro d _; simp [cfg]

theorem orc_ok : orc.Ok cfg := by
  refine ⟨?_, ?_, ?_⟩
  · intro _ l; exact List.reverse_perm l
  · intro n k
    by_cases h : n = 1
    · subst h; simp [orc, cfg, Node.ins]
    · by_cases h' : n = 2
      · subst h'; simp [orc, cfg, Node.ins, List.range_succ]
      · simp [orc, cfg, Node.ins, h, h', List.range_succ]
  · intro n i j; exact le_refl _

theorem fresh : Fresh (State.init links) := by
  refine ⟨links, rfl, fun l => ⟨⟨.pq, ⟨1, 1, 1, 1, 1, 1, 1⟩, ?_⟩, Or.inr ⟨rfl, rfl⟩⟩⟩
  have h : ((mkLink .pq ⟨1, 1, 1, 1, 1, 1, 1⟩ : Res (Link ℕ)).bind fun _ => .ok ()) = .ok () := by
    decide +kernel
  rw [Res.bind_eq_ok'] at h
  obtain ⟨x, hx, _⟩ := h
  simp only [links, hx]

end NetEx

example : ((loadMany NetEx.cfg (List.replicate 4 NetEx.orc) 0 0 (State.init NetEx.links)).bind fun r =>
    .ok (r.1.numVeh, r.1.places NetEx.cfg, r.1.finished, (r.1.vehs 2).finish)) = .ok (4, [1, 4], 2, 3) := by
  decide +kernel

/-! ## C30 -/

/-- C30: on every instrumented link, after any number of intervals, the entry curve's total minus
the exit curve's total, times the flow scalar, is the number of vehicles on the link. -/
theorem C30_curves_count_vehicles (c : Cfg) (hc : c.Ok) (hsc : c.scalar ≠ 0) (s : State) (hs : Fresh s)
    (os : List StepOracle) (hos : ∀ o ∈ os, o.Ok c) (assign : ℕ) (r : State × ℕ × ℕ)
    (h : loadMany c os 0 assign s = .ok r) (l : ℕ) (nIn nOut : Curve)
    (hin : (r.1.links l).nIn = some nIn) (hout : (r.1.links l).nOut = some nOut) :
    (total nIn - total nOut) * c.scalar = (r.1.on l).length ∧
    (0 < c.scalar → total nOut ≤ total nIn) := by
  obtain ⟨I, _⟩ := loadMany_inv hc hsc os 0 assign s r hos (fresh_inv hs) h
  have e := I.core.cc l nIn nOut hin hout
  constructor
  · rw [e]; field_simp
  · intro hp
    have : (0 : ℚ) ≤ (r.1.on l).length / c.scalar := by positivity
    linarith

example : ((loadMany NetEx.cfg (List.replicate 4 NetEx.orc) 0 0 (State.init NetEx.links)).bind fun r =>
    .ok ((r.1.links 11).nIn, (r.1.links 11).nOut, r.1.on 11))
      = .ok (some [(0, 0), (2, 1), (3, 2), (4, 3)], some [(0, 0), (3, 1), (4, 2)], [4]) := by
  decide +kernel

/-! ## C31 -/

/-- C31: after any number of intervals the total travel time is the sum, over all vehicles that have
finished, of finish minus start time, and each of these is positive. -/
theorem C31_total_travel_time (c : Cfg) (hc : c.Ok) (hsc : c.scalar ≠ 0) (s : State) (hs : Fresh s)
    (os : List StepOracle) (hos : ∀ o ∈ os, o.Ok c) (assign : ℕ) (r : State × ℕ × ℕ)
    (h : loadMany c os 0 assign s = .ok r) :
    r.1.totalTime = (((List.range' 1 r.1.numVeh).filter fun v => decide ((r.1.vehs v).finish ≠ -1)).map
      fun v => (((r.1.vehs v).finish - (r.1.vehs v).start : ℤ) : ℚ)).sum ∧
    ∀ v, 1 ≤ v → v ≤ r.1.numVeh → (r.1.vehs v).finish ≠ -1 →
      0 ≤ (r.1.vehs v).start ∧ (r.1.vehs v).start < (r.1.vehs v).finish := by
  obtain ⟨I, _⟩ := loadMany_inv hc hsc os 0 assign s r hos (fresh_inv hs) h
  have hiff : ∀ v, 1 ≤ v → v ≤ r.1.numVeh → ((r.1.vehs v).finish ≠ -1 ↔ v ∉ r.1.vehMap) := by
    intro v h1 h2
    constructor
    · intro hf hv; exact hf (I.core.finIn v hv)
    · intro hv hf
      have := I.core.finOut v (mem_finishedIds.2 ⟨h1, h2, hv⟩)
      omega
  constructor
  · rw [I.core.time]
    unfold State.finishedIds
    have e : (List.range' 1 r.1.numVeh).filter (fun v => decide (v ∉ r.1.vehMap))
        = (List.range' 1 r.1.numVeh).filter (fun v => decide ((r.1.vehs v).finish ≠ -1)) := by
      apply List.filter_congr
      intro v hv
      rw [List.mem_range'_1] at hv
      have := hiff v hv.1 (by omega)
      simp only [decide_eq_decide]
      exact this.symm
    rw [e]
    rfl
  · intro v h1 h2 h3
    exact I.core.finOut v (mem_finishedIds.2 ⟨h1, h2, (hiff v h1 h2).1 h3⟩)

/-- C31: the reported statistics after any number of intervals are the number of released vehicles,
the hours spent by all of them until they finished or until now, the number en route and the number
finished, in flow units. -/
theorem C31_travel_stats (c : Cfg) (hc : c.Ok) (hsc : c.scalar ≠ 0) (s : State) (hs : Fresh s)
    (os : List StepOracle) (hos : ∀ o ∈ os, o.Ok c) (assign : ℕ) (r : State × ℕ × ℕ) (unit : ℚ)
    (h : loadMany c os 0 assign s = .ok r) :
    travelStats c unit r.2.1 r.1 = (r.1.numVeh / c.scalar,
      ((List.range' 1 r.1.numVeh).map
        fun v => ((endTime r.1 os.length v - (r.1.vehs v).start : ℤ) : ℚ)).sum * unit / 3600 / c.scalar,
      (r.1.places c).length / c.scalar, (r.1.numVeh - (r.1.places c).length) / c.scalar) := by
  obtain ⟨I, hts⟩ := loadMany_inv hc hsc os 0 assign s r hos (fresh_inv hs) h
  have hp : (r.1.places c).Perm r.1.vehMap := by
    rw [List.perm_iff_count]; exact I.core.place
  have hall : (List.range' 1 r.1.numVeh).Perm (r.1.finishedIds ++ r.1.vehMap) := by
    rw [List.perm_ext_iff_of_nodup List.nodup_range']
    · intro v
      rw [List.mem_append, mem_finishedIds, List.mem_range'_1]
      constructor
      · intro hv
        by_cases hm : v ∈ r.1.vehMap
        · exact Or.inr hm
        · exact Or.inl ⟨hv.1, by omega, hm⟩
      · rintro (hv | hv)
        · omega
        · have := I.core.range v hv; omega
    · rw [List.nodup_append]
      refine ⟨finishedIds_nodup _, I.core.nodup, ?_⟩
      intro a ha b hb e
      subst e
      exact (mem_finishedIds.1 ha).2.2 hb
  have hlen := I.core.len
  have hl : ((r.1.places c).length : ℚ) = r.1.vehMap.length := by rw [hp.length_eq]
  have hn : ((r.1.finished + r.1.vehMap.length : ℕ) : ℚ) = r.1.numVeh := by
    rw [← hlen]; push_cast; ring
  have hf : (r.1.finished : ℚ) = r.1.numVeh - r.1.vehMap.length := by rw [← hn]; push_cast; ring
  have he : (r.1.enroute : ℚ) = r.1.vehMap.length := by rw [I.core.enroute]; simp
  have hsum : ∀ (l : List ℕ) (g : ℕ → ℚ), (l.map fun v => g v * unit / 3600).sum
      = (l.map g).sum * unit / 3600 := by
    intro l g
    induction l with
    | nil => simp
    | cons a l ih => simp only [List.map_cons, List.sum_cons, ih]; ring
  unfold travelStats
  simp only
  rw [hl, he, hn, hf, (hall.map _).sum_eq, List.map_append, List.sum_append, I.core.time,
    hsum r.1.vehMap fun v => (((r.2.1 : ℤ) - (r.1.vehs v).start : ℤ) : ℚ), hts]
  have e1 : r.1.finishedIds.map (fun v => ((endTime r.1 os.length v - (r.1.vehs v).start : ℤ) : ℚ))
      = r.1.finishedIds.map r.1.tt := by
    apply List.map_congr_left
    intro v hv
    have := I.core.finOut v hv
    have hne : (r.1.vehs v).finish ≠ -1 := by omega
    simp [State.tt, endTime, hne]
  have e2 : r.1.vehMap.map (fun v => ((endTime r.1 os.length v - (r.1.vehs v).start : ℤ) : ℚ))
      = r.1.vehMap.map (fun v => ((((0 + os.length : ℕ) : ℤ) - (r.1.vehs v).start : ℤ) : ℚ)) := by
    apply List.map_congr_left
    intro v hv
    simp [endTime, I.core.finIn v hv]
  rw [e1, e2]
  refine Prod.ext rfl (Prod.ext ?_ rfl)
  simp only
  ring

example : ((loadMany NetEx.cfg (List.replicate 5 NetEx.orc) 0 0 (State.init NetEx.links)).bind fun r =>
    .ok (travelStats NetEx.cfg 5 r.2.1 r.1, r.1.totalTime)) = .ok ((4, 12 * 5 / 3600, 1, 3), 7) := by
  decide +kernel

/-! ## C53 -/

/-- C53: one release of an origin makes for every destination in the demand table the scaled demand
rounded down or, when the draw is below the fractional part, rounded up; every new vehicle has the
right origin, destination, start time and assignment interval; they join the queue of the origin's
node, which is then in some order; and nothing else changes. -/
theorem C53_release (c : Cfg) (oid : ℕ) (hoid : oid ∈ c.originIds) (orc : ReleaseOracle)
    (hsh : ∀ l, (orc.shuffle l).Perm l) (ts assign : ℕ) (ratio : ℚ) (s s' : State)
    (hdem : ∀ p ∈ (c.origin oid).demand, 0 ≤ p.2 assign * c.scalar)
    (h : releaseOne c.scalar (c.origin oid) oid orc ts assign ratio s = .ok s') :
    ∃ ns : List ℕ, ns.length = (c.origin oid).demand.length ∧
      (∀ (k n d : ℕ) f, (c.origin oid).demand[k]? = some (d, f) → ns[k]? = some n →
        ((n : ℤ) = ⌊f assign * c.scalar⌋ ∧ Int.fract (f assign * c.scalar) ≤ orc.u k) ∨
        ((n : ℤ) = ⌊f assign * c.scalar⌋ + 1 ∧ orc.u k < Int.fract (f assign * c.scalar))) ∧
      s'.numVeh = s.numVeh + ns.sum ∧
      (List.range' (s.numVeh + 1) ns.sum).map (fun v => (s'.vehs v).dest)
        = ((c.origin oid).demand.zip ns).flatMap (fun p => List.replicate p.2 p.1.1) ∧
      (∀ v, s.numVeh < v → v ≤ s'.numVeh → (s'.vehs v).origin = oid ∧ (s'.vehs v).start = ts ∧
        (s'.vehs v).finish = -1 ∧ (s'.vehs v).assign = ((ts / (c.origin oid).freq : ℕ) : ℤ)) ∧
      (∀ v, v ≤ s.numVeh → s'.vehs v = s.vehs v) ∧
      (s'.queue (c.origin oid).node).Perm
        (s.queue (c.origin oid).node ++ List.range' (s.numVeh + 1) ns.sum) ∧
      (∀ n, n ≠ (c.origin oid).node → s'.queue n = s.queue n) ∧ s'.links = s.links := by
  unfold releaseOne at h
  split at h
  · simp at h
  rw [Res.bind_eq_ok'] at h
  obtain ⟨s1, h1, h2⟩ := h
  cases h2
  obtain ⟨ns, a1, a2, a3, a4, a5, _⟩ := releaseDests_detail hoid orc _ _ _ _ _ h1
  obtain ⟨m, R, hq, ho⟩ := releaseDests_rel hoid orc _ _ _ _ _ h1
  have hm : m = ns.sum := by have := R.num; omega
  subst hm
  refine ⟨ns, a1, ?_, a2, a4, ?_, ?_, ?_, ?_, R.links⟩
  · intro k n d f hk hn
    have := a3 k d f hk
    rw [hn, Nat.zero_add] at this
    simp only [Option.some.injEq] at this
    have h0 : 0 ≤ f assign * c.scalar := hdem (d, f) (List.mem_of_getElem? hk)
    have hnn := roundVal_natCast_nonneg (u := orc.u k) h0
    have hz : (n : ℤ) = roundVal (f assign * c.scalar) (orc.u k) := by rw [this]; omega
    rw [hz, roundVal_nonneg h0]
    split
    · rename_i hf; exact Or.inr ⟨rfl, hf⟩
    · rename_i hf; exact Or.inl ⟨rfl, not_lt.1 hf⟩
  · intro v v1 v2
    have e := R.new v v1 (by simp only at v2; rw [← a2]; exact v2)
    have e' := a5 v v1 v2
    exact ⟨e'.1, e.1, e.2.1, e'.2⟩
  · intro v hv; exact R.old v (Or.inl hv)
  · simp only [upd_same]
    rw [← hq]; exact hsh _
  · intro n hn
    simp only
    rw [upd_other _ _ _ _ hn]
    exact ho n hn

example : ((releaseOne NetEx.cfg.scalar (NetEx.cfg.origin 100) 100 (NetEx.orc.release 100) 0 0 0
      (State.init NetEx.links)).bind fun s => .ok (s.numVeh, s.queue 1, (s.vehs 2).dest))
    = .ok (3, [3, 2, 1], 200) := by decide +kernel

/-! ## C61 -/

/-- C61, without ratios of single destinations: a released vehicle is adaptive exactly when the
ratio says so: never for 0, always for 1, and otherwise when the draw is at most the ratio. -/
theorem C61_adaptive_share_partial (c : Cfg) (oid : ℕ) (hoid : oid ∈ c.originIds) (orc : ReleaseOracle)
    (ts assign : ℕ) (ratio : ℚ) (s s' : State)
    (hnone : ∀ p ∈ (c.origin oid).demand, (c.origin oid).adaptiveRatio p.1 = none)
    (h : releaseOne c.scalar (c.origin oid) oid orc ts assign ratio s = .ok s') (v : ℕ)
    (h1 : s.numVeh < v) (h2 : v ≤ s'.numVeh) :
    (s'.vehs v).adaptive = true ↔ ratio ≠ 0 ∧ (ratio = 1 ∨ orc.r v ≤ ratio) := by
  unfold releaseOne at h
  split at h
  · simp at h
  rw [Res.bind_eq_ok'] at h
  obtain ⟨s1, e1, e2⟩ := h
  cases e2
  obtain ⟨ns, _, _, _, _, _, a6⟩ := releaseDests_detail hoid orc _ _ _ _ _ e1
  refine a6 ?_ v h1 h2
  intro d hd
  rw [List.mem_map] at hd
  obtain ⟨p, hp, rfl⟩ := hd
  exact hnone p hp

/-- C61 is false when destinations have their own ratios: the ratio of one destination stays in
force for the following ones.  The origin's ratio is 0; destination 1 has its own ratio 1;
destination 2 has none, and its vehicle comes out adaptive. -/
theorem C61_ratio_leaks :
    let o : Origin := ⟨7, 1, [(1, fun _ => 1), (2, fun _ => 1)],
      fun d => if d = 1 then some (fun _ => 1) else none, []⟩
    ((releaseOne 1 o 100 ⟨fun _ => 0, fun _ => 1 / 2, fun _ => 0, id⟩ 0 0 0
      (State.init NetEx.links)).bind fun s => .ok ((s.vehs 2).dest, (s.vehs 2).adaptive))
    = .ok (2, true) := by
  decide +kernel

/-! ## C62 -/

/-- C62 is false: `release_one_interval` shuffles the whole queue of the origin's node, so a vehicle
released earlier can be overtaken by one released later, for the same exit and destination.  In this
run vehicle 1 is released in interval 0 and vehicle 4 in interval 2; vehicle 4 enters the network in
interval 2 and vehicle 1 in interval 3. -/
theorem C62_overtaking_at_origin :
    ((loadMany NetEx.cfg (List.replicate 6 NetEx.orc) 0 0 (State.init NetEx.links)).bind fun r =>
      .ok ((r.1.vehs 1).start, (r.1.vehs 4).start,
        r.1.log.filter fun e => decide (e.dst = some 10 ∧ (e.veh = 1 ∨ e.veh = 4))))
    = .ok (0, 2, [⟨2, 4, none, some 10⟩, ⟨3, 1, none, some 10⟩]) := by
  decide +kernel

/-- C62, what holds of a single interval: for every exit the vehicles that enter it are an initial
segment of those queued for it, in queue order, and the rest stay in order.  Missing: the order
between intervals, which a release destroys. -/
theorem C62_order_within_interval_partial (scalar : ℚ) (hsc : 0 < scalar) (ts node : ℕ)
    (outs : List ℕ) (u : ℕ → ℚ) (hu : ∀ k, 0 ≤ u k) (s s' : State)
    (h : originEvolve scalar ts node outs u s = .ok s') (houts : outs.Nodup)
    (hpos : ∀ o ∈ outs, ∀ x, (s.links o).link.supply = .ok x → 0 ≤ x) (o : ℕ) (ho : o ∈ outs) :
    ∃ entered, s'.inc o = s.inc o ++ entered ∧
      s.queued node o = entered ++ s'.queued node o := by
  obtain ⟨h1, _⟩ := C26_origin_release scalar hsc ts node outs u hu s s' h houts hpos
  obtain ⟨k, hk⟩ := List.getElem?_of_mem ho
  obtain ⟨_, n, _, e1, e2, _⟩ := h1 k o hk
  exact ⟨_, e1, by rw [e2, List.take_append_drop]⟩

end Verif

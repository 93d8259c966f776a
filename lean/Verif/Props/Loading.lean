import Verif.Lemmas.Adaptive
import Verif.Props.Net
import Verif.Props.ShortestPath

/-! # Labels of vehicles, adaptive routing and the end of loading (C73-C75) -/

namespace Verif
open Net Ults Curve Lnk

/-! ## C73 -/

/-- C73, every origin with label ratios that are not negative and add up to one, every release, every
vehicle made in it and every draw between zero and one: the label is the number of a ratio (counted
from zero); the draw lies above the sum of the ratios before it and, up to the relative tolerance, not
above that plus the ratio itself; and a label of ratio zero only comes from the draw zero. -/
theorem C73_label_in_bracket (c : Cfg) (oid : ℕ) (hoid : oid ∈ c.originIds) (orc : ReleaseOracle)
    (ts assign : ℕ) (ratio : ℚ) (s s' : State)
    (h : releaseOne c.scalar (c.origin oid) oid orc ts assign ratio s = .ok s') (v : ℕ)
    (h1 : s.numVeh < v) (h2 : v ≤ s'.numVeh) (hp : ∀ p ∈ (c.origin oid).labels, 0 ≤ p)
    (hsum : (c.origin oid).labels.sum = 1) (hr : 0 ≤ orc.l v) (hr1 : orc.l v ≤ 1) :
    ∃ before w after, (c.origin oid).labels = before ++ w :: after ∧
      (s'.vehs v).label = before.length ∧ (before ≠ [] → before.sum < orc.l v) ∧
      orc.l v - before.sum ≤ w + 1 / 10000 * max |w| |orc.l v - before.sum| ∧
      (w = 0 → before = [] ∧ orc.l v = 0) := by
  unfold releaseOne at h
  split at h
  · simp at h
  rw [Res.bind_eq_ok'] at h
  obtain ⟨s1, e1, e2⟩ := h
  cases e2
  have e := releaseDests_label hoid orc _ _ _ _ _ e1 v h1 h2
  have hne : (c.origin oid).labels ≠ [] := by intro e; rw [e] at hsum; simp at hsum
  have hall : ((c.origin oid).labels.all fun p => decide (p ≤ 0)) = false := by
    rw [Bool.eq_false_iff]
    intro ht
    rw [List.all_eq_true] at ht
    have h0 : ∀ p ∈ (c.origin oid).labels, p = 0 := fun p hp' =>
      le_antisymm (by simpa using ht p hp') (hp p hp')
    rw [List.sum_eq_zero h0] at hsum
    norm_num at hsum
  obtain ⟨a, w, b, q1, q2, q3, q4, q5⟩ :=
    labelScan_spec (c.origin oid).labels (orc.l v) 0 hp hr (by rw [hsum]; exact hr1) hne
  refine ⟨a, w, b, q1, ?_, q3, q4, q5⟩
  rw [show ({ s1 with queue := _ } : State).vehs = s1.vehs from rfl, e]
  unfold generateLabel
  rw [hall]
  simpa using q2

/-- Without ratios, or when all of them are zero, vehicles have no label (-1). -/
theorem C73_no_label (c : Cfg) (oid : ℕ) (hoid : oid ∈ c.originIds) (orc : ReleaseOracle)
    (ts assign : ℕ) (ratio : ℚ) (s s' : State)
    (h : releaseOne c.scalar (c.origin oid) oid orc ts assign ratio s = .ok s') (v : ℕ)
    (h1 : s.numVeh < v) (h2 : v ≤ s'.numVeh) (hp : ∀ p ∈ (c.origin oid).labels, p = 0) :
    (s'.vehs v).label = -1 := by
  unfold releaseOne at h
  split at h
  · simp at h
  rw [Res.bind_eq_ok'] at h
  obtain ⟨s1, e1, e2⟩ := h
  cases e2
  have e := releaseDests_label hoid orc _ _ _ _ _ e1 v h1 h2
  rw [show ({ s1 with queue := _ } : State).vehs = s1.vehs from rfl, e]
  unfold generateLabel
  rw [if_pos]
  rw [List.all_eq_true]
  intro p hp'
  simp [hp p hp']

/-- An origin whose vehicles have labels 0, 1, 2 with ratios 1/4, 0, 3/4; three vehicles with draws
1/8, 1/2 and 1. -/
example :
    let o : Origin := ⟨1, 2, [(200, fun _ => 3)], fun _ => none, [1 / 4, 0, 3 / 4]⟩
    (∀ p ∈ o.labels, 0 ≤ p) ∧ o.labels.sum = 1 ∧
    ((releaseOne 1 o 100 ⟨fun _ => 0, fun _ => 0, fun v => [0, 1 / 8, 1 / 2, 1].getD v 0, id⟩ 0 0 0
      (State.init NetEx.links)).bind fun s => .ok ([1, 2, 3].map fun v => (s.vehs v).label))
    = .ok [0, 2, 2] := by
  decide +kernel

/-! ## C74 -/

/-- The trees a routing follows, if it has any. -/
def treesOf : Routing → Option Trees
  | .adaptive tr => some tr
  | .hybrid tr _ => some tr
  | _ => none

theorem treesOf_update {c : Cfg} {o : RouteOracle} {r : Routing} {tr : Trees} (hr : treesOf r = some tr)
    {s s' : State} (h : r.update c o s = .ok s') :
    ∃ s1, adaptiveRouting c tr o s = .ok s1 ∧ Routed s1 s' ∧
      ∀ v, (s1.vehs v).adaptive = true → (s'.vehs v).next = (s1.vehs v).next := by
  cases r with
  | random => simp [treesOf] at hr
  | fixed p => simp [treesOf] at hr
  | adaptive t =>
    simp only [treesOf, Option.some.injEq] at hr
    subst hr
    exact ⟨s', h, Routed.refl _, fun _ _ => rfl⟩
  | hybrid t p =>
    simp only [treesOf, Option.some.injEq] at hr
    subst hr
    simp only [Routing.update] at h
    rw [Res.bind_eq_ok'] at h
    obtain ⟨s1, h1, h2⟩ := h
    refine ⟨s1, h1, ?_, fun v hv => fixedRouting_keeps h2 v hv⟩
    exact routeAll_routed (fun _ _ _ _ h => fixedOrigin_routed h)
      (fun _ _ _ _ h => fixedLink_routed h) h2

/-- C74, every network, every history of intervals, adaptive or hybrid routing with any trees: once
routes have been updated, an adaptive vehicle in the queue of an origin node has as next link what
the tree of its own destination says for that node. -/
theorem C74_adaptive_at_origin (c : Cfg) (hc : c.Ok) (hsc : c.scalar ≠ 0) (s : State) (hs : Fresh s)
    (os : List StepOracle) (hos : ∀ o ∈ os, o.Ok c) (assign : ℕ) (r : State × ℕ × ℕ)
    (h : loadMany c os 0 assign s = .ok r) (o : StepOracle) (ho : o.Ok c) (tr : Trees)
    (htr : treesOf o.routing = some tr) (s1 s2 : State)
    (e1 : stepRelease c o r.2.1 r.2.2 r.1 = .ok s1) (e2 : o.routing.update c o.route s1 = .ok s2)
    (oid : ℕ) (hoid : oid ∈ c.originIds) (v : ℕ) (hv : v ∈ s2.queue (c.origin oid).node)
    (ha : (s2.vehs v).adaptive = true) :
    ∃ l ∈ c.linkIds, (s2.vehs v).next = some l ∧
      tr (s2.vehs v).dest (c.origin oid).node = some (l : ℤ) := by
  obtain ⟨I, _⟩ := loadMany_inv hc hsc os 0 assign s r hos (fresh_inv hs) h
  obtain ⟨k, R⟩ := stepRelease_rel ho e1
  have hco := I.core.rel hc R
  obtain ⟨s3, a1, a2, a3⟩ := treesOf_update htr e2
  have R3 : Routed s1 s3 := routeAll_routed (fun _ _ _ _ h => adaptiveOrigin_routed h)
    (fun _ _ _ _ h => adaptiveLink_routed h) a1
  have R2 := R3.trans a2
  rw [R2.adaptive] at ha
  rw [R2.queue] at hv
  obtain ⟨l, l1, l2, l3⟩ := adaptiveRouting_origin hc hco a1 oid hoid v hv ha
  exact ⟨l, l1, by rw [a3 v (by rw [R3.adaptive]; exact ha), l3], by rw [R2.dest, l2]⟩

/-- C74: an adaptive vehicle at the end of a link has no next link exactly when the link leads to its
destination.  Otherwise its next link is what the tree of its own destination says for the end of the
link or, where the tree says that the destination is out of reach, some link out of that node; and
the next link ends at the destination or where the tree knows a way on. -/
theorem C74_adaptive_at_link_end (c : Cfg) (hc : c.Ok) (hsc : c.scalar ≠ 0) (s : State) (hs : Fresh s)
    (os : List StepOracle) (hos : ∀ o ∈ os, o.Ok c) (assign : ℕ) (r : State × ℕ × ℕ)
    (h : loadMany c os 0 assign s = .ok r) (o : StepOracle) (ho : o.Ok c) (tr : Trees)
    (htr : treesOf o.routing = some tr) (s1 s2 : State)
    (e1 : stepRelease c o r.2.1 r.2.2 r.1 = .ok s1) (e2 : o.routing.update c o.route s1 = .ok s2)
    (l : ℕ) (hl : l ∈ c.linkIds) (v : ℕ) (hv : v ∈ s2.fin l) (ha : (s2.vehs v).adaptive = true) :
    ((s2.vehs v).next = none ↔ c.toNode l = c.destNode (s2.vehs v).dest) ∧
    ∀ k, (s2.vehs v).next = some k → k ∈ c.linkIds ∧
      (tr (s2.vehs v).dest (c.toNode l) = some (k : ℤ) ∨
        (tr (s2.vehs v).dest (c.toNode l) = some (-1) ∧ k ∈ c.outLinks (c.toNode l))) ∧
      (c.toNode k ≠ c.destNode (s2.vehs v).dest →
        ∃ e, tr (s2.vehs v).dest (c.toNode k) = some e ∧ e ≠ -1) := by
  obtain ⟨I, _⟩ := loadMany_inv hc hsc os 0 assign s r hos (fresh_inv hs) h
  obtain ⟨k, R⟩ := stepRelease_rel ho e1
  have hco := I.core.rel hc R
  obtain ⟨s3, a1, a2, a3⟩ := treesOf_update htr e2
  have R3 : Routed s1 s3 := routeAll_routed (fun _ _ _ _ h => adaptiveOrigin_routed h)
    (fun _ _ _ _ h => adaptiveLink_routed h) a1
  have R2 := R3.trans a2
  rw [R2.adaptive] at ha
  rw [R2.fin_eq] at hv
  have C := adaptiveRouting_link hc hco a1 l hl v hv ha
  rw [← a3 v (by rw [R3.adaptive]; exact ha), ← R2.dest] at C
  rcases C with ⟨q1, q2⟩ | ⟨q1, k, q2, q3, q4, q5⟩
  · exact ⟨⟨fun _ => q1, fun _ => q2⟩, fun k e => by rw [q2] at e; simp at e⟩
  · refine ⟨⟨fun e => by rw [q3] at e; simp at e, fun e => absurd e q1⟩, ?_⟩
    intro k' e
    rw [q3] at e
    cases e
    exact ⟨q2, q4, q5⟩

/-- C74 with the trees the code computes: they come from the queue-based shortest path algorithm on
the network's graph with the link costs `w d` of the latest update.  An adaptive vehicle in an origin
queue is given a link that leaves its node and begins a cheapest way to its own destination: the least
cost from the node is finite and equals the cost of the link plus the least cost from its end. -/
theorem C74_origin_takes_shortest_path (c : Cfg) (hc : c.Ok) (hsc : c.scalar ≠ 0) (s : State)
    (hs : Fresh s) (os : List StepOracle) (hos : ∀ o ∈ os, o.Ok c) (assign : ℕ) (r : State × ℕ × ℕ)
    (h : loadMany c os 0 assign s = .ok r) (o : StepOracle) (ho : o.Ok c) (tr : Trees)
    (htr : treesOf o.routing = some tr) (s1 s2 : State)
    (e1 : stepRelease c o r.2.1 r.2.2 r.1 = .ok s1) (e2 : o.routing.update c o.route s1 = .ok s2)
    (oid : ℕ) (hoid : oid ∈ c.originIds) (v : ℕ) (hv : v ∈ s2.queue (c.origin oid).node)
    (ha : (s2.vehs v).adaptive = true)
    (ops : List Graph.Op) (hn : ((c.origin oid).node : ℤ) ∈ Graph.nodeIds (Graph.run Graph.empty ops))
    (hd : ((c.destNode (s2.vehs v).dest : ℕ) : ℤ) ∈ Graph.nodeIds (Graph.run Graph.empty ops))
    (hne : (c.origin oid).node ≠ c.destNode (s2.vehs v).dest)
    (cost : ℤ → Option Sp.Cost) (w : ℤ → Sp.Cost) (hcost : Sp.Costs (Graph.run Graph.empty ops) cost w)
    (out : ℤ → Option ℤ)
    (htree : ∀ n0, ∃ fuel t, n0 ≤ fuel ∧ Sp.fifo fuel (Graph.run Graph.empty ops)
        (c.destNode (s2.vehs v).dest : ℕ) cost out = .ok t ∧
      ∀ n : ℕ, tr (s2.vehs v).dest n = t.out n) :
    ∃ l t dn dt, (s2.vehs v).next = some l ∧
      Graph.getEndpoints (Graph.run Graph.empty ops) (l : ℤ) = .ok (((c.origin oid).node : ℤ), t) ∧
      Sp.Least (Graph.run Graph.empty ops) w (c.origin oid).node (c.destNode (s2.vehs v).dest : ℕ) dn ∧
      Sp.Least (Graph.run Graph.empty ops) w t (c.destNode (s2.vehs v).dest : ℕ) dt ∧
      dn = w l + dt ∧ dn ≠ ⊤ := by
  obtain ⟨l, _, l2, l3⟩ := C74_adaptive_at_origin c hc hsc s hs os hos assign r h o ho tr htr s1 s2
    e1 e2 oid hoid v hv ha
  obtain ⟨n0, t, q1, q2⟩ := C37_fifo_shortest_paths ops _ hd cost w hcost out
  obtain ⟨fuel, t', hf, ht', htr'⟩ := htree n0
  rw [q1 fuel hf] at ht'
  cases ht'
  obtain ⟨d, d1, d2, d3, d4⟩ := q2 _ hn
  have hne' : ((c.origin oid).node : ℤ) ≠ (c.destNode (s2.vehs v).dest : ℕ) := by exact_mod_cast hne
  have hl := htr' (c.origin oid).node
  rw [l3] at hl
  have hfin : d ≠ ⊤ := by
    intro e
    have := d3 hne' e
    rw [← hl] at this
    simp at this
  obtain ⟨l', t', dt, p1, p2, p3, p4⟩ := d4 hne' hfin
  rw [← hl] at p1
  cases p1
  have ht' : t' ∈ Graph.nodeIds (Graph.run Graph.empty ops) :=
    ((Sp.ctx_of_run ops hcost).ends _ _ _ p2).2.1
  obtain ⟨dt', b1, b2, _⟩ := q2 _ ht'
  rw [p3] at b1
  cases b1
  exact ⟨l, t', d, dt, l2, p2, d2, b2, p4, hfin⟩

/-- Three adaptive vehicles on the network of `NetEx`. -/
def adaptiveOrc : StepOracle :=
  { NetEx.orc with
    ratio := some 1
    routing := .adaptive fun _ n => some (if n = 1 then 10 else if n = 2 then 11 else -1) }

example : ((loadMany NetEx.cfg (List.replicate 2 adaptiveOrc) 0 0 (State.init NetEx.links)).bind
    fun r => (stepRelease NetEx.cfg adaptiveOrc r.2.1 r.2.2 r.1).bind fun s1 =>
      (adaptiveOrc.routing.update NetEx.cfg adaptiveOrc.route s1).bind fun s2 =>
        .ok (s2.queue 1, s2.fin 10, [1, 2, 3].map fun v => ((s2.vehs v).adaptive, (s2.vehs v).next)))
    = .ok ([4, 1], [2], [(true, some 10), (true, some 11), (true, none)]) := by
  decide +kernel

/-! ## C75 -/

theorem next_assign {c : Cfg} {ts a0 : ℕ} :
    (if (ts + 1) % c.assignFreq = 0 then a0 + ts / c.assignFreq + 1 else a0 + ts / c.assignFreq)
      = a0 + (ts + 1) / c.assignFreq := by
  rw [Nat.succ_div]
  by_cases h : c.assignFreq ∣ ts + 1
  · rw [if_pos (Nat.mod_eq_zero_of_dvd h), if_pos h]; omega
  · rw [if_neg (fun e => h (Nat.dvd_of_mod_eq_zero e)), if_neg h]; omega

/-- C75, a configured number of intervals: loading, whatever happens in it, is the loading of exactly
as many intervals as configured, or of as many as it takes to get through all assignment intervals if
those are more. -/
theorem C75_configured_length (c : Cfg) (hf : 0 < c.assignFreq) (totalInterval : ℤ)
    (hT : 0 < totalInterval) (orc : ℕ → StepOracle) (start : ℕ) (s : State) (fuel : ℕ)
    (hfuel : max totalInterval.toNat ((c.totalAssign - start) * c.assignFreq) < fuel) :
    loading c totalInterval orc fuel 0 start s
      = loadMany c ((List.range (max totalInterval.toNat ((c.totalAssign - start) * c.assignFreq))).map orc)
          0 start s := by
  have key : ∀ (n ts fuel : ℕ) (s : State), n < fuel →
      n + ts = max totalInterval.toNat ((c.totalAssign - start) * c.assignFreq) →
      loading c totalInterval orc fuel ts (start + ts / c.assignFreq) s
        = loadMany c ((List.range' ts n).map orc) ts (start + ts / c.assignFreq) s := by
    intro n
    induction n with
    | zero =>
      intro ts fuel s hlt he
      obtain ⟨fuel, rfl⟩ : ∃ k, fuel = k + 1 := ⟨fuel - 1, by omega⟩
      have hg : goesOn c totalInterval ts (start + ts / c.assignFreq) s = false := by
        unfold goesOn
        simp only [if_pos hT]
        have a1 : (ts : ℤ) ≥ totalInterval := by omega
        have a2 : ¬ start + ts / c.assignFreq < c.totalAssign := by
          have : (c.totalAssign - start) * c.assignFreq ≤ ts := by omega
          have h3 : c.totalAssign - start ≤ ts / c.assignFreq := (Nat.le_div_iff_mul_le hf).2 this
          omega
        simp [a1, a2]
      simp [loading, loadMany, hg]
    | succ n ih =>
      intro ts fuel s hlt he
      obtain ⟨fuel, rfl⟩ : ∃ k, fuel = k + 1 := ⟨fuel - 1, by omega⟩
      have hg : goesOn c totalInterval ts (start + ts / c.assignFreq) s = true := by
        unfold goesOn
        simp only [if_pos hT]
        by_cases a1 : (ts : ℤ) ≥ totalInterval
        · have a2 : start + ts / c.assignFreq < c.totalAssign := by
            have : ts < (c.totalAssign - start) * c.assignFreq := by omega
            have h3 : ts / c.assignFreq < c.totalAssign - start := (Nat.div_lt_iff_lt_mul hf).2 this
            generalize ts / c.assignFreq = q at h3 ⊢
            omega
          simp [a2]
        · simp [a1]
      rw [List.range'_succ, List.map_cons]
      simp only [loading, hg, if_true, loadMany]
      congr 1
      funext s'
      rw [next_assign]
      exact ih (ts + 1) fuel s' (by omega) (by omega)
  have := key _ 0 fuel s hfuel (by omega)
  simpa [List.range_eq_range'] using this

/-- C75, no configured number of intervals: if loading ends after `n` intervals then it has got
through all assignment intervals, every vehicle released has finished, and at no earlier interval
(but the very beginning) was that so. -/
theorem C75_runs_until_empty (c : Cfg) (hf : 0 < c.assignFreq) (totalInterval : ℤ)
    (hT : totalInterval ≤ 0) (orc : ℕ → StepOracle) (start : ℕ) (s : State) (fuel : ℕ)
    (r : State × ℕ × ℕ) (h : loading c totalInterval orc fuel 0 start s = .ok r) :
    ∃ n, 1 ≤ n ∧ loadMany c ((List.range n).map orc) 0 start s = .ok r ∧ r.2.1 = n ∧
      c.totalAssign ≤ start + n / c.assignFreq ∧ r.1.finished = r.1.numVeh ∧
      ∀ m, 1 ≤ m → m < n → ∃ r', loadMany c ((List.range m).map orc) 0 start s = .ok r' ∧
        (start + m / c.assignFreq < c.totalAssign ∨ r'.1.finished ≠ r'.1.numVeh) := by
  have key : ∀ (fuel ts : ℕ) (s : State), loading c totalInterval orc fuel ts
      (start + ts / c.assignFreq) s = .ok r →
      ∃ n, 1 ≤ n + ts ∧ loadMany c ((List.range' ts n).map orc) ts (start + ts / c.assignFreq) s = .ok r ∧
        r.2.1 = n + ts ∧ c.totalAssign ≤ start + (n + ts) / c.assignFreq ∧ r.1.finished = r.1.numVeh ∧
        ∀ m, 1 ≤ m + ts → m < n → ∃ r', loadMany c ((List.range' ts m).map orc) ts
            (start + ts / c.assignFreq) s = .ok r' ∧
          (start + (m + ts) / c.assignFreq < c.totalAssign ∨ r'.1.finished ≠ r'.1.numVeh) := by
    intro fuel
    induction fuel with
    | zero => intro ts s h; simp [loading] at h
    | succ fuel ih =>
      intro ts s h
      simp only [loading] at h
      have hg : goesOn c totalInterval ts (start + ts / c.assignFreq) s = true ↔
          (s.numVeh ≠ s.finished ∨ ts = 0) ∨ start + ts / c.assignFreq < c.totalAssign := by
        unfold goesOn
        simp [not_lt.2 hT]
      split at h
      · rename_i hgo
        rw [Res.bind_eq_ok'] at h
        obtain ⟨s1, hs1, h⟩ := h
        rw [next_assign] at h
        obtain ⟨n, b1, b2, b3, b4, b5, b6⟩ := ih (ts + 1) s1 h
        refine ⟨n + 1, by omega, ?_, by omega, ?_, b5, ?_⟩
        · rw [List.range'_succ, List.map_cons]
          simp only [loadMany]
          rw [hs1, Res.bind_ok', next_assign]
          exact b2
        · rw [show n + 1 + ts = n + (ts + 1) by omega]; exact b4
        · intro m hm hmn
          rcases m with _ | m
          · refine ⟨(s, ts, start + ts / c.assignFreq), by simp [loadMany], ?_⟩
            rcases hg.1 hgo with (a | a) | a
            · exact Or.inr (Ne.symm a)
            · omega
            · left; simpa using a
          · obtain ⟨r', c1, c2⟩ := b6 m (by omega) (by omega)
            refine ⟨r', ?_, ?_⟩
            · rw [List.range'_succ, List.map_cons]
              simp only [loadMany]
              rw [hs1, Res.bind_ok', next_assign]
              exact c1
            · rw [show m + 1 + ts = m + (ts + 1) by omega]; exact c2
      · rename_i hgo
        rw [hg] at hgo
        push Not at hgo
        obtain ⟨⟨a1, a2⟩, a3⟩ := hgo
        cases h
        exact ⟨0, by omega, by simp [loadMany], by simp, by simpa using a3, a1.symm, by intro m _ hm; omega⟩
  obtain ⟨n, b1, b2, b3, b4, b5, b6⟩ := key fuel 0 s (by simpa using h)
  refine ⟨n, by simpa using b1, ?_, by simpa using b3, by simpa using b4, b5, ?_⟩
  · simpa [List.range_eq_range'] using b2
  · intro m hm hmn
    simpa [List.range_eq_range'] using b6 m (by omega) hmn

/-- C75 with C29: when loading without a configured length ends, no vehicle is left in the network. -/
theorem C75_network_empty_at_end (c : Cfg) (hc : c.Ok) (hsc : c.scalar ≠ 0) (hf : 0 < c.assignFreq)
    (totalInterval : ℤ) (hT : totalInterval ≤ 0) (orc : ℕ → StepOracle) (horc : ∀ k, (orc k).Ok c)
    (start : ℕ) (s : State) (hs : Fresh s) (fuel : ℕ) (r : State × ℕ × ℕ)
    (h : loading c totalInterval orc fuel 0 start s = .ok r) : r.1.places c = [] := by
  obtain ⟨n, _, b2, _, _, b5, _⟩ := C75_runs_until_empty c hf totalInterval hT orc start s fuel r h
  obtain ⟨_, _, h3, _⟩ := C29_network_conservation c hc hsc s hs _ (by
    intro o ho
    obtain ⟨k, _, rfl⟩ := List.mem_map.1 ho
    exact horc k) start r b2
  rw [← List.length_eq_zero_iff]
  omega

/-- The network of `NetEx` runs for 6 intervals until all four vehicles have arrived; with 3 intervals
configured it runs for 4, the length of its two assignment intervals. -/
example : 0 < NetEx.cfg.assignFreq ∧
    ((loading NetEx.cfg (-1) (fun _ => NetEx.orc) 100 0 0 (State.init NetEx.links)).bind fun r =>
      .ok (r.2.1, r.1.numVeh, r.1.finished)) = .ok (6, 4, 4) ∧
    ((loading NetEx.cfg 3 (fun _ => NetEx.orc) 100 0 0 (State.init NetEx.links)).bind fun r =>
      .ok (r.2.1, r.1.numVeh, r.1.finished)) = .ok (4, 4, 2) := by
  decide +kernel

end Verif

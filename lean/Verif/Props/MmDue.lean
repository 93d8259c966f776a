import Verif.Lemmas.MmDueGap

/-!
# C132-C136: the multimodal equilibrium

Initial flows, the choice among existing paths, the updates of the flows and the gap.
-/

namespace Verif
open MmDue

namespace MmDueEx

/-- A pair with two driving paths and one transit path; park-and-ride is not used. -/
def pair : Sets := fun m => match m with
  | .driving => some [⟨.driving 1 none [1, 2], fun c => if c = 0 then 4 else 2, fun c => 10 + c, 0⟩,
      ⟨.driving 1 (some 5) [1, 3], fun c => if c = 0 then 6 else 0, fun _ => 7, 0⟩]
  | .transit => some [⟨.transit [9], fun c => if c = 0 then 2 else 8, fun c => if c = 0 then 13 else 3, 0⟩]
  | .pnr => none

theorem pair_nonneg : pair.NonNeg := by
  intro p hp c
  rw [all_eq] at hp
  simp only [pair, Option.getD_some, Option.getD_none, List.append_nil, List.cons_append, List.nil_append,
    List.mem_cons, List.not_mem_nil, or_false] at hp
  rcases hp with rfl | rfl | rfl <;> simp only <;> split <;> norm_num

def flows (r : Res Sets) (c : ℕ) : List ℚ :=
  match r with
  | .ok s => s.all.map fun p => p.flow c
  | _ => []

end MmDueEx
open MmDueEx

/-! ## C132 Initial flows and the best existing path -/

/-- C132, initial flows: the passengers of every interval are the demand of the interval, every mode of the pair
carries the same share of it, no flow is negative, and no path is added or removed. -/
theorem C132_initial_flows (dmd : ℕ → ℚ) (s s' : Sets) (h : initFlow dmd s = .ok s') :
    (∀ c, s'.passengers c = dmd c) ∧
    (∀ m ps, s' m = some ps → ∀ c, (ps.map fun p => p.flow c).sum = dmd c / (s.numModes : ℚ)) ∧
    ((∀ c, 0 ≤ dmd c) → s'.NonNeg) ∧ s'.routes = s.routes := by
  refine ⟨initFlow_sum h, ?_, ?_, ?_⟩
  · obtain ⟨_, h1, rfl⟩ := initFlow_ok h
    intro m ps hps c
    have := h1 m
    simp only [Option.map_eq_some_iff] at hps
    obtain ⟨qs, hq, rfl⟩ := hps
    rw [initSet_sum (fun e => this (by rw [hq, e])) c]
    ring
  · obtain ⟨_, h1, rfl⟩ := initFlow_ok h
    intro hd p hp c
    rw [all_eq] at hp
    have key : ∀ m, p ∈ ((s m).map (initSet (1 / (s.numModes : ℚ)) dmd)).getD [] → 0 ≤ p.flow c := by
      intro m hm
      cases hs : s m with
      | none => rw [hs] at hm; cases hm
      | some ps => rw [hs] at hm; exact initSet_nonneg (by positivity) hd ps p hm c
    simp only [List.mem_append] at hp
    rcases hp with hp | hp | hp
    · exact key _ hp
    · exact key _ hp
    · exact key _ hp
  · obtain ⟨_, _, rfl⟩ := initFlow_ok h
    funext m
    unfold Sets.routes
    simp only [Option.map_map]
    cases s m with
    | none => rfl
    | some ps => simp [initSet_routes]

example : flows (initFlow (fun c => 10 + c) pair) 0 = [5, 0, 5] ∧ flows (initFlow (fun c => 10 + c) pair) 1 = [11 / 2, 0, 11 / 2] ∧
    pair.numModes = 2 := by
  decide +kernel

/-- C132, when there are initial flows: exactly when the pair has a mode and every one of its modes a path. -/
theorem C132_initial_flows_exist (dmd : ℕ → ℚ) (s : Sets) :
    (∃ s', initFlow dmd s = .ok s') ↔ (∃ m, s m ≠ none) ∧ ∀ m, s m ≠ some [] := by
  constructor
  · rintro ⟨s', h⟩
    obtain ⟨h0, h1, _⟩ := initFlow_ok h
    refine ⟨?_, h1⟩
    by_contra hn
    push Not at hn
    apply h0
    unfold Sets.numModes modes
    simp [hn]
  · rintro ⟨⟨m, hm⟩, h1⟩
    unfold initFlow
    have h0 : s.numModes ≠ 0 := by
      unfold Sets.numModes
      intro e
      rw [List.length_eq_zero_iff, List.filter_eq_nil_iff] at e
      have := e m (by cases m <;> simp [modes])
      rw [Option.isSome_iff_ne_none] at this
      exact this hm
    rw [if_neg h0, if_neg]
    · exact ⟨_, rfl⟩
    · intro hany
      rw [List.any_eq_true] at hany
      obtain ⟨k, _, hk⟩ := hany
      have := h1 k
      cases hs : s k with
      | none => rw [hs] at hk; cases hk
      | some ps =>
        rw [hs] at hk this
        cases ps with
        | nil => exact this rfl
        | cons p ps => cases hk

example : ¬ (initFlow (fun _ => 1) fun m => if m = .driving then some [] else none).isOk = true := by decide +kernel

/-- C132, the best existing path: the path and departure found cost no more than any path of any mode at any of the
departures, they are a path of the pair and one of the departures, and nothing is found only if the pair has no
path (or there is no departure). -/
theorem C132_best_existing (cost : PPath → ℕ → ℚ) (is : List ℕ) (s : Sets) :
    (∀ b, bestExisting cost is s = some b →
      (∃ p ∈ s.all, ∃ i ∈ is, b.route = p.route.copy ∧ b.time = i ∧ b.cost = cost p i) ∧
      ∀ q ∈ s.all, ∀ j ∈ is, b.cost ≤ cost q j) ∧
    (bestExisting cost is s = none → s.all = [] ∨ is = []) := by
  refine ⟨?_, ?_⟩
  · intro b hb
    obtain ⟨⟨p, hp, i, hi, e⟩, h2⟩ := bestExisting_some hb
    exact ⟨⟨p, hp, i, hi, by rw [e], by rw [e], by rw [e]⟩, h2⟩
  · intro h
    cases is with
    | nil => exact Or.inr rfl
    | cons i is => exact Or.inl (bestExisting_none h (List.mem_cons_self ..))

example : bestExisting (fun p i => p.dis i) [0, 1] pair = some ⟨.transit [9], 1, 3⟩ ∧
    bestExisting (fun p i => p.dis i) [0] pair = some ⟨.driving 1 (some 5) [1, 3], 0, 7⟩ := by decide +kernel

/-! ## C133 Averaging with fixed departure times -/

/-- C133: after the flows have been moved towards the best path of each interval, every interval carries the same
number of passengers, no flow is negative, and paths have only been added. -/
theorem C133_fixed_conserves (cg : Bool) (T : ℕ) (step root : ℚ) (h0 : 0 ≤ step) (h1 : step ≤ 1) (hr : 1 ≤ root)
    (best : ℕ → Found) (s s' : Sets) (h : fixedAll cg T step root best s = .ok s') :
    (∀ c, s'.passengers c = s.passengers c) ∧ (s.NonNeg → s'.NonNeg) ∧ Grows s s' :=
  fold_keeps (fun _ _ _ h => fixedCol_keeps h0 h1 hr h) _ s s' h

example : flows (fixedAll true 2 (1 / 2) 1 (fun c => ⟨if c = 0 then .driving 1 (some 5) [1, 3] else .driving 1 none [7],
    fun _ => 1, 0⟩) pair) 0 = [2, 9, 0, 1] ∧
    flows (fixedAll true 2 (1 / 2) 1 (fun c => ⟨if c = 0 then .driving 1 (some 5) [1, 3] else .driving 1 none [7],
    fun _ => 1, 0⟩) pair) 1 = [1, 0, 5, 4] := by decide +kernel

/-- C133: with column generation the update always succeeds if the best paths are of modes of the pair. -/
theorem C133_fixed_succeeds (T : ℕ) (step root : ℚ) (h0 : 0 ≤ step) (h1 : step ≤ 1) (hr : 1 ≤ root)
    (best : ℕ → Found) (s : Sets) (hm : ∀ c, s (best c).route.mode ≠ none) :
    ∃ s', fixedAll true T step root best s = .ok s' := by
  obtain ⟨s', h, _⟩ := fold_isOk (P := fun u => ∀ c, u (best c).route.mode ≠ none)
    (f := fun s c => fixedCol true step root (best c).route (best c).dis (best c).mid c s)
    (fun u c u' hu h k => by
      have := (fixedCol_keeps h0 h1 hr h).2.2
      rw [Ne, grows_none this]
      exact hu k)
    (fun u c hu => fixedCol_isOk (hu c)) (List.range T) s hm
  exact ⟨s', h⟩

/-- C133, what moves: every path other than the best one keeps the share `1 - step / root` of its passengers of the
interval and all of its passengers of other intervals. -/
theorem C133_fixed_shares (cg : Bool) (step root : ℚ) (best : Route) (dis : ℕ → ℚ) (mid : ℤ) (c : ℕ) (s s' : Sets)
    (h : fixedCol cg step root best dis mid c s = .ok s') (p : PPath) (hp : p ∈ s.all) (hb : p.route ≠ best) :
    ∃ p' ∈ s'.all, p'.route = p.route ∧ p'.dis = p.dis ∧ p'.flow c = (1 - step / root) * p.flow c ∧
      ∀ k, k ≠ c → p'.flow k = p.flow k := by
  unfold fixedCol at h
  rw [Res.bind_eq_ok'] at h
  obtain ⟨a, ha, h⟩ := h
  have hpa := enlist_mem ha hp
  obtain ⟨_, l1, q, l2, e1, e2, e3⟩ := addLast_ok h
  rw [each_all] at e1
  have hm : p.add c (-fixedChange step root best c p) ∈ l1 ++ q :: l2 := by
    rw [← e1]; exact List.mem_map.2 ⟨p, hpa, rfl⟩
  refine ⟨p.add c (-fixedChange step root best c p), ?_, rfl, rfl, ?_, ?_⟩
  · rw [e3]
    rw [List.mem_append, List.mem_cons] at hm ⊢
    rcases hm with hm | hm | hm
    · exact Or.inl hm
    · exfalso
      apply hb
      rw [← e2, ← hm]
      rfl
    · exact Or.inr (Or.inr hm)
  · rw [add_flow, if_pos rfl]
    unfold fixedChange
    rw [if_neg hb]
    ring
  · intro k hk
    rw [add_flow, if_neg hk, add_zero]

/-- C133, with existing paths only (every path has one person, and no path occurs twice): the update never fails when
the pair has a path, and in every interval the disutility of all passengers together goes down by the share
`step / root` of what they would save on the cheapest path. -/
theorem C133_existing_improves (T : ℕ) (step root : ℚ) (h0 : 0 ≤ step) (h1 : step ≤ 1) (hr : 1 ≤ root) (s : Sets)
    (hne : s.all ≠ []) (hp : s.NonNeg) (hone : ∀ p ∈ s.all, p.route.copy = p.route)
    (hd : (s.all.map PPath.route).Nodup) :
    ∃ s', fixedExisting T step root s = .ok s' ∧ s'.all.map PPath.tag = s.all.map PPath.tag ∧
      ∀ c, (T ≤ c → s'.total c = s.total c) ∧
        (c < T → ∃ p ∈ s.all, (∀ q ∈ s.all, p.dis c ≤ q.dis c) ∧
          s'.total c = s.total c - step / root * (s.all.map fun q => q.flow c * (q.dis c - p.dis c)).sum) := by
  have hrp : 0 < root := by linarith
  have key : ∀ n, ∃ s', Res.foldlM (fun s c => fixedExistingCol step root c s) s (List.range n) = .ok s' ∧
      s'.NonNeg ∧ s'.all.map PPath.tag = s.all.map PPath.tag ∧
      (∀ c, n ≤ c → s'.all.map (fun p => p.flow c) = s.all.map (fun p => p.flow c)) ∧
      ∀ c, (n ≤ c → s'.total c = s.total c) ∧
        (c < n → ∃ p ∈ s.all, (∀ q ∈ s.all, p.dis c ≤ q.dis c) ∧
          s'.total c = s.total c - step / root * (s.all.map fun q => q.flow c * (q.dis c - p.dis c)).sum) := by
    intro n
    induction n with
    | zero => exact ⟨s, rfl, hp, rfl, fun _ _ => rfl, fun c => ⟨fun _ => rfl, fun h => absurd h (by omega)⟩⟩
    | succ n ih =>
      obtain ⟨u, hu, hpu, htag, hfl, htot⟩ := ih
      have hroutes : u.all.map PPath.route = s.all.map PPath.route := by
        have := congrArg (List.map Prod.fst) htag
        simpa [List.map_map, Function.comp_def, PPath.tag] using this
      have hone' : ∀ p ∈ u.all, p.route.copy = p.route := by
        intro p hp
        have : p.route ∈ s.all.map PPath.route := by rw [← hroutes]; exact List.mem_map.2 ⟨p, hp, rfl⟩
        obtain ⟨q, hq, e⟩ := List.mem_map.1 this
        rw [← e]; exact hone q hq
      have hne' : u.all ≠ [] := by
        intro e; apply hne
        rw [e] at htag
        simpa using htag.symm
      obtain ⟨w, hw⟩ := fixedExistingCol_isOk (step := step) (root := root) (c := n) hne' hone'
      obtain ⟨k1, k2, p, hpm, hleast, k3⟩ := fixedExistingCol_spec h0 hrp hpu hone' (by rw [hroutes]; exact hd) hw
      obtain ⟨b, _, hw'⟩ := fixedExistingCol_ok hw
      have hkeep := fixedCol_keeps h0 h1 hr hw'
      refine ⟨w, ?_, hkeep.2.1 hpu, k1.trans htag, ?_, ?_⟩
      · rw [List.range_succ, Res.foldlM_append, hu]
        change Res.bind (Res.ok u) _ = _
        rw [Res.bind_ok', Res.foldlM_cons]
        change Res.bind (fixedExistingCol step root n u) _ = _
        rw [hw]
        rfl
      · intro c hc
        rw [← hfl c (by omega)]
        rw [fixedCol_false] at hw'
        obtain ⟨_, l1, q, l2, e1, _, e3⟩ := addLast_ok hw'
        rw [each_all] at e1
        have : ((u.all.map fun p => p.add n (-fixedChange step root b.route n p)).map fun p => p.flow c) =
            u.all.map fun p => p.flow c := by
          rw [List.map_map]
          apply List.map_congr_left
          intro p _
          simp only [Function.comp, add_flow]
          rw [if_neg (by omega), add_zero]
        rw [← this, e1, e3]
        simp only [List.map_append, List.map_cons, add_flow]
        rw [if_neg (by omega), add_zero]
      · intro c
        refine ⟨fun hc => by rw [k2 c (by omega)]; exact (htot c).1 (by omega), fun hc => ?_⟩
        by_cases hcn : c = n
        · subst hcn
          have hpair : u.all.map (fun q => (q.flow c, q.dis c)) = s.all.map fun q => (q.flow c, q.dis c) := by
            have a1 := hfl c (le_refl _)
            have a2 : u.all.map (fun q => q.dis c) = s.all.map fun q => q.dis c := by
              have := congrArg (List.map fun x : Route × (ℕ → ℚ) => x.2 c) htag
              simpa [List.map_map, Function.comp_def, PPath.tag] using this
            have a3 : ∀ (xs ys : List PPath), xs.map (fun q => q.flow c) = ys.map (fun q => q.flow c) →
                xs.map (fun q => q.dis c) = ys.map (fun q => q.dis c) →
                xs.map (fun q => (q.flow c, q.dis c)) = ys.map fun q => (q.flow c, q.dis c) := by
              intro xs
              induction xs with
              | nil => intro ys b1 _; cases ys with
                | nil => rfl
                | cons y ys => simp at b1
              | cons x xs ih => intro ys b1 b2; cases ys with
                | nil => simp at b1
                | cons y ys =>
                  simp only [List.map_cons, List.cons.injEq] at b1 b2 ⊢
                  exact ⟨by rw [b1.1, b2.1], ih ys b1.2 b2.2⟩
            exact a3 _ _ a1 a2
          have hmem : p.dis c ∈ s.all.map fun q => q.dis c := by
            have : p.dis c ∈ (u.all.map fun q => (q.flow c, q.dis c)).map Prod.snd := by
              rw [List.map_map]; exact List.mem_map.2 ⟨p, hpm, rfl⟩
            rw [hpair, List.map_map] at this
            exact this
          obtain ⟨p', hp', e'⟩ := List.mem_map.1 hmem
          refine ⟨p', hp', ?_, ?_⟩
          · intro q hq
            have : q.dis c ∈ (u.all.map fun q => (q.flow c, q.dis c)).map Prod.snd := by
              rw [hpair, List.map_map]; exact List.mem_map.2 ⟨q, hq, rfl⟩
            rw [List.map_map] at this
            obtain ⟨q', hq', eq'⟩ := List.mem_map.1 this
            have h1 := hleast q' hq'
            simp only [Function.comp] at eq'
            rw [e', ← eq']; exact h1
          · rw [k3, (htot c).1 (le_refl _)]
            have := congrArg (fun l => (l.map fun x : ℚ × ℚ => x.1 * (x.2 - p.dis c)).sum) hpair
            simp only [List.map_map, Function.comp_def] at this
            rw [this, e']
        · obtain ⟨p0, hp0, hl0, e0⟩ := (htot c).2 (by omega)
          exact ⟨p0, hp0, hl0, by rw [k2 c hcn]; exact e0⟩
  obtain ⟨s', a1, _, a3, _, a5⟩ := key T
  exact ⟨s', a1, a3, a5⟩

example : flows (fixedExisting 2 (1 / 2) 1 pair) 0 = [2, 9, 1] ∧ flows (fixedExisting 2 (1 / 2) 1 pair) 1 = [1, 0, 9] ∧
    pair.total 0 = 108 ∧ (pair.all.map PPath.route).Nodup ∧ ∀ p ∈ pair.all, p.route.copy = p.route := by decide +kernel

/-! ## C134 Averaging with a choice of the departure time -/

/-- C134: after flow has been moved to the best path and departure interval, the pair has the same number of
passengers over all intervals, no flow is negative, and paths have only been added. -/
theorem C134_departure_conserves (cg : Bool) (T : ℕ) (step : ℚ) (iter : ℕ) (tot : ℚ) (best : Found) (bc : ℕ)
    (hb : bc < T) (s s' : Sets) (h : dtcAll cg T step iter tot best bc s = .ok s') :
    (s'.all.map (PPath.sum T)).sum = (s.all.map (PPath.sum T)).sum ∧ Grows s s' ∧
    (0 ≤ step → step ≤ 1 → 0 ≤ tot → s.NonNeg → s'.NonNeg) :=
  dtcAll_keeps hb h

example : flows (dtcAll true 2 (1 / 2) 0 22 ⟨.transit [9], fun _ => 0, 0⟩ 1 pair) 0 = [0, 0, 0] ∧
    flows (dtcAll true 2 (1 / 2) 0 22 ⟨.transit [9], fun _ => 0, 0⟩ 1 pair) 1 = [0, 0, 22] ∧
    flows (dtcAll true 2 (1 / 2) 0 22 ⟨.transit [8], fun _ => 0, 0⟩ 1 pair) 1 = [1, 0, 4, 5] := by decide +kernel

/-- C134: with column generation the update always succeeds if the best path is of a mode of the pair. -/
theorem C134_departure_succeeds (T : ℕ) (step : ℚ) (iter : ℕ) (tot : ℚ) (best : Found) (bc : ℕ) (s : Sets)
    (hm : s best.route.mode ≠ none) : ∃ s', dtcAll true T step iter tot best bc s = .ok s' :=
  dtcAll_isOk hm

/-! ## C135 Gradient projection -/

/-- C135: whenever gradient projection returns, every interval carries the same number of passengers, no flow is
negative, and paths have only been added. -/
theorem C135_projection_conserves (cg : Bool) (T : ℕ) (step : ℚ) (best : ℕ → Found) (s s' : Sets)
    (h : gpAll cg T step best s = .ok s') :
    (∀ c, s'.passengers c = s.passengers c) ∧ (s.NonNeg → s'.NonNeg) ∧ Grows s s' :=
  fold_keeps (fun _ _ _ h => gpCol_keeps h) _ s s' h

/-- C135: with a step of at most one, gradient projection never fails, and in no interval does the disutility of all
passengers together go up. -/
theorem C135_projection_improves (cg : Bool) (T : ℕ) (step : ℚ) (h0 : 0 ≤ step) (h1 : step ≤ 1) (best : ℕ → Found)
    (s : Sets) (hp : s.NonNeg) (hm : cg = true → ∀ c, s (best c).route.mode ≠ none) :
    ∃ s', gpAll cg T step best s = .ok s' ∧ ∀ k, s'.total k ≤ s.total k := by
  obtain ⟨s', h, hP⟩ := fold_isOk
    (P := fun u => u.NonNeg ∧ (cg = true → ∀ c, u (best c).route.mode ≠ none) ∧ ∀ k, u.total k ≤ s.total k)
    (f := fun s c => gpCol cg step (best c).route (best c).dis (best c).mid c s)
    (fun u c u' hu h => by
      have hk := gpCol_keeps h
      refine ⟨hk.2.1 hu.1, fun hcg k => ?_, fun k => (gpCol_total h0 hu.1 h k).trans (hu.2.2 k)⟩
      rw [Ne, grows_none hk.2.2]
      exact hu.2.1 hcg k)
    (fun u c hu => gpCol_isOk h0 h1 hu.1 fun hcg => hu.2.1 hcg c) (List.range T) s
    ⟨hp, hm, fun _ => le_refl _⟩
  exact ⟨s', h, hP.2.2⟩

example : flows (gpAll true 1 (1 / 2) (fun _ => ⟨.driving 1 (some 5) [1, 3], fun _ => 0, 0⟩) pair) 0 = [4, 7, 1] ∧
    pair.total 0 = 108 := by decide +kernel

/-- C135, what moves in one interval: there is a level `μ` and a speed `t` such that every path in play gains `t` times
what it is cheaper than `μ`, or loses `t` times what it is dearer; other paths and other intervals keep their flow.
Either some path above the level loses exactly the share `step` of its flow, or all paths in play are equally
cheap. -/
theorem C135_projection_direction (cg : Bool) (step : ℚ) (h0 : 0 ≤ step) (best : Route) (dis : ℕ → ℚ) (mid : ℤ) (c : ℕ)
    (s s' : Sets) (hp : s.NonNeg) (h : gpCol cg step best dis mid c s = .ok s') :
    ∃ μ t : ℚ, 0 ≤ t ∧
      (∀ p ∈ s.all, ∃ p' ∈ s'.all, p'.route = p.route ∧ p'.dis = p.dis ∧ (∀ k, k ≠ c → p'.flow k = p.flow k) ∧
        (InPlay best c p → p'.flow c = p.flow c - t * (p.dis c - μ)) ∧ (¬ InPlay best c p → p'.flow c = p.flow c)) ∧
      ((∀ p ∈ s.all, InPlay best c p → p.dis c = μ) ∨
        ∃ p ∈ s'.all, μ < p.dis c ∧ ∃ f, 0 ≤ f ∧ p.flow c = (1 - step) * f ∧ t * (p.dis c - μ) = step * f) := by
  have hact : ∀ p, active best c p = true ↔ InPlay best c p := by
    intro p; simp [active, InPlay]
  obtain ⟨a, ha, h⟩ := gpCol_shape h
  rcases h with ⟨ht, rfl⟩ | ⟨t, ht, rfl, _⟩
  · refine ⟨meanDis best c a.1, 0, le_refl _, ?_, Or.inl fun p hpm hb =>
      tau_none_eq ht (enlist_mem ha hpm) ((hact p).2 hb)⟩
    intro p hpm
    exact ⟨p, enlist_mem ha hpm, rfl, rfl, fun _ _ => rfl, fun _ => by ring, fun _ => rfl⟩
  · refine ⟨meanDis best c a.1, t, tau_nonneg h0 (enlist_nonneg ha hp) ht, ?_, Or.inr ?_⟩
    · intro p hpm
      refine ⟨_, by rw [each_all]; exact List.mem_map.2 ⟨p, enlist_mem ha hpm, rfl⟩, ?_, ?_, ?_, ?_, ?_⟩
      · split <;> rfl
      · split <;> rfl
      · intro k hk
        split
        · rw [add_flow, if_neg hk, add_zero]
        · rfl
      · intro hb
        rw [if_pos ((hact p).2 hb), add_flow, if_pos rfl]
        ring
      · intro hb
        rw [if_neg (fun e => hb ((hact p).1 e))]
    · obtain ⟨_, p, hpm, hpa, hc, e⟩ := (tau_spec step best c a.1).1 t ht
      refine ⟨_, by rw [each_all]; exact List.mem_map.2 ⟨p, hpm, rfl⟩, ?_, p.flow c,
        enlist_nonneg ha hp p hpm c, ?_, ?_⟩
      · rw [if_pos hpa, add_dis]; linarith
      · rw [if_pos hpa, add_flow, if_pos rfl, e]
        field_simp
        ring
      · rw [if_pos hpa, add_dis, e]
        field_simp

/-- C135, a step above one can fail: with one path of 2 passengers at disutility 4, one of 2 at disutility 2 and a step of
2, the first path would be left with -2 passengers. -/
theorem C135_large_step_fails :
    let s : Sets := fun m => match m with
      | .transit => some [⟨.transit [1], fun _ => 2, fun _ => 4, 0⟩, ⟨.transit [2], fun _ => 2, fun _ => 2, 0⟩]
      | _ => none
    tau 2 (.transit [2]) 0 s = some 4 ∧ meanDis (.transit [2]) 0 s = 3 ∧
    (gpCol false 2 (.transit [2]) (fun _ => 0) 0 0 s).isOk = false ∧
    (gpCol false 1 (.transit [2]) (fun _ => 0) 0 0 s).isOk = true := by decide +kernel

/-! ## C136 Gap -/

/-- C136, as far as it holds: the gap with a choice of the departure time is never negative (and always defined), and it
is zero exactly when, in every pair, no path in use at some interval is dearer than another path in use at some
interval.  What is missing is the comparison with paths that nobody uses. -/
theorem C136_gap_partial (T : ℕ) (pairs : List Sets) :
    0 ≤ merit T pairs ∧
    (merit T pairs = 0 ↔ ∀ s ∈ pairs, ∀ p ∈ s.all, ∀ q ∈ s.all, ∀ c < T, ∀ k < T, 0 < p.flow c → 0 < q.flow k →
      p.dis c ≤ q.dis k) := by
  unfold merit
  obtain ⟨h1, h2⟩ := ratio_spec (gs := pairs.map fun s => gapOf (used (List.range T) s)) (by
    intro g hg
    obtain ⟨s, _, rfl⟩ := List.mem_map.1 hg
    exact gapOf_nonneg _ used_pos)
  refine ⟨h1, h2.trans ?_⟩
  constructor
  · intro hz s hs p hp q hq c hc k hk hpf hqf
    have := (gapOf_zero used_pos).1 (hz _ (List.mem_map.2 ⟨s, hs, rfl⟩))
    exact this _ (mem_used.2 ⟨c, List.mem_range.2 hc, p, hp, hpf, rfl⟩) _
      (mem_used.2 ⟨k, List.mem_range.2 hk, q, hq, hqf, rfl⟩)
  · intro hz g hg
    obtain ⟨s, hs, rfl⟩ := List.mem_map.1 hg
    rw [gapOf_zero used_pos]
    intro e he e' he'
    obtain ⟨c, hc, p, hp, hpf, rfl⟩ := mem_used.1 he
    obtain ⟨k, hk, q, hq, hqf, rfl⟩ := mem_used.1 he'
    exact hz s hs p hp q hq c (List.mem_range.1 hc) k (List.mem_range.1 hk) hpf hqf

/-- C136, the same for fixed departure times: the comparison is within each interval. -/
theorem C136_gap_fixed_partial (T : ℕ) (pairs : List Sets) :
    0 ≤ meritFixed T pairs ∧
    (meritFixed T pairs = 0 ↔ ∀ s ∈ pairs, ∀ c < T, ∀ p ∈ s.all, ∀ q ∈ s.all, 0 < p.flow c → 0 < q.flow c →
      p.dis c ≤ q.dis c) := by
  unfold meritFixed
  obtain ⟨h1, h2⟩ := ratio_spec (gs := pairs.flatMap fun s => (List.range T).map fun c => gapOf (used [c] s)) (by
    intro g hg
    obtain ⟨s, _, hg⟩ := List.mem_flatMap.1 hg
    obtain ⟨c, _, rfl⟩ := List.mem_map.1 hg
    exact gapOf_nonneg _ used_pos)
  refine ⟨h1, h2.trans ?_⟩
  constructor
  · intro hz s hs c hc p hp q hq hpf hqf
    have := (gapOf_zero used_pos).1
      (hz _ (List.mem_flatMap.2 ⟨s, hs, List.mem_map.2 ⟨c, List.mem_range.2 hc, rfl⟩⟩))
    exact this _ (mem_used.2 ⟨c, List.mem_singleton_self c, p, hp, hpf, rfl⟩) _
      (mem_used.2 ⟨c, List.mem_singleton_self c, q, hq, hqf, rfl⟩)
  · intro hz g hg
    obtain ⟨s, hs, hg⟩ := List.mem_flatMap.1 hg
    obtain ⟨c, hc, rfl⟩ := List.mem_map.1 hg
    rw [gapOf_zero used_pos]
    intro e he e' he'
    obtain ⟨c1, hc1, p, hp, hpf, rfl⟩ := mem_used.1 he
    obtain ⟨c2, hc2, q, hq, hqf, rfl⟩ := mem_used.1 he'
    rw [List.mem_singleton] at hc1 hc2
    subst hc1 hc2
    exact hz s hs _ (List.mem_range.1 hc) p hp q hq hpf hqf

example : merit 2 [pair] = ((10 - 3) * 4 + (7 - 3) * 6 + (13 - 3) * 2 + (11 - 3) * 2) / (3 * 22) ∧
    meritFixed 2 [pair] = (3 * 4 + 6 * 2 + 8 * 2) / (7 * 12 + 3 * 10) := by decide +kernel

/-- C136, what is missing: the gap is zero although everybody uses a path that takes ten times as long as another
path of the same pair. -/
theorem C136_unused_path_ignored :
    let s : Sets := fun m => match m with
      | .driving => some [⟨.driving 1 none [1], fun _ => 5, fun _ => 100, 0⟩, ⟨.driving 1 none [2], fun _ => 0, fun _ => 10, 0⟩]
      | _ => none
    merit 1 [s] = 0 ∧ meritFixed 1 [s] = 0 ∧ ∃ p ∈ s.all, ∃ q ∈ s.all, 0 < p.flow 0 ∧ q.dis 0 < p.dis 0 := by
  refine ⟨by decide +kernel, by decide +kernel, ?_⟩
  refine ⟨_, List.mem_cons_self .., _, List.mem_cons_of_mem _ (List.mem_cons_self ..), by norm_num, by norm_num⟩

end Verif

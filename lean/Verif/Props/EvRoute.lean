import Verif.Lemmas.EvRoute

/-!
# C123, C124, C125: batteries, best charging stations and routes of electrified vehicles
-/

namespace Verif
open Graph Sp Path EvR

/-! ## Batteries -/

theorem EvR.after_spec (v : Chg.Ev) : ∀ us : List Use, .charge ∉ us →
    after v us = { v with miles := v.miles + miles us, since := v.since + miles us } := by
  intro us
  induction us using List.reverseRecOn with
  | nil => intro _; simp [after, miles]
  | append_singleton us u ih =>
    intro h
    simp only [List.mem_append, List.mem_singleton, not_or] at h
    have e : after v (us ++ [u]) = Use.apply (after v us) u := by simp [after]
    have m : miles (us ++ [u]) = miles us + u.miles := by simp [miles]
    rw [e, m, ih h.1]
    cases u with
    | charge => exact absurd rfl h.2
    | link length pq =>
      cases pq with
      | false => simp [Use.apply, Use.miles, Chg.Ev.drive, add_assoc]
      | true => simp [Use.apply, Use.miles, Chg.Ev.drive]

/-- C123: before its first charging an electrified vehicle needs charging exactly if it uses roadside stations and has
not driven yet (unless it makes deliveries), or its range at the start less the miles driven is at most a tenth of the
full range. -/
theorem C123_need_before_charging (start full : ℚ) (roadside delivery : Bool) (us : List Use) (h : .charge ∉ us) :
    (after (Chg.Ev.make start full roadside delivery) us).needCharging = true ↔
      roadside = true ∧ ((delivery = false ∧ miles us ≤ 0) ∨ start - miles us ≤ full / 10) := by
  rw [after_spec _ _ h]
  unfold Chg.Ev.needCharging
  cases roadside with
  | false => simp [Chg.Ev.make]
  | true =>
    simp only [Chg.Ev.make, if_true, zero_add, true_and]
    by_cases h1 : delivery = false ∧ miles us ≤ 0
    · simp [h1]
    · rw [if_neg h1, decide_eq_true_iff]
      constructor
      · intro h2
        right
        linarith
      · rintro (h2 | h2)
        · exact absurd h2 h1
        · linarith

/-- C123: after charging, the range is the full one and only the miles driven since count. -/
theorem C123_need_after_charging (start full : ℚ) (roadside delivery : Bool) (us us' : List Use) (h : .charge ∉ us') :
    (after (Chg.Ev.make start full roadside delivery) (us ++ .charge :: us')).needCharging = true ↔
      roadside = true ∧ ((delivery = false ∧ miles (us ++ us') ≤ 0) ∨ full - miles us' ≤ full / 10) := by
  have keep : ∀ us : List Use, let v := after (Chg.Ev.make start full roadside delivery) us
      v.full = full ∧ v.roadside = roadside ∧ v.delivery = delivery ∧ v.miles = miles us := by
    intro us
    induction us using List.reverseRecOn with
    | nil => simp [after, miles, Chg.Ev.make]
    | append_singleton us u ih =>
      have e : after (Chg.Ev.make start full roadside delivery) (us ++ [u]) =
          Use.apply (after (Chg.Ev.make start full roadside delivery) us) u := by simp [after]
      have m : miles (us ++ [u]) = miles us + u.miles := by simp [miles]
      simp only [e, m]
      obtain ⟨a, b, c, d⟩ := ih
      cases u with
      | charge => simp [Use.apply, Use.miles, Chg.Ev.charge, a, b, c, d]
      | link length pq =>
        cases pq with
        | false => simp [Use.apply, Use.miles, Chg.Ev.drive, a, b, c, d]
        | true => simp [Use.apply, Use.miles, Chg.Ev.drive, a, b, c, d]
  obtain ⟨a, b, c, d⟩ := keep us
  have e : after (Chg.Ev.make start full roadside delivery) (us ++ .charge :: us') =
      after (after (Chg.Ev.make start full roadside delivery) us).charge us' := by simp [after, Use.apply]
  rw [e, after_spec _ _ h]
  have m : miles (us ++ us') = miles us + miles us' := by simp [miles]
  unfold Chg.Ev.needCharging
  simp only [Chg.Ev.charge, a, b, c, d, m, zero_add]
  cases roadside with
  | false => simp
  | true =>
    simp only [if_true, true_and]
    by_cases h1 : delivery = false ∧ miles us + miles us' ≤ 0
    · simp [h1]
    · rw [if_neg h1, decide_eq_true_iff]
      constructor
      · intro h2
        right
        linarith
      · rintro (h2 | h2)
        · exact absurd h2 h1
        · linarith

-- 40 miles at the start, full range 100 miles: needs charging at once, not after 16 km, but again after 48 km (a point
-- queue does not count); after charging, not for 80 miles.
example : (after (Chg.Ev.make 40 100 true false) []).needCharging = true ∧
    (after (Chg.Ev.make 40 100 true false) [.link 16000 false]).needCharging = false ∧
    (after (Chg.Ev.make 40 100 true false) [.link 16000 false, .link 99999 true, .link 32000 false]).needCharging = true ∧
    (after (Chg.Ev.make 40 100 true false) [.link 48000 false, .charge, .link 128000 false]).needCharging = false ∧
    (after (Chg.Ev.make 40 100 true false) [.link 48000 false, .charge, .link 144000 false]).needCharging = true ∧
    (after (Chg.Ev.make 40 100 true true) []).needCharging = false := by decide +kernel

/-! ## The best station -/

/-- C124: an update of routes gives every link its cost, makes the trees of cheapest ways to destinations and stations,
and picks for every pair with candidates the one over which the way is cheapest, whatever the order in which they are
looked at (if all of them can be used). -/
theorem C124_best_station {x : EvR.Inst} {ops : List Op} {links : List ℤ} {dnode : ℕ → ℤ} {dests : List ℕ}
    {pois : List ℤ} {pairs : List Pair} {k : Kept} (h : EvR.Good x ops links dnode dests pois pairs k)
    (shuffle : ℕ → ℕ → List ℤ → List ℤ) (hs : ∀ o d l, (shuffle o d l).Perm l)
    (hr : ∀ p ∈ pairs, ∀ n ∈ p.nodes, Reach x.g p.onode n ∧ Reach x.g n p.dnode) :
    ∃ N k' c, (∀ fuel, N ≤ fuel → update fuel x links (dests.map fun d => (d, dnode d)) pois pairs shuffle k = .ok k') ∧
      (∀ l ∈ linkIds x.g, k'.cost l = some (c l) ∧ CostOf x l (c l)) ∧
      Current x.g c dnode dests pois k'.trees ∧
      (∀ p ∈ pairs, p.nodes = [] → k'.best p.origin p.dest = some none) ∧
      (∀ p ∈ pairs, p.nodes ≠ [] → ∃ n, k'.best p.origin p.dest = some (some n) ∧
        IsBest x.g c p.onode p.dnode p.nodes n) ∧
      ∀ o d, (∀ p ∈ pairs, ¬ (p.origin = o ∧ p.dest = d)) → k'.best o d = k.best o d := by
  obtain ⟨c, e, hc⟩ := linkCosts_spec h links k.cost fun l hl => (h.linkIds l).1 hl
  have hco : CostsOk x c := ⟨fun l hl => (hc l).1 ((h.linkIds l).2 hl), fun hn => by
    have := h.positive _ hn
    omega⟩
  rcases trees_spec (T := fun _ => False) h hco with ⟨t, ht, N1, hN1⟩ | ⟨_, hF, -⟩
  · rcases updateBest_spec (T := fun _ => False) h hco ht hs hr with ⟨b, ⟨hb, hb'⟩, N2, hN2⟩ | ⟨_, hF, -⟩
    · refine ⟨max N1 N2, ⟨c, t, b⟩, num c, fun fuel hf => ?_, ?_, ht.current, fun p hp => (hb p hp).1,
        fun p hp => (hb p hp).2, hb'⟩
      · have g1 : ((Res.foldlM (destTree fuel x c) k.trees (dests.map fun d => (d, dnode d))).bind fun t =>
            Res.foldlM (poiTree fuel x c) t pois) = .ok t := hN1 fuel (by omega)
        have g2 : updateBest fuel x c t shuffle pairs k.best = .ok b := hN2 fuel (by omega)
        rw [Res.bind_eq_ok'] at g1
        obtain ⟨t', g3, g4⟩ := g1
        simp only [update, e, g3, g4, g2, Res.bind_ok']
      · intro l hl
        obtain ⟨v, e, hv, -⟩ := hco.costs l hl
        simp only [num, e, Option.getD_some]
        exact ⟨trivial, hv⟩
    · exact hF.elim
  · exact hF.elim

/-- C124: candidates that cannot be reached from the origin, or from which the destination cannot be reached, make the
update undefined: a null pointer is dereferenced. -/
theorem C124_candidates_out_of_reach_are_undefined {x : EvR.Inst} {ops : List Op} {links : List ℤ} {dnode : ℕ → ℤ}
    {dests : List ℕ} {pois : List ℤ} {p : Pair} {rest : List Pair} {k : Kept}
    (h : EvR.Good x ops links dnode dests pois (p :: rest) k)
    (shuffle : ℕ → ℕ → List ℤ → List ℤ) (hs : ∀ o d l, (shuffle o d l).Perm l)
    (hr : ∃ n ∈ p.nodes, ¬ (Reach x.g p.onode n ∧ Reach x.g n p.dnode)) :
    ∃ N, ∀ fuel, N ≤ fuel →
      update fuel x links (dests.map fun d => (d, dnode d)) pois (p :: rest) shuffle k = .ub := by
  obtain ⟨c, e, hc⟩ := linkCosts_spec h links k.cost fun l hl => (h.linkIds l).1 hl
  have hco : CostsOk x c := ⟨fun l hl => (hc l).1 ((h.linkIds l).2 hl), fun hn => by
    have := h.positive _ hn
    omega⟩
  rcases trees_spec (T := fun _ => False) h hco with ⟨t, ht, N1, hN1⟩ | ⟨_, hF, -⟩
  · have hp := hs p.origin p.dest p.nodes
    obtain ⟨n, hn, hr⟩ := hr
    obtain ⟨N2, hN2⟩ := bestPoi_ub h hco ht (List.mem_cons_self ..) (shuffle p.origin p.dest p.nodes) none
      (fun m hm => h.nodes p (List.mem_cons_self ..) m (hp.mem_iff.1 hm)) ⟨n, hp.mem_iff.2 hn, hr⟩
    refine ⟨max N1 N2, fun fuel hf => ?_⟩
    have g1 : ((Res.foldlM (destTree fuel x c) k.trees (dests.map fun d => (d, dnode d))).bind fun t =>
        Res.foldlM (poiTree fuel x c) t pois) = .ok t := hN1 fuel (by omega)
    have g2 : bestPoi fuel x c t p (shuffle p.origin p.dest p.nodes) = .ub := by
      unfold bestPoi
      rw [if_neg (List.ne_nil_of_mem hn), hN2 fuel (by omega)]
      rfl
    rw [Res.bind_eq_ok'] at g1
    obtain ⟨t', g3, g4⟩ := g1
    simp only [update, e, g3, g4, updateBest, Res.foldlM_cons, g2, Res.bind_ok']
    rfl
  · exact hF.elim

open Classical in
/-- C124: the check of candidates keeps exactly those that can be reached from the origin and from which the destination
can be reached, in the same order. -/
theorem C124_candidates_are_checked {g : G} {ops : List Op} (hg : g = run empty ops) (hneg : -1 ∉ linkIds g)
    (cost : ℤ → Option Cost) (hcost : ∀ l ∈ linkIds g, cost l = some 1) (p : Pair)
    (ho : p.onode ∈ nodeIds g) (hd : p.dnode ∈ nodeIds g)
    (hn : ∀ n ∈ p.nodes, n ∈ nodeIds g ∧ n ≠ p.onode ∧ n ≠ p.dnode) :
    ∃ N, ∀ fuel, N ≤ fuel → checkPair fuel g cost p p.nodes =
      .ok (p.nodes.filter fun n => decide (Reach g p.onode n ∧ Reach g n p.dnode)) := by
  rcases checkPair_spec (T := fun _ => False) hg hneg hcost ho hd p.nodes hn with ⟨r, rfl, N, hN⟩ | ⟨_, hF, -⟩
  · exact ⟨N, hN⟩
  · exact hF.elim

/-! ## Routes -/

/-- C125: a vehicle with adaptive routing in the queue of an origin is given the first link of a cheapest way to the best
station if it needs charging and its origin and destination have one, which it will remember, and of a cheapest way to
its destination otherwise; routing fails if there is no way. -/
theorem C125_at_origins {x : EvR.Inst} {ops : List Op} (hg : x.g = run empty ops) (hpos : ∀ l ∈ linkIds x.g, 0 ≤ l)
    {c : ℤ → ℚ} {dnode : ℕ → ℤ} {dests : List ℕ} {pois : List ℤ} {k : Kept}
    (hk : Current x.g c dnode dests pois k.trees) (v : EvR.Veh) (ha : v.ev.adaptive = true) (hd : v.dest ∈ dests) (o : ℕ)
    (hb : ∀ s, k.best o v.dest = some (some s) → s ∈ pois) (n : ℤ) (hn : n ∈ nodeIds x.g)
    (hne : n ≠ goal dnode v (k.best o v.dest).join) :
    (Reach x.g n (goal dnode v (k.best o v.dest).join) → ∃ l,
      Begins x.g c n (goal dnode v (k.best o v.dest).join) l ∧
      routeOrigin x k o n v = .ok { v with
        station := if v.needs = true then ((k.best o v.dest).join).or v.station else v.station
        next := some l }) ∧
    (¬ Reach x.g n (goal dnode v (k.best o v.dest).join) → ∃ m, routeOrigin x k o n v = .throw m) := by
  have hneg : -1 ∉ linkIds x.g := fun h => by have := hpos _ h; omega
  have main : ∀ (tree : EvR.Tree) (s : Option ℤ), TreeTo x.g c (goal dnode v (k.best o v.dest).join) tree →
      routeOrigin x k o n v = (match tree n with
        | none => .ub
        | some l => if l < 0 then .throw "wrong next link 1"
          else (endOf x.g l).bind fun _ => .ok { v with station := s, next := some l }) →
      s = (if v.needs = true then ((k.best o v.dest).join).or v.station else v.station) →
      (Reach x.g n (goal dnode v (k.best o v.dest).join) → ∃ l,
        Begins x.g c n (goal dnode v (k.best o v.dest).join) l ∧
        routeOrigin x k o n v = .ok { v with
          station := if v.needs = true then ((k.best o v.dest).join).or v.station else v.station
          next := some l }) ∧
      (¬ Reach x.g n (goal dnode v (k.best o v.dest).join) → ∃ m, routeOrigin x k o n v = .throw m) := by
    intro tree s ht he hs
    constructor
    · intro hr
      obtain ⟨l, e, -, hbeg⟩ := tree_reach hg hneg ht hn hne hr
      obtain ⟨t, e1, e2, -⟩ := begins_end hbeg
      have hl0 := hpos l (end_node hg e1).1
      refine ⟨l, hbeg, ?_⟩
      rw [he]
      simp only [e, e2, Res.bind_ok', hs]
      rw [if_neg (by omega)]
    · intro hr
      refine ⟨"wrong next link 1", ?_⟩
      rw [he]
      simp only [(ht n hn hne).2 hr]
      rfl
  obtain ⟨td, d1, d2⟩ := hk.dest _ hd
  unfold routeOrigin at main ⊢
  simp only [ha, if_true] at main ⊢
  cases hneed : v.needs with
  | false =>
    simp only [hneed, Bool.false_eq_true, if_false, goal, toDest, d1, Res.bind_ok'] at main ⊢
    exact main td v.station d2 rfl rfl
  | true =>
    simp only [hneed, if_true] at main ⊢
    cases hbest : k.best o v.dest with
    | none =>
      simp only [hbest, hneed, goal, Option.join_none, toDest, d1, Res.bind_ok', Option.none_or] at main ⊢
      exact main td v.station d2 rfl rfl
    | some b =>
      cases b with
      | none =>
        simp only [hbest, hneed, goal, Option.join_some, toDest, d1, Res.bind_ok', Option.none_or] at main ⊢
        exact main td v.station d2 rfl rfl
      | some s =>
        obtain ⟨tp, p1, p2⟩ := hk.poi s (hb s hbest)
        simp only [hbest, hneed, goal, Option.join_some, toPoi, p1, Res.bind_ok', Option.some_or] at main ⊢
        exact main tp (some s) p2 rfl rfl

/-- Vehicles without adaptive routing keep their next link. -/
theorem C125_only_adaptive (x : EvR.Inst) (k : Kept) (dnode : ℕ → ℤ) (pick o : ℕ) (n l : ℤ) (v : EvR.Veh)
    (ha : v.ev.adaptive = false) : routeOrigin x k o n v = .ok v ∧ routeLink x k dnode pick l v = .ok v := by
  simp [routeOrigin, routeLink, ha]

/-- C125: at the end of a link that ends at its destination, a vehicle is to leave the network. -/
theorem C125_at_destinations (x : EvR.Inst) (k : Kept) (dnode : ℕ → ℤ) (pick : ℕ) {l f : ℤ} (v : EvR.Veh)
    (ha : v.ev.adaptive = true) (hl : v.cur = some l) (he : getEndpoints x.g l = .ok (f, dnode v.dest)) :
    routeLink x k dnode pick l v = .ok { v with next := none } := by
  simp [routeLink, ha, hl, endOf, he]

/-- C125: at the end of another link, a vehicle is given the first link of a cheapest way to its station if it needs
charging and has one, and of a cheapest way to its destination otherwise; routing fails if there is no way, whatever
link is drawn instead.  (Vehicles at the station they are to use: below.) -/
theorem C125_at_link_ends {x : EvR.Inst} {ops : List Op} (hg : x.g = run empty ops) (hpos : ∀ l ∈ linkIds x.g, 0 ≤ l)
    {c : ℤ → ℚ} {dnode : ℕ → ℤ} {dests : List ℕ} {pois : List ℤ} {k : Kept}
    (hk : Current x.g c dnode dests pois k.trees) (v : EvR.Veh) (ha : v.ev.adaptive = true) (hd : v.dest ∈ dests)
    (hb : ∀ s, v.station = some s → s ∈ pois) {l f n : ℤ} (hl : v.cur = some l)
    (he : getEndpoints x.g l = .ok (f, n)) (hnd : dnode v.dest ≠ n) (hne : n ≠ goal dnode v v.station) (pick : ℕ) :
    (Reach x.g n (goal dnode v v.station) → ∃ l', Begins x.g c n (goal dnode v v.station) l' ∧
      routeLink x k dnode pick l v = .ok { v with next := some l' }) ∧
    (¬ Reach x.g n (goal dnode v v.station) → ∃ m, routeLink x k dnode pick l v = .throw m) := by
  have hneg : -1 ∉ linkIds x.g := fun h => by have := hpos _ h; omega
  obtain ⟨-, -, hn⟩ := end_node hg he
  -- the tree of the goal is used at both nodes
  obtain ⟨tree, t1, t2, t3⟩ : ∃ tree, TreeTo x.g c (goal dnode v v.station) tree ∧ treeAt k.trees n v = .ok tree ∧
      ∀ m, checkAt k.trees dnode m v = .ok (if m ≠ goal dnode v v.station then some tree else none) := by
    obtain ⟨td, d1, d2⟩ := hk.dest _ hd
    cases hneed : v.needs with
    | false =>
      simp only [goal, hneed]
      refine ⟨td, d2, by simp [treeAt, hneed, toDest, d1], fun m => ?_⟩
      by_cases hm : m = dnode v.dest <;> simp [checkAt, hneed, d1, hm]
    | true =>
      cases hst : v.station with
      | none =>
        simp only [goal, hneed]
        refine ⟨td, d2, by simp [treeAt, hneed, hst, toDest, d1], fun m => ?_⟩
        by_cases hm : m = dnode v.dest <;> simp [checkAt, hneed, hst, d1, hm]
      | some s =>
        obtain ⟨tp, p1, p2⟩ := hk.poi s (hb s hst)
        simp only [goal, hneed, hst] at hne ⊢
        refine ⟨tp, p2, by simp [treeAt, hneed, hst, toPoi, p1, Ne.symm hne], fun m => ?_⟩
        by_cases hm : m = s
        · simp [checkAt, hneed, hst, hm]
        · simp [checkAt, hneed, hst, hm, Ne.symm hm, p1]
  have e0 : endOf x.g l = .ok n := by simp [endOf, he]
  unfold routeLink
  simp only [ha, if_true, hl, ne_eq, not_true_eq_false, if_false, e0, Res.bind_ok', if_neg hnd, t2]
  constructor
  · intro hr
    obtain ⟨l', e, hl', hbeg⟩ := tree_reach hg hneg t1 hn hne hr
    obtain ⟨m, e1, e2, hrm⟩ := begins_end hbeg
    refine ⟨l', hbeg, ?_⟩
    simp only [e, nextAt, if_neg hl', Res.bind_ok', e2, t3]
    by_cases hm : m = goal dnode v v.station
    · simp [hm]
    · obtain ⟨l2, e3, hl2, -⟩ := tree_reach hg hneg t1 (end_node hg e1).2.2 hm hrm
      simp [hm, e3, hl2]
  · intro hr
    simp only [(t1 n hn hne).2 hr, nextAt, if_true]
    obtain ⟨outs, o1, -, -, o2⟩ := (C02_directed_connections ops n .out _ (Nat.lt_succ_self _)).1 (hg ▸ hn)
    rw [← hg] at o1 o2
    simp only [o1, Res.bind_ok']
    cases hp : outs[pick % outs.length]? with
    | none => exact ⟨_, rfl⟩
    | some l' =>
      obtain ⟨f', m, e1, e2⟩ := (o2 l').1 (List.mem_of_getElem? hp)
      simp only at e2
      subst e2
      have e3 : endOf x.g l' = .ok m := by simp [endOf, e1]
      have hrm : ¬ Reach x.g m (goal dnode v v.station) := by
        rintro ⟨ls, hls⟩
        exact hr ⟨l' :: ls, m, e1, hls⟩
      have hm : m ≠ goal dnode v v.station := by
        intro hm
        exact hrm ⟨[], hm⟩
      refine ⟨"Something wrong for the future node", ?_⟩
      simp [e3, t3, hm, (t1 m (end_node hg e1).2.2 hm).2 hrm]

/-- C125, in part: at the end of a link to the station it is to use, a vehicle is given the first link of a cheapest way to
its destination, but only if from the end of that link there is a way back to the station: the check uses the tree
of the station. -/
theorem C125_at_own_stations_partial {x : EvR.Inst} {ops : List Op} (hg : x.g = run empty ops)
    (hpos : ∀ l ∈ linkIds x.g, 0 ≤ l)
    {c : ℤ → ℚ} {dnode : ℕ → ℤ} {dests : List ℕ} {pois : List ℤ} {k : Kept}
    (hk : Current x.g c dnode dests pois k.trees) (v : EvR.Veh) (ha : v.ev.adaptive = true) (hd : v.dest ∈ dests)
    {l f n : ℤ} (hb : n ∈ pois) (hl : v.cur = some l) (he : getEndpoints x.g l = .ok (f, n)) (hnd : dnode v.dest ≠ n)
    (hneed : v.needs = true) (hst : v.station = some n) (pick : ℕ) (hr : Reach x.g n (dnode v.dest)) :
    ∃ l' m, Begins x.g c n (dnode v.dest) l' ∧ getEndpoints x.g l' = .ok (n, m) ∧
      (Reach x.g m n → routeLink x k dnode pick l v = .ok { v with next := some l' }) ∧
      (¬ Reach x.g m n → ∃ s, routeLink x k dnode pick l v = .throw s) := by
  have hneg : -1 ∉ linkIds x.g := fun h => by have := hpos _ h; omega
  obtain ⟨-, -, hn⟩ := end_node hg he
  obtain ⟨td, d1, d2⟩ := hk.dest _ hd
  obtain ⟨tp, p1, p2⟩ := hk.poi n hb
  obtain ⟨l', e, hl', hbeg⟩ := tree_reach hg hneg d2 hn (Ne.symm hnd) hr
  obtain ⟨m, e1, e2, hrm⟩ := begins_end hbeg
  refine ⟨l', m, hbeg, e1, ?_⟩
  have e0 : endOf x.g l = .ok n := by simp [endOf, he]
  have hmn := (end_node hg e1).2.2
  unfold routeLink
  simp only [ha, if_true, hl, ne_eq, not_true_eq_false, if_false, e0, Res.bind_ok', if_neg hnd, treeAt, hneed, hst, toDest,
    d1, e, nextAt, if_neg hl', e2, checkAt]
  by_cases hm : n = m
  · subst hm
    simp only [not_true_eq_false, if_false, Res.bind_ok']
    exact ⟨fun _ => trivial, fun h => absurd ⟨[], rfl⟩ h⟩
  · simp only [hm, not_false_eq_true, if_true, p1, Res.bind_ok']
    constructor
    · intro h
      obtain ⟨l2, e3, hl2, -⟩ := tree_reach hg hneg p2 hmn (Ne.symm hm) h
      simp [e3, hl2]
    · intro h
      refine ⟨"Something wrong for the future node", ?_⟩
      simp [(p2 m hmn (Ne.symm hm)).2 h]

/-- C125: a new vehicle for roadside charging whose range is enough after the first link of its way is sent to a station
at its origin, but from the end of that link to its destination: a vehicle needs charging at the start because it has not
driven yet, which holds no more once it has. -/
theorem C125_new_vehicles_turn_away {x : EvR.Inst} {ops : List Op} (hg : x.g = run empty ops)
    (hpos : ∀ l ∈ linkIds x.g, 0 ≤ l) {c : ℤ → ℚ} {dnode : ℕ → ℤ} {dests : List ℕ} {pois : List ℤ} {k : Kept}
    (hk : Current x.g c dnode dests pois k.trees) (start full : ℚ) (d : ℕ) (hd : d ∈ dests) (o : ℕ) (s : ℤ)
    (hs : k.best o d = some (some s)) (hsp : s ∈ pois) (n : ℤ) (hn : n ∈ nodeIds x.g) (hne : n ≠ s)
    (hr : Reach x.g n s) (hre : ∀ m, Reach x.g n m → Reach x.g m (dnode d)) (hrd : ¬ Reach x.g (dnode d) s)
    (length : ℚ) (hlen : 0 < length) (henough : full / 10 < start - length / 1600) (pick : ℕ) :
    let v : EvR.Veh := ⟨{ Chg.Ev.make start full true false with adaptive := true }, d, none, none, none⟩
    ∃ l m, Begins x.g c n s l ∧ getEndpoints x.g l = .ok (n, m) ∧
      routeOrigin x k o n v = .ok { v with station := some s, next := some l } ∧
      ∃ l', Begins x.g c m (dnode d) l' ∧
        routeLink x k dnode pick l
          { v with ev := v.ev.drive length false, station := some s, cur := some l, next := some l } =
          .ok { v with ev := v.ev.drive length false, station := some s, cur := some l, next := some l' } := by
  intro v
  have n1 : v.needs = true := by
    simp [EvR.Veh.needs, Chg.Ev.needCharging, Chg.Ev.make, v]
  have g1 : goal dnode v (k.best o v.dest).join = s := by
    simp [goal, n1, v, hs]
  obtain ⟨l, hbeg, e⟩ := (C125_at_origins hg hpos hk v rfl hd o (fun s' h => by
    have h : k.best o d = _ := h
    rw [hs] at h
    cases h
    exact hsp) n hn (by rw [g1]; exact hne)).1 (by rw [g1]; exact hr)
  rw [g1] at hbeg
  obtain ⟨m, e1, -, hms⟩ := begins_end hbeg
  have hmd : dnode d ≠ m := by
    rintro rfl
    exact hrd hms
  refine ⟨l, m, hbeg, e1, ?_, ?_⟩
  · rw [e]
    simp [n1, v, hs]
  · have n2 : (⟨v.ev.drive length false, v.dest, some s, some l, some l⟩ : EvR.Veh).needs = false := by
      have h1 := C123_need_before_charging start full true false [.link length false] (by simp)
      have h2 : miles [.link length false] = length / 1600 := by simp [miles, Use.miles]
      have h3 := div_pos hlen (by norm_num : (0 : ℚ) < 1600)
      rw [h2] at h1
      show ((true && (after (Chg.Ev.make start full true false) [.link length false]).needCharging) : Bool) = false
      rw [Bool.true_and, Bool.eq_false_iff, Ne, h1]
      rintro ⟨-, ⟨-, h⟩ | h⟩ <;> linarith
    have g2 : goal dnode ⟨v.ev.drive length false, v.dest, some s, some l, some l⟩ (some s) = dnode d := by
      simp [goal, n2, v]
    have := (C125_at_link_ends hg hpos hk ⟨v.ev.drive length false, v.dest, some s, some l, some l⟩ rfl hd
      (fun s' h => by cases h; exact hsp) rfl e1 hmd (by
        show m ≠ goal dnode _ (some s)
        rw [g2]
        exact Ne.symm hmd) pick).1 (by
        show Reach x.g m (goal dnode _ (some s))
        rw [g2]
        exact hre m ⟨[l], m, e1, rfl⟩)
    obtain ⟨l', hb', e'⟩ := this
    have hb' : Begins x.g c m (goal dnode ⟨v.ev.drive length false, v.dest, some s, some l, some l⟩ (some s)) l' := hb'
    rw [g2] at hb'
    exact ⟨l', hb', e'⟩

/-! ## A network with three stations -/

namespace EvREx

/-- Origin at node 1, destination at node 4, stations at nodes 3, 5 and 6, a junction at node 2, and node 7 that nothing
leads to; from the station at node 6 one gets to the destination only. -/
def ops : List Op := [.addNode 1, .addNode 2, .addNode 3, .addNode 4, .addNode 5, .addNode 6, .addNode 7,
  .addLink 1 2 10, .addLink 2 4 11, .addLink 2 3 12, .addLink 3 2 13, .addLink 2 5 14, .addLink 5 2 15,
  .addLink 2 6 16, .addLink 6 4 17]

/-- A station with two slots, where charging takes three intervals, and the given queues. -/
def station (price : ℚ) (pool : List (List ℕ)) : EvR.Station :=
  { cfg := { id := 0, scalar := 1, unit := 5, slots := 2, time := 3, inLinks := [], outLinks := [] }
    state := { Chg.State.init { id := 0, scalar := 1, unit := 5, slots := 2, time := 3, inLinks := [], outLinks := [] }
      (fun _ => Chg.Ev.make 0 0 true false) with pool := pool }
    price := price }

def x : EvR.Inst :=
  { g := run empty ops
    vot := 2
    tt := fun l => if l = 11 then 100 else 10
    toll := fun l => if l = 10 then 1 else 0
    pq := fun l => decide (12 ≤ l)
    station := fun n =>
      if n = 3 then some (station 4 [[1, 2], [3]]) else if n = 5 then some (station 4 [[], [1, 2, 3]])
      else if n = 6 then some (station 1000 [[]]) else none }

def dnode (_ : ℕ) : ℤ := 4

def pair (nodes : List ℤ) : Pair := ⟨1, 1, 1, 4, nodes⟩

/-- Tables as the constructor leaves them. -/
def kept : Kept :=
  { cost := fun _ => none
    trees := { dest := fun d => if d = 1 then some fun _ => none else none
               poi := fun n => if n = 3 ∨ n = 5 ∨ n = 6 then some fun _ => none else none }
    best := fun o d => if o = 1 ∧ d = 1 then some none else none }

theorem good (nodes : List ℤ) (h : ∀ n ∈ nodes, n ∈ [3, 5, 6]) :
    EvR.Good x ops (linkIds x.g) dnode [1] [3, 5, 6] [pair nodes] kept :=
  { graph := rfl
    linkIds := fun _ => Iff.rfl
    positive := by decide +kernel
    vot := by show (0 : ℚ) ≤ 2; norm_num
    tt := fun l _ => by
      show (0 : ℚ) ≤ if l = 11 then 100 else 10
      split <;> norm_num
    toll := fun l _ => by
      show (0 : ℚ) ≤ if l = 10 then 1 else 0
      split <;> norm_num
    station := by
      intro n s h
      simp only [x] at h
      split_ifs at h <;> cases h <;> refine ⟨?_, ?_, ?_, ?_⟩ <;> simp [station]
    destsOk := by
      intro d hd
      obtain rfl : d = 1 := by simpa using hd
      exact ⟨by decide +kernel, _, rfl⟩
    poisOk := by
      intro n hn
      simp only [List.mem_cons, List.not_mem_nil, or_false] at hn
      rcases hn with rfl | rfl | rfl
      · exact ⟨by decide +kernel, _, rfl⟩
      · exact ⟨by decide +kernel, _, rfl⟩
      · exact ⟨by decide +kernel, _, rfl⟩
    pairsOk := by
      intro p hp
      obtain rfl : p = pair nodes := by simpa using hp
      exact ⟨(by decide +kernel : (1 : ℤ) ∈ nodeIds x.g), by simp [pair], rfl⟩
    nodes := by
      intro p hp
      obtain rfl : p = pair nodes := by simpa using hp
      exact h
    once := List.pairwise_singleton .. }

theorem reach (n : ℤ) (h : n ∈ [3, 5, 6]) : Reach x.g 1 n ∧ Reach x.g n 4 := by
  simp only [List.mem_cons, List.not_mem_nil, or_false] at h
  rcases h with rfl | rfl | rfl
  · exact ⟨⟨[10, 12], 2, by decide +kernel, 3, by decide +kernel, rfl⟩,
      ⟨[13, 11], 2, by decide +kernel, 4, by decide +kernel, rfl⟩⟩
  · exact ⟨⟨[10, 14], 2, by decide +kernel, 5, by decide +kernel, rfl⟩,
      ⟨[15, 11], 2, by decide +kernel, 4, by decide +kernel, rfl⟩⟩
  · exact ⟨⟨[10, 16], 2, by decide +kernel, 6, by decide +kernel, rfl⟩, ⟨[17], 4, by decide +kernel, rfl⟩⟩

/-- What an update and then a question tell. -/
def ask {α : Type} (nodes : List ℤ) (f : Kept → Res α) : Res α :=
  (EvR.update 100 x (linkIds x.g) [(1, 4)] [3, 5, 6] [pair nodes] (fun _ _ l => l.reverse) kept).bind f

/-- A new vehicle at the origin; the vehicle at the end of a link, after some use. -/
def new : EvR.Veh := ⟨Chg.Ev.make 40 100 true false, 1, none, none, none⟩

def at' (l : ℤ) (s : Option ℤ) (us : List Use) : EvR.Veh := ⟨after (Chg.Ev.make 40 100 true false) us, 1, s, some l, none⟩

end EvREx

-- The best station is at node 5, where a slot has no queue; the costs are as the specification says.
set_option synthInstance.maxSize 1024 in
example : EvR.Good EvREx.x EvREx.ops (linkIds EvREx.x.g) EvREx.dnode [1] [3, 5, 6] [EvREx.pair [3, 5, 6]] EvREx.kept ∧
    (∀ p ∈ [EvREx.pair [3, 5, 6]], ∀ n ∈ p.nodes, Reach EvREx.x.g p.onode n ∧ Reach EvREx.x.g n p.dnode) ∧
    EvREx.ask [3, 5, 6] (fun k => .ok ([10, 11, 12, 13, 14, 15, 16, 17].map k.cost, k.best 1 1, k.best 1 2)) =
      .ok ([some 21, some 200, some 660, some 20, some 360, some 20, some 10320, some 20], some (some 5), none) ∧
    EvREx.ask [3, 6] (fun k => .ok (k.best 1 1)) = .ok (some (some 3)) ∧
    EvREx.ask [] (fun k => .ok (k.best 1 1)) = .ok (some none) :=
  ⟨EvREx.good _ (fun _ h => h), fun p hp n hn => by
    obtain rfl : p = EvREx.pair [3, 5, 6] := by simpa using hp
    exact EvREx.reach n hn, by decide +kernel, by decide +kernel, by decide +kernel⟩

/-- The trees of an update exist. -/
theorem EvREx.current : ∃ (k : Kept) (c : ℤ → ℚ), Current EvREx.x.g c EvREx.dnode [1] [3, 5, 6] k.trees ∧
    k.best 1 1 = some (some 5) := by
  obtain ⟨N, k, c, e, -, h, -, hb, -⟩ := C124_best_station (EvREx.good [5] (by simp)) (fun _ _ l => l)
    (fun _ _ l => List.Perm.refl l) (fun p hp n hn => by
      obtain rfl : p = EvREx.pair [5] := by simpa using hp
      exact EvREx.reach n (by
        have : n = 5 := by simpa [EvREx.pair] using hn
        subst this
        simp))
  obtain ⟨n, e1, hn, -⟩ := hb (EvREx.pair [5]) (List.mem_singleton.2 rfl) (by simp [EvREx.pair])
  refine ⟨k, c, h, ?_⟩
  have : n = 5 := by simpa [EvREx.pair] using hn
  subst this
  exact e1

-- A candidate at node 7, which nothing leads to, is taken out by the check and would make the update undefined.
example : (checkPair 100 EvREx.x.g (fun _ => some 1) (EvREx.pair [3, 7, 6]) [3, 7, 6] = .ok [3, 6]) ∧
    (∀ n ∈ (EvREx.pair [3, 7, 6]).nodes, n ∈ nodeIds EvREx.x.g ∧ n ≠ (EvREx.pair [3, 7, 6]).onode ∧
      n ≠ (EvREx.pair [3, 7, 6]).dnode) := by decide +kernel

-- The hypotheses of `C125_at_origins` and `C125_at_link_ends`, and what they say of the new vehicle and of a vehicle at
-- the end of link 10, with range left or not, at the station of node 5 and at the one of node 6, where routing fails.
set_option synthInstance.maxSize 1024 in
example : (∃ (k : Kept) (c : ℤ → ℚ), Current EvREx.x.g c EvREx.dnode [1] [3, 5, 6] k.trees ∧ k.best 1 1 = some (some 5)) ∧
    (goal EvREx.dnode EvREx.new (some 5) = 5 ∧ Reach EvREx.x.g 1 5 ∧ (1 : ℤ) ∈ nodeIds EvREx.x.g) ∧
    EvREx.ask [3, 5] (fun k => (routeOrigin EvREx.x k 1 1 EvREx.new).bind fun v => .ok (v.station, v.next)) =
      .ok (some 5, some 10) ∧
    EvREx.ask [3, 5] (fun k => (routeLink EvREx.x k EvREx.dnode 0 10
      (EvREx.at' 10 (some 5) [.link 16000 false])).bind fun v => .ok (v.station, v.next)) = .ok (some 5, some 11) ∧
    EvREx.ask [3, 5] (fun k => (routeLink EvREx.x k EvREx.dnode 0 10
      (EvREx.at' 10 (some 5) [.link 48000 false])).bind fun v => .ok (v.station, v.next)) = .ok (some 5, some 14) ∧
    EvREx.ask [3, 5] (fun k => (routeLink EvREx.x k EvREx.dnode 0 14
      (EvREx.at' 14 (some 5) [.link 48000 false])).bind fun v => .ok (v.station, v.next)) = .ok (some 5, some 15) ∧
    EvREx.ask [3, 6] (fun k => (routeLink EvREx.x k EvREx.dnode 0 16
      (EvREx.at' 16 (some 6) [.link 48000 false])).bind fun v => .ok (v.station, v.next)) =
      .throw "Something wrong for the future node" :=
  ⟨EvREx.current, ⟨by decide +kernel, (EvREx.reach 5 (by simp)).1, by decide +kernel⟩, by decide +kernel,
    by decide +kernel, by decide +kernel, by decide +kernel, by decide +kernel⟩

theorem EvREx.edge (l f t : ℤ) (e : getEndpoints EvREx.x.g l = .ok (f, t)) :
    f ≠ 4 ∧ t ∈ [1, 2, 3, 4, 5, 6] := by
  have h := (end_node (g := EvREx.x.g) (ops := EvREx.ops) rfl e).1
  have all : ∀ l ∈ linkIds EvREx.x.g, (match getEndpoints EvREx.x.g l with
    | .ok e => decide (e.1 ≠ 4) && decide (e.2 ∈ [1, 2, 3, 4, 5, 6])
    | _ => true) = true := by decide +kernel
  have := all l h
  rw [e] at this
  simpa using this

-- The hypotheses of `C125_new_vehicles_turn_away` about ways and lengths.
example : (∀ m, Reach EvREx.x.g 1 m → Reach EvREx.x.g m (EvREx.dnode 1)) ∧ ¬ Reach EvREx.x.g (EvREx.dnode 1) 5 ∧
    (100 : ℚ) / 10 < 40 - 16000 / 1600 := by
  have stay : ∀ (ls : List ℤ) (u m : ℤ), u ∈ [1, 2, 3, 4, 5, 6] → Walk EvREx.x.g u ls m → m ∈ [1, 2, 3, 4, 5, 6] := by
    intro ls
    induction ls with
    | nil =>
      rintro u m hu rfl
      exact hu
    | cons l ls ih =>
      rintro u m hu ⟨t, e, hw⟩
      exact ih t m (EvREx.edge l u t e).2 hw
  refine ⟨?_, ?_, by norm_num⟩
  · rintro m ⟨ls, hw⟩
    have hm := stay ls 1 m (by simp) hw
    simp only [List.mem_cons, List.not_mem_nil, or_false] at hm
    rcases hm with rfl | rfl | rfl | rfl | rfl | rfl
    · exact ⟨[10, 11], 2, by decide +kernel, 4, by decide +kernel, rfl⟩
    · exact ⟨[11], 4, by decide +kernel, rfl⟩
    · exact (EvREx.reach 3 (by simp)).2
    · exact ⟨[], rfl⟩
    · exact (EvREx.reach 5 (by simp)).2
    · exact (EvREx.reach 6 (by simp)).2
  · rintro ⟨ls, hw⟩
    cases ls with
    | nil => exact absurd (show (4 : ℤ) = 5 from hw) (by decide)
    | cons l ls =>
      obtain ⟨t, e, -⟩ := hw
      exact (EvREx.edge l _ t e).1 rfl

end Verif

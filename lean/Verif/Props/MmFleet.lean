import Verif.Lemmas.MmFleet
import Verif.Lemmas.MmMinutes
import Verif.Lemmas.MmCount

/-! # Properties of the vehicles of multimodal loadings (C167-C169) -/

namespace Verif
open MmF

/-! ## C167: release -/

/-- C167, every origin, demand that is not negative, every minute and all draws: a release makes for each destination as
many cars, trucks and park-and-ride cars as the demand of the minute times the scale says, rounded up or down by the draw,
for each route as many buses as the demand rounded down, and nothing else; the vehicles get the next numbers, the
attributes of `Released`, a place in the queue of the origin, and are counted by kind. -/
theorem C167_release (o : Org) (dm : Demand) (dr : Draws) (hsh : ∀ l, (dr.shuffle l).Perm l) (hs : 0 ≤ o.scalar)
    (ts a : ℕ) (hd : dm.Ok a) (m : Ratios) (s s' : MmF.State) (h : release o dm dr ts a m s = .ok s') :
    ∃ new : List MmF.Veh,
      s'.fleet.vehs = s.fleet.vehs ++ new ∧
      new.map (·.id) = List.range' (s.fleet.num + 1) new.length ∧
      s'.fleet.num = s.fleet.num + new.length ∧
      s'.queue.Perm (s.queue ++ new.map (·.id)) ∧
      (∀ v ∈ new, MmF.Released o ts v) ∧
      Served dm.car a o.scalar dr.uCar (toDest new .car) ∧
      Served dm.truck a o.scalar dr.uTruck (toDest new .truck) ∧
      Served dm.pnr a o.scalar dr.uPnr (toDest new .pnr) ∧
      (∀ p ∈ dm.bus, ∀ q ∈ p.2, ∃ x, q.2[a]? = some x ∧ (onRoute new p.1 q.1 : ℤ) = ⌊x * o.scalar⌋) ∧
      (∀ v ∈ new, v.kind = .bus → ∃ p ∈ dm.bus, p.1 = v.dest ∧ v.route ∈ p.2.map (·.1)) ∧
      s'.fleet.enroute = s.fleet.enroute + new.length ∧
      (∀ k, s'.fleet.numOf k = s.fleet.numOf k + (new.countP fun v => v.kind == k : ℕ)) ∧
      (∀ k, s'.fleet.enrouteOf k = s.fleet.enrouteOf k + (new.countP fun v => v.kind == k : ℕ)) ∧
      s'.fleet.finished = s.fleet.finished ∧ s'.fleet.finishedOf = s.fleet.finishedOf := by
  obtain ⟨c, t, b, p, z, rt, rp, hadd, rfl, hc, ht, hb, hp, -, -, -, -, hcnt⟩ := release_added hs h
  obtain ⟨nc, nt, nb, np⟩ := hcnt hd
  have kc : ∀ v ∈ c, v.kind = .car := by
    intro v hv
    obtain ⟨q, e, _⟩ := hc v hv
    rw [e, kind_newVeh]; rfl
  have kt : ∀ v ∈ t, v.kind = .truck := by
    intro v hv
    obtain ⟨q, e, _⟩ := ht v hv
    rw [e, kind_newVeh]; rfl
  have kp : ∀ v ∈ p, v.kind = .pnr := by
    intro v hv
    obtain ⟨q, e, _⟩ := hp v hv
    rw [e, kind_newVeh]; rfl
  have rb : ∀ v ∈ b, v.route ≠ -1 := by
    intro v hv
    obtain ⟨_, q, hq, _, hr⟩ := hb v hv
    rw [List.mem_map] at hr
    obtain ⟨x, hx, e⟩ := hr
    rw [← e]
    exact hd.route q hq x hx
  have kb : ∀ v ∈ b, v.kind = .bus := by
    intro v hv
    rw [(hb v hv).1, kind_newBus _ _ _ _ _ (rb v hv)]
  have dc : ∀ v ∈ c, v.dest ∈ dm.car.map (·.1) := fun v hv => by obtain ⟨q, _, e, _⟩ := hc v hv; exact e
  have dt : ∀ v ∈ t, v.dest ∈ dm.truck.map (·.1) := fun v hv => by obtain ⟨q, _, e, _⟩ := ht v hv; exact e
  have dp : ∀ v ∈ p, v.dest ∈ dm.pnr.map (·.1) := fun v hv => by obtain ⟨q, _, e, _⟩ := hp v hv; exact e
  have tc : ∀ d, toDest (c ++ t ++ b ++ p) .car d = c.countP fun v => v.dest == d := by
    intro d
    simp [toDest, List.countP_append, countP_kind kc, countP_kind kt, countP_kind kb, countP_kind kp]
  have tt : ∀ d, toDest (c ++ t ++ b ++ p) .truck d = t.countP fun v => v.dest == d := by
    intro d
    simp [toDest, List.countP_append, countP_kind kc, countP_kind kt, countP_kind kb, countP_kind kp]
  have tp : ∀ d, toDest (c ++ t ++ b ++ p) .pnr d = p.countP fun v => v.dest == d := by
    intro d
    simp [toDest, List.countP_append, countP_kind kc, countP_kind kt, countP_kind kb, countP_kind kp]
  refine ⟨c ++ t ++ b ++ p, hadd.vehs, hadd.ids, hadd.num, ?_, ?_, ⟨?_, ?_⟩, ⟨?_, ?_⟩, ⟨?_, ?_⟩, ?_, ?_, hadd.enroute,
    hadd.numOf, hadd.enrouteOf, hadd.finished, hadd.finishedOf⟩
  · rw [hadd.ids, ← hadd.queue]
    exact hsh _
  · intro v hv
    simp only [List.mem_append] at hv
    rcases hv with ((hv | hv) | hv) | hv
    · obtain ⟨q, e, _⟩ := hc v hv
      rw [e]; exact released_newVeh _ _ _ _ _ _ _ _ (by simp)
    · obtain ⟨q, e, _⟩ := ht v hv
      rw [e]; exact released_newVeh _ _ _ _ _ _ _ _ (by simp)
    · rw [(hb v hv).1]; exact released_newBus _ _ _ _ _ (rb v hv)
    · obtain ⟨q, e, _⟩ := hp v hv
      rw [e]; exact released_newVeh _ _ _ _ _ _ _ _ (by simp)
  · intro i d dem hi; rw [tc]; exact nc i d dem hi
  · intro d hd'; rw [tc]; exact countP_dest_none dc hd'
  · intro i d dem hi; rw [tt]; exact nt i d dem hi
  · intro d hd'; rw [tt]; exact countP_dest_none dt hd'
  · intro i d dem hi; rw [tp]; exact np i d dem hi
  · intro d hd'; rw [tp]; exact countP_dest_none dp hd'
  · intro q hq q' hq'
    obtain ⟨x, hx, e⟩ := nb q hq q' hq'
    refine ⟨x, hx, ?_⟩
    rw [← e]
    simp [onRoute, Bool.and_assoc, List.countP_append, countP_kind kc, countP_kind kt, countP_kind kb, countP_kind kp]
  · intro v hv hk
    simp only [List.mem_append] at hv
    rcases hv with ((hv | hv) | hv) | hv
    · rw [kc v hv] at hk; simp at hk
    · rw [kt v hv] at hk; simp at hk
    · exact (hb v hv).2
    · rw [kp v hv] at hk; simp at hk

/-- C167, release succeeds in every minute for which there is demand for all destinations and for which vehicles can be
counted. -/
theorem C167_succeeds (o : Org) (dm : Demand) (dr : Draws) (ts a : ℕ) (m : Ratios) (s : MmF.State) (hf : o.freq ≠ 0)
    (hc : ∀ p ∈ dm.car ++ dm.truck ++ dm.pnr, ∃ x, p.2[a]? = some x ∧ 0 ≤ x * o.scalar ∧ x * o.scalar < 2147483647)
    (hb : ∀ p ∈ dm.bus, ∀ q ∈ p.2, ∃ x, q.2[a]? = some x ∧ 0 ≤ x * o.scalar ∧ x * o.scalar < 2147483647)
    (hrc : ∀ d f, dm.ratioCar d = some f → a < f.length) (hrt : ∀ d f, dm.ratioTruck d = some f → a < f.length) :
    ∃ s', release o dm dr ts a m s = .ok s' :=
  release_ok hf (fun p hp => hc p (by simp [hp])) (fun p hp => hc p (by simp [hp])) hb
    (fun p hp => hc p (by simp [hp])) hrc hrt

/-- C167: before the first assignment interval nothing is released. -/
theorem C167_before (o : Org) (dm : Demand) (dr : Draws) (ts : ℕ) (a : ℤ) (ha : a < 0) (m : Ratios) (s : MmF.State) :
    release o dm dr ts a m s = .ok s := by
  unfold release
  rw [if_pos ha]

/-- C167, which vehicles are adaptive: cars and trucks for a destination with its own share by that share, and, if no
destination has one, all cars, trucks and park-and-ride cars by the share of the loading (one for all, or one for cars
and one for trucks). -/
theorem C167_adaptive_partial (o : Org) (dm : Demand) (dr : Draws) (hr : ∀ i, dr.r i ≤ 1) (hs : 0 ≤ o.scalar)
    (ts a : ℕ) (hd : dm.Ok a) (m : Ratios) (s s' : MmF.State) (h : release o dm dr ts a m s = .ok s') :
    ∃ new : List MmF.Veh, s'.fleet.vehs = s.fleet.vehs ++ new ∧ ∀ v ∈ new,
      (∀ f q, v.kind = .car → dm.ratioCar v.dest = some f → f[a]? = some q → 0 ≤ q → AdaptiveBy q (dr.r v.id) v.adaptive) ∧
      (∀ f q, v.kind = .truck → dm.ratioTruck v.dest = some f → f[a]? = some q → 0 ≤ q →
        AdaptiveBy q (dr.r v.id) v.adaptive) ∧
      ((∀ d, dm.ratioCar d = none) → (∀ d, dm.ratioTruck d = none) →
        (∀ r, m = .one r → 0 ≤ r → v.kind ≠ .bus → AdaptiveBy r (dr.r v.id) v.adaptive) ∧
        (∀ rc rt, m = .two rc rt → 0 ≤ rc → (v.kind = .car ∨ v.kind = .pnr) → AdaptiveBy rc (dr.r v.id) v.adaptive) ∧
        (∀ rc rt, m = .two rc rt → 0 ≤ rt → v.kind = .truck → AdaptiveBy rt (dr.r v.id) v.adaptive)) := by
  obtain ⟨c, t, b, p, z, rt, rp, hadd, rfl, hc, ht, hb, hp, e1, e2, e3, e4, -⟩ := release_added hs h
  refine ⟨_, hadd.vehs, ?_⟩
  have rb : ∀ v ∈ b, v.kind = .bus := by
    intro v hv
    obtain ⟨e, q, hq, _, hr⟩ := hb v hv
    rw [List.mem_map] at hr
    obtain ⟨x, hx, e'⟩ := hr
    rw [e, kind_newBus _ _ _ _ _ (e' ▸ hd.route q hq x hx)]
  have ad : ∀ (v : MmF.Veh) tr pn q, v = newVeh o dr ts tr pn q v.dest v.id → 0 ≤ q →
      AdaptiveBy q (dr.r v.id) v.adaptive := by
    intro v tr pn q e hq
    have : v.adaptive = adaptiveWith q (dr.r v.id) := by rw [e]; rfl
    rw [this]
    exact adaptiveBy (hr _) hq
  intro v hv
  simp only [List.mem_append] at hv
  rcases hv with ((hv | hv) | hv) | hv
  · obtain ⟨q, e, _, h3, h4⟩ := hc v hv
    have hk : v.kind = .car := by rw [e, kind_newVeh]; rfl
    refine ⟨?_, ?_, ?_⟩
    · intro f x _ hf hx h0
      have : x = q := by have := h3 f hf; rw [hx] at this; simpa using this
      rw [this] at h0 ⊢
      exact ad v _ _ q e h0
    · intro f x k; rw [hk] at k; simp at k
    · intro n1 n2
      have hq := h4 (fun p _ => n1 p.1)
      refine ⟨?_, ?_, ?_⟩
      · rintro r rfl h0 _
        have hq : q = r := hq
        rw [← hq] at h0 ⊢; exact ad v _ _ q e h0
      · rintro r1 r2 rfl h0 _
        have hq : q = r1 := hq
        rw [← hq] at h0 ⊢; exact ad v _ _ q e h0
      · intro r1 r2 _ _ k; rw [hk] at k; simp at k
  · obtain ⟨q, e, _, h3, h4⟩ := ht v hv
    have hk : v.kind = .truck := by rw [e, kind_newVeh]; rfl
    refine ⟨?_, ?_, ?_⟩
    · intro f x k; rw [hk] at k; simp at k
    · intro f x _ hf hx h0
      have : x = q := by have := h3 f hf; rw [hx] at this; simpa using this
      rw [this] at h0 ⊢
      exact ad v _ _ q e h0
    · intro n1 n2
      have hq := h4 (fun p _ => n2 p.1)
      refine ⟨?_, ?_, ?_⟩
      · intro r hm h0 _
        have hq : q = r := hq.trans (e1 r hm (fun p _ => n1 p.1))
        rw [← hq] at h0 ⊢; exact ad v _ _ q e h0
      · intro r1 r2 _ _ k; rw [hk] at k; simp at k
      · intro r1 r2 hm h0 _
        have hq : q = r2 := hq.trans (e3 r1 r2 hm)
        rw [← hq] at h0 ⊢; exact ad v _ _ q e h0
  · have hk := rb v hv
    refine ⟨?_, ?_, ?_⟩
    · intro f x k; rw [hk] at k; simp at k
    · intro f x k; rw [hk] at k; simp at k
    · intro _ _
      refine ⟨fun r _ _ k => absurd hk k, fun _ _ _ _ k => ?_, fun _ _ _ _ k => ?_⟩ <;> rw [hk] at k <;> simp at k
  · obtain ⟨q, e, _, h3, h4⟩ := hp v hv
    have hk : v.kind = .pnr := by rw [e, kind_newVeh]; rfl
    refine ⟨?_, ?_, ?_⟩
    · intro f x k; rw [hk] at k; simp at k
    · intro f x k; rw [hk] at k; simp at k
    · intro n1 n2
      have hq := h4 (fun p _ => rfl)
      refine ⟨?_, ?_, ?_⟩
      · intro r hm h0 _
        have hq : q = r := hq.trans (e2 r hm (fun p _ => n1 p.1) (fun p _ => n2 p.1))
        rw [← hq] at h0 ⊢; exact ad v _ _ q e h0
      · intro r1 r2 hm h0 _
        have hq : q = r1 := hq.trans (e4 r1 r2 hm (fun p _ => n1 p.1))
        rw [← hq] at h0 ⊢; exact ad v _ _ q e h0
      · intro r1 r2 _ _ k; rw [hk] at k; simp at k

/-- An origin with 1.5 cars, one truck, 2.4 buses on route 7, 1.2 on route 8 and one park-and-ride car per minute. -/
def mfOrg : Org := ⟨3, 2, 180, 12, 40⟩

def mfDemand : Demand :=
  { car := [(5, [3 / 4]), (6, [0])], truck := [(5, [1 / 2])], bus := [(5, [(7, [6 / 5]), (8, [3 / 5])])],
    pnr := [(6, [1 / 2])], ratioCar := fun _ => none, ratioTruck := fun d => if d = 5 then some [1] else none }

def mfDraws : Draws := ⟨fun _ => 1 / 4, fun _ => 1 / 2, fun _ => 1 / 2, fun _ => 1 / 2, List.reverse⟩

/-- C167 is false for park-and-ride: when trucks for a destination have their own share of adaptive drivers, the
park-and-ride cars get it too, though the share of the loading is 0 (and no file gives them one). -/
theorem C167_false_share_of_trucks :
    (∀ d, mfDemand.ratioCar d = none) ∧
    ∃ s', release mfOrg mfDemand mfDraws 360 0 (.one 0) ⟨Fleet.empty, []⟩ = .ok s' ∧
      ∃ v ∈ s'.fleet.vehs, v.kind = .pnr ∧ v.adaptive = true := by
  refine ⟨fun _ => rfl, ?_⟩
  have h : (release mfOrg mfDemand mfDraws 360 0 (.one 0) ⟨Fleet.empty, []⟩).bind (fun s =>
      .ok (decide (∃ v ∈ s.fleet.vehs, v.kind = .pnr ∧ v.adaptive = true))) = .ok true := by decide +kernel
  obtain ⟨s', hs, h⟩ := Res.bind_eq_ok'.1 h
  simp only [Res.ok.injEq, decide_eq_true_eq] at h
  exact ⟨s', hs, h⟩

example : mfDemand.Ok 0 := by
  constructor
  case bus => decide +kernel
  case route => decide +kernel
  all_goals simp [mfDemand] <;> norm_num

/-- What is released at interval 360: cars 1 and 2, a truck, three buses and a park-and-ride car. -/
example : (release mfOrg mfDemand mfDraws 360 0 (.two 0 0) ⟨Fleet.empty, []⟩).bind (fun s =>
    .ok (s.queue, s.fleet.vehs.map fun v => (v.kind, v.route, v.dest, v.adaptive))) =
    .ok ([7, 6, 5, 4, 3, 2, 1],
      [(.car, -1, 5, false), (.car, -1, 5, false), (.truck, -1, 5, true), (.bus, 7, 5, false), (.bus, 7, 5, false),
       (.bus, 8, 5, false), (.pnr, -1, 6, false)]) := by
  decide +kernel

example : (release mfOrg mfDemand mfDraws 360 0 (.two 0 0) ⟨Fleet.empty, []⟩).bind (fun s =>
    .ok (s.fleet.vehs.map fun v => (v.id, v.assign, v.capacity, v.wait), s.fleet.numOf .bus)) =
    .ok ([(1, 2, 1, 0), (2, 2, 1, 0), (3, 2, 1, 0), (4, 2, 40, 0), (5, 2, 40, 0), (6, 2, 40, 0), (7, 2, 1, 12)], 3) := by
  decide +kernel

/-! ## C168: from the demand file to the minutes -/

/-- C168, all of the demand in the first minute (`init_demand_split` 0), intervals of 15 minutes: the minutes of every
interval hold the demand of the file, and as many buses leave as it says, rounded down. -/
theorem C168_first_minute (scalar : ℚ) (ds row : List ℚ) (h : readRow 0 15 scalar ds = .ok row) (j : ℕ) (d : ℚ)
    (hj : ds[j]? = some d) :
    (row.drop (15 * j)).take 15 = d :: List.replicate 14 0 ∧ busesIn row scalar 15 j = ⌊d * scalar⌋ := by
  have hb := minuteRow_block (readRow_15 h) hj
  unfold spreadRow at hb
  rw [if_pos rfl, if_neg (by decide)] at hb
  simp only [Res.ok.injEq] at hb
  rw [busesIn, ← hb]
  simp

/-- C168, demand spread over the minutes (`init_demand_split` 1), intervals of 15 minutes: if the interval has demand for
at least one vehicle, then its minutes hold it in total, evenly in the first minutes and at least one vehicle in each. -/
theorem C168_spread_partial (scalar : ℚ) (ds row : List ℚ) (h : readRow 1 15 scalar ds = .ok row) (j : ℕ) (d : ℚ)
    (hj : ds[j]? = some d) (h1 : 1 ≤ d * scalar) :
    ((row.drop (15 * j)).take 15).sum = d ∧
    ∃ k : ℕ, 1 ≤ k ∧ k ≤ 15 ∧ (∀ i < k, row[15 * j + i]? = some (d / k) ∧ 1 ≤ d / k * scalar) ∧
      ∀ i, k ≤ i → i < 15 → row[15 * j + i]? = some 0 := by
  have hb := minuteRow_block (readRow_15 h) hj
  obtain ⟨k, k1, k15, hk, he⟩ := (spread_block hb).2 h1
  have hkq : (0 : ℚ) < (k : ℚ) := by exact_mod_cast k1
  have hget : ∀ i < 15, row[15 * j + i]? = (List.replicate k (d / (k : ℚ)) ++ List.replicate (15 - k) 0)[i]? := by
    intro i hi
    rw [← he, List.getElem?_take_of_lt hi, List.getElem?_drop]
  refine ⟨?_, k, k1, k15, ?_, ?_⟩
  · rw [he]
    simp only [List.sum_append, List.sum_replicate, nsmul_eq_mul]
    field_simp
    simp
  · intro i hi
    refine ⟨?_, ?_⟩
    · rw [hget i (by omega), List.getElem?_append_left (by simpa using hi)]
      simp [hi]
    · rw [div_mul_eq_mul_div, le_div_iff₀ hkq, one_mul]
      have : (k : ℤ) ≤ ⌊d * scalar⌋ := by omega
      exact_mod_cast Int.le_floor.1 this
  · intro i hi hi15
    rw [hget i hi15, List.getElem?_append_right (by simpa using hi), List.getElem?_replicate, if_pos]
    rw [List.length_replicate]
    omega

/-- C168 is false when demand is spread: an interval with demand for less than one vehicle holds none in any of its
minutes, so that nothing is ever released, whatever the draws. -/
theorem C168_false_below_one (scalar : ℚ) (ds row : List ℚ) (h : readRow 1 15 scalar ds = .ok row) (j : ℕ) (d : ℚ)
    (hj : ds[j]? = some d) (h1 : d * scalar < 1) : (row.drop (15 * j)).take 15 = List.replicate 15 0 :=
  (spread_block (minuteRow_block (readRow_15 h) hj)).1 h1

/-- C168, buses when demand is spread: all whole buses of an interval leave if there are at most 15 of them; of more, only
the same number in every minute, which loses up to 14. -/
theorem C168_buses_partial (scalar : ℚ) (ds row : List ℚ) (h : readRow 1 15 scalar ds = .ok row) (j : ℕ) (d : ℚ)
    (hj : ds[j]? = some d) (h0 : 0 ≤ d * scalar) :
    (d * scalar < 16 → busesIn row scalar 15 j = ⌊d * scalar⌋) ∧
    (16 ≤ d * scalar → busesIn row scalar 15 j = 15 * ⌊d * scalar / 15⌋ ∧
      d * scalar - 15 < busesIn row scalar 15 j ∧ (busesIn row scalar 15 j : ℚ) ≤ d * scalar) := by
  have hb := buses_spread h0 (minuteRow_block (readRow_15 h) hj)
  rw [← busesIn] at hb
  refine ⟨fun hx => ?_, fun hx => ?_⟩
  · rw [hb, if_pos hx]
  · rw [if_neg (not_lt.2 hx)] at hb
    refine ⟨hb, ?_, ?_⟩
    · rw [hb]
      have := Int.lt_floor_add_one (d * scalar / 15)
      push_cast
      linarith
    · rw [hb]
      have := Int.floor_le (d * scalar / 15)
      push_cast
      linarith

/-- C168 is false for frequent buses: of 29 buses in an interval, 15 leave. -/
theorem C168_false_buses_lost :
    ∃ row, readRow 1 15 1 [29] = .ok row ∧ busesIn row 1 15 0 = 15 := by
  have h : (readRow 1 15 1 [29]).bind (fun row => .ok (busesIn row 1 15 0)) = .ok 15 := by decide +kernel
  obtain ⟨row, hr, h⟩ := Res.bind_eq_ok'.1 h
  exact ⟨row, hr, by simpa using h⟩

/-- C168, the length of an interval is fixed at 15 minutes: with fewer minutes reading goes beyond the array, with more
the last minutes are missing when vehicles should be released. -/
theorem C168_fifteen (split : ℤ) (n : ℕ) (scalar : ℚ) (ds : List ℚ) (hds : ds ≠ []) :
    (∀ row, minuteRow split n scalar ds = .ok row → n < 15 → readRow split n scalar ds = .ub) ∧
    (∀ row, readRow split n scalar ds = .ok row → 15 < n → entry row (n * ds.length - 1) = .ub) := by
  have hl : 0 < ds.length := List.length_pos_iff.2 hds
  refine ⟨fun row h hn => ?_, fun row h hn => ?_⟩
  · unfold readRow copyRow
    rw [h]
    have := minuteRow_length h
    simp only [Res.bind]
    rw [if_pos]
    rw [this, Nat.mul_comm]
    exact Nat.mul_lt_mul_of_pos_left hn hl
  · obtain ⟨r, hr, hle, rfl⟩ := readRow_ok h
    have : (List.take (ds.length * 15) r).length ≤ n * ds.length - 1 := by
      rw [List.length_take]
      have : ds.length * 15 < ds.length * n := Nat.mul_lt_mul_of_pos_left hn hl
      rw [Nat.mul_comm n]
      omega
    unfold entry
    rw [List.getElem?_eq_none this]

example : (readRow 1 15 2 [7 / 2, 1 / 4]).bind (fun row => .ok (row.take 16)) =
    .ok [1 / 2, 1 / 2, 1 / 2, 1 / 2, 1 / 2, 1 / 2, 1 / 2, 0, 0, 0, 0, 0, 0, 0, 0, 0] := by decide +kernel
example : (readRow 0 15 2 [7 / 2, 1 / 4]).isOk = true := by decide +kernel
example : (minuteRow 1 5 2 [7 / 2]).isOk = true := by decide +kernel
example : (readRow 1 20 2 [7 / 2]).isOk = true := by decide +kernel

/-! ## C169: counters and the report -/

/-- C169, all histories of making vehicles and of vehicles finishing: the counters of every kind are the numbers of
vehicles made, finished and under way; the vehicles kept are those made and not finished; and the times added up are those
of the vehicles that have finished, cars and park-and-ride cars together, trucks, and buses. -/
theorem C169_counters (ops : List MmF.Op) (f : Fleet) (h : Fleet.run ops = .ok f) :
    (f.vehs = (made ops).filter fun v => (finishOf ops v.id).isNone) ∧
    (made ops).map (·.id) = List.range' 1 f.num ∧
    (∀ k, f.numOf k = numKind ops k) ∧ (∀ k, f.finishedOf k = doneKind ops k) ∧
    (∀ k, f.enrouteOf k = f.numOf k - f.finishedOf k) ∧
    (∀ k, f.enrouteOf k = (f.vehs.countP fun v => v.kind == k : ℕ)) ∧
    f.enroute = f.vehs.length ∧ f.finished = f.num - f.enroute ∧
    f.timeCar = (((made ops).filter fun v => !v.truck && (finishOf ops v.id).isSome).map (spent ops 0)).sum ∧
    f.timeTruck = (((made ops).filter fun v => v.kind == .truck && (finishOf ops v.id).isSome).map (spent ops 0)).sum ∧
    f.timeBus = (((made ops).filter fun v => v.kind == .bus && (finishOf ops v.id).isSome).map (spent ops 0)).sum ∧
    f.time = f.timeCar + f.timeTruck + f.timeBus := by
  have hi := run_inv ops h
  have hsplit : ∀ p : MmF.Veh → Bool, ((made ops).countP p) =
      (made ops).countP (fun v => p v && (finishOf ops v.id).isSome) +
        (made ops).countP fun v => p v && (finishOf ops v.id).isNone := by
    intro p
    generalize made ops = L
    induction L with
    | nil => rfl
    | cons v L ih =>
      simp only [List.countP_cons, ih]
      cases e : finishOf ops v.id <;> cases e2 : p v <;> simp <;> omega
  refine ⟨hi.vehs, ?_, hi.numOf, hi.finishedOf, ?_, ?_, ?_, ?_, ?_, ?_, ?_, ?_⟩
  · rw [hi.num, made, madeFrom_ids]
  · intro k
    rw [hi.numOf, hi.finishedOf, hi.enrouteOf, numKind, doneKind]
    have := hsplit fun v => v.kind == k
    omega
  · intro k
    rw [hi.enrouteOf, hi.vehs, List.countP_filter]
  · rw [hi.enroute, hi.vehs, List.countP_eq_length_filter]
  · rw [hi.enroute, hi.finished, hi.num]
    have := hsplit fun _ => true
    simp only [Bool.true_and, List.countP_true] at this
    omega
  · rw [hi.timeCar, filter_sum]; rfl
  · rw [hi.timeTruck, filter_sum]; rfl
  · rw [hi.timeBus, filter_sum]; rfl
  · rw [hi.time, hi.timeCar, hi.timeTruck, hi.timeBus, doneTime, doneTime, doneTime, doneTime, ← List.sum_map_add,
      ← List.sum_map_add]
    congr 1
    apply List.map_congr_left
    intro v _
    by_cases e : v.truck = true <;> by_cases e2 : v.route = -1 <;> by_cases e3 : v.pnr = true <;>
      simp [Veh.kind, e, e2, e3]

/-- C169, the travel statistics at every moment of every history: the numbers of vehicles are those made so far, the
hours of cars are those spent by all cars and park-and-ride cars until they finished or until now; the hours of trucks
and buses together are right, and each of them is right when no truck is under way. -/
theorem C169_travel_stats_partial (ops : List MmF.Op) (f : Fleet) (h : Fleet.run ops = .ok f) (unit scalar : ℚ) (cur : ℤ) :
    let s := travelStats unit scalar cur f
    s.cars = numKind ops .car / scalar ∧ s.pnrs = numKind ops .pnr / scalar ∧
    s.trucks = numKind ops .truck / scalar ∧ s.buses = numKind ops .bus / scalar ∧
    s.hoursCar = hours ops unit cur (fun k => k == .car || k == .pnr) / scalar ∧
    s.hoursTruck + s.hoursBus = hours ops unit cur (fun k => k == .truck || k == .bus) / scalar ∧
    ((∀ v ∈ f.vehs, v.kind ≠ .truck) →
      s.hoursTruck = hours ops unit cur (fun k => k == .truck) / scalar ∧
      s.hoursBus = hours ops unit cur (fun k => k == .bus) / scalar) := by
  obtain ⟨hv, -, hn, hfin, hen, hev, -⟩ := C169_counters ops f h
  have hi := run_inv ops h
  have hnum : ∀ k, ((f.finishedOf k : ℤ) : ℚ) + ((f.vehs.countP fun v => v.kind == k : ℕ) : ℚ) = (numKind ops k : ℚ) := by
    intro k
    have h1 := hen k
    rw [hev k, hn k] at h1
    have : f.finishedOf k + (f.vehs.countP fun v => v.kind == k : ℕ) = (numKind ops k : ℕ) := by linarith
    exact_mod_cast this
  have hcar : (fun v : MmF.Veh => (v.kind == Kind.car || v.kind == Kind.pnr)) = fun v => !v.truck := by
    funext v
    by_cases e : v.truck = true <;> by_cases e2 : v.route = -1 <;> by_cases e3 : v.pnr = true <;>
      simp [Veh.kind, e, e2, e3]
  have htb : (fun v : MmF.Veh => (v.kind == Kind.truck || v.kind == Kind.bus)) = fun v => v.truck := by
    funext v
    by_cases e : v.truck = true <;> by_cases e2 : v.route = -1 <;> by_cases e3 : v.pnr = true <;>
      simp [Veh.kind, e, e2, e3]
  have hall : doneTime ops (fun v => v.truck) = f.timeTruck + f.timeBus := by
    rw [hi.timeTruck, hi.timeBus, doneTime, doneTime, doneTime, ← List.sum_map_add]
    congr 1
    apply List.map_congr_left
    intro v _
    by_cases e : v.truck = true <;> by_cases e2 : v.route = -1 <;> by_cases e3 : v.pnr = true <;>
      simp [Veh.kind, e, e2, e3]
  simp only [travelStats, stats_fold, hours, spent_split, ← hv]
  refine ⟨by rw [hnum], by rw [hnum], by rw [hnum], by rw [hnum], ?_, ?_, ?_⟩
  · rw [hcar, ← hi.timeCar]
    push_cast
    ring
  · rw [htb, hall]
    push_cast
    ring
  · intro hno
    have ht : f.vehs.filter (fun v => v.kind == .truck) = [] := by
      rw [List.filter_eq_nil_iff]
      intro v hv
      simpa using hno v hv
    have hb : f.vehs.filter (fun v => v.truck) = f.vehs.filter (fun v => v.kind == .bus) := by
      apply List.filter_congr
      intro v hv
      have := hno v hv
      by_cases e : v.truck = true <;> by_cases e2 : v.route = -1 <;> by_cases e3 : v.pnr = true <;>
        simp_all [Veh.kind]
    rw [ht, hb, ← hi.timeTruck, ← hi.timeBus]
    refine ⟨by simp, ?_⟩
    push_cast
    ring

/-- A truck, number 1, made at 0. -/
def mfTruck : MmF.Veh := ⟨0, true, -1, false, false, 3, 5, 0, 0, 1, 0⟩

/-- C169 is false while trucks are under way: their hours are reported as hours of buses, though there is no bus. -/
theorem C169_false_trucks_as_buses :
    ∃ f, Fleet.run [.make mfTruck] = .ok f ∧
      (travelStats 5 1 720 f).buses = 0 ∧ (travelStats 5 1 720 f).hoursBus = 1 ∧
      (travelStats 5 1 720 f).hoursTruck = 0 ∧ hours [.make mfTruck] 5 720 (fun k => k == .truck) = 1 ∧
      hours [.make mfTruck] 5 720 (fun k => k == .bus) = 0 := by
  refine ⟨_, rfl, ?_, ?_, ?_, ?_, ?_⟩ <;> decide +kernel

/-- A car and a bus are made, the bus finishes at 30, a truck is made: at 60 the car and the truck are under way. -/
def mfOps : List MmF.Op :=
  [.make { mfTruck with truck := false }, .make { mfTruck with route := 7, start := 10 }, .finish 2 30, .make mfTruck]

set_option synthInstance.maxSize 1024 in
example : (Fleet.run mfOps).bind (fun f => .ok (f.num, f.numOf .bus, f.finishedOf .bus, f.enrouteOf .car, f.timeBus,
    f.vehs.map (·.id), travelStats 60 1 60 f)) = .ok (3, 1, 1, 1, 20, [1, 3], ⟨1, 0, 1, 1, 1, 0, 1 / 3 + 1⟩) := by
  decide +kernel

example : (Fleet.run (mfOps ++ [.finish 3 50])).bind (fun f => .ok (decide (∀ v ∈ f.vehs, v.kind ≠ .truck),
    travelStats 60 1 60 f)) = .ok (true, ⟨1, 0, 1, 1, 1, 5 / 6, 1 / 3⟩) := by decide +kernel

end Verif

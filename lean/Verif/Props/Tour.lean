import Verif.Lemmas.TourRelease

/-!
# C126-C129: vehicles with a sequence of trips

Delivery vehicles and electrified vehicles: the trips they make, where they are, how they are released and how they wait
at pick-ups.
-/

namespace Verif
open Tour

namespace TourEx

/-- Two origins (1 and 2) and two destinations (7 and 8).  Origin 1 releases a vehicle to 8 and one with two trips, from
1 to 7 and from 2 to 8; all vehicles are electrified. -/
def cfg : Cfg :=
  { scalar := 1, assignFreq := 10, totalAssign := 1, ratio := 0, evLabel := some 0, rangeRoadside := 20,
    rangeOther := 50, full := 100, origins := [1, 2],
    origin := fun o => if o = 1 then
        { freq := 10, labels := [1], demand := [(8, fun _ => 1)], tours := [([(1, 7), (2, 8)], fun _ => 1)],
          pickup := 0, roadside := 1 / 2 }
      else { freq := 10, labels := [1], demand := [], tours := [], pickup := 3, roadside := 0 },
    dests := [7, 8] }

def draws : ReleaseOracle :=
  { u := fun _ => 0, u' := fun _ => 0, l := fun _ => 1 / 2, r := fun _ => 1 / 2, road := fun v => if v = 1 then 1 / 4 else 3 / 4,
    shuffle := List.reverse }

def day (leave arrive : List (ℕ × ℕ)) : StepOracle :=
  ⟨fun _ => draws, fun _ => 1 / 2, ⟨leave, arrive, fun _ e => { e with miles := e.miles + 1 }, fun _ => 0⟩⟩

/-- In the first interval both vehicles reach their first destination, and in the second one the vehicle with two trips
reaches its second destination. -/
def days : List StepOracle := [day [(1, 1), (1, 2)] [(1, 8), (2, 7)], day [(2, 2)] [(2, 8)]]

def nobody : Veh := ⟨0, -1, false, 0, 0, 0, 0, none, none, 0, 0⟩

def half : State := (loadMany cfg (days.take 1) 0 0 (State.init nobody)).stateOr (State.init nobody)

def whole : State := (loadMany cfg days 0 0 (State.init nobody)).stateOr (State.init nobody)

theorem wf : cfg.Wf := by
  constructor
  intro o t ht
  by_cases ho : o = 1
  · subst ho
    obtain rfl : t = ([(1, 7), (2, 8)], fun _ => 1) := by simpa [cfg] using ht
    exact ⟨7, [(2, 8)], rfl⟩
  · simp [cfg, ho] at ht

theorem ok (l a : List (ℕ × ℕ)) : (day l a).Ok := ⟨fun _ l => List.reverse_perm l, fun _ _ => rfl⟩

theorem half_run : loadMany cfg (days.take 1) 0 0 (State.init nobody) = .ok half :=
  ok_of_isOk (by decide +kernel)

theorem whole_run : loadMany cfg days 0 0 (State.init nobody) = .ok whole :=
  ok_of_isOk (by decide +kernel)

end TourEx

/-! ## C126: trips are made in order -/

/-- C126, every configuration whose tours begin at their origin, all draws, whatever happens between origins and
destinations, after any number of intervals: the trips a vehicle with a tour has begun are a prefix of the tour, the last
of them is the one it is on, and the destinations of the completed trips, in this order, are the ones that received it. -/
theorem C126_trips_in_order (c : Cfg) (hc : c.Wf) (os : List StepOracle) (ho : ∀ o ∈ os, o.Ok) (v0 : Veh) (s : State)
    (hs : loadMany c os 0 0 (State.init v0) = .ok s) (v : ℕ) (hv : s.Made v) (sq : List (ℕ × ℕ))
    (hq : (s.veh v).seq = some sq) :
    ∃ k, sq[k]? = some ((s.veh v).origin, (s.veh v).dest) ∧ s.trips v = sq.take (k + 1) ∧
      (s.UnderWay v → s.seen v = (sq.take k).map (·.2)) ∧
      (¬ s.UnderWay v → s.seen v = (sq.take (k + 1)).map (·.2)) := by
  have I := loadMany_inv hc os ho (init_inv v0) hs
  obtain ⟨last, -, h2, h3, -, h5, h6⟩ := (I.veh v hv).tour sq hq
  exact ⟨_, h2, h3, h5, fun h => (h6 h).1⟩

/-- C126: a vehicle with a tour is finished as soon as the destination the tour ends at has received it, and not
before. -/
theorem C126_tours_end (c : Cfg) (hc : c.Wf) (os : List StepOracle) (ho : ∀ o ∈ os, o.Ok) (v0 : Veh) (s : State)
    (hs : loadMany c os 0 0 (State.init v0) = .ok s) (v : ℕ) (hv : s.Made v) (sq : List (ℕ × ℕ))
    (hq : (s.veh v).seq = some sq) (d : ℕ) (hd : Ends sq d) :
    ¬ s.UnderWay v ↔ d ∈ s.seen v := by
  have I := loadMany_inv hc os ho (init_inv v0) hs
  obtain ⟨last, h1, h2, h3, h4, h5, h6⟩ := (I.veh v hv).tour sq hq
  obtain ⟨p, hp, rfl⟩ := hd
  rw [h1] at hp
  obtain rfl := Option.some.inj hp
  by_cases hu : s.UnderWay v
  · refine ⟨fun h => absurd hu h, fun hx => ?_⟩
    rw [h5 hu] at hx
    obtain ⟨q, hq1, hq2⟩ := List.mem_map.1 hx
    obtain ⟨i, hi, e⟩ := List.mem_take_iff_getElem.1 hq1
    exact absurd hq2 (h4 i (by omega) q (by rw [List.getElem?_eq_getElem (by omega), e]))
  · refine ⟨fun _ => ?_, fun _ => hu⟩
    obtain ⟨h7, h8⟩ := h6 hu
    rw [h7, List.take_add_one, h2]
    simp [h8]

/-- C126 in part: a finished vehicle has made its whole tour, provided the tour reaches the destination it ends at only
once.  Missing: tours that come by their last destination before; the tour is cut short there
(`C126_tours_are_cut_short`). -/
theorem C126_whole_tour_partial (c : Cfg) (hc : c.Wf) (os : List StepOracle) (ho : ∀ o ∈ os, o.Ok) (v0 : Veh) (s : State)
    (hs : loadMany c os 0 0 (State.init v0) = .ok s) (v : ℕ) (hv : s.Made v) (sq : List (ℕ × ℕ))
    (hq : (s.veh v).seq = some sq) (d : ℕ) (hd : Ends sq d)
    (once : ∀ (i : ℕ) p, sq[i]? = some p → p.2 = d → i + 1 = sq.length) (hf : ¬ s.UnderWay v) :
    s.trips v = sq ∧ s.seen v = sq.map (·.2) := by
  have I := loadMany_inv hc os ho (init_inv v0) hs
  obtain ⟨last, h1, h2, h3, h4, h5, h6⟩ := (I.veh v hv).tour sq hq
  obtain ⟨p, hp, rfl⟩ := hd
  rw [h1] at hp
  obtain rfl := Option.some.inj hp
  obtain ⟨h7, h8⟩ := h6 hf
  have := once _ _ h2 h8
  rw [this, List.take_length] at h3 h7
  exact ⟨h3, h7⟩

/-- C126: a vehicle with one trip makes this trip and is finished when its destination has received it. -/
theorem C126_one_trip (c : Cfg) (hc : c.Wf) (os : List StepOracle) (ho : ∀ o ∈ os, o.Ok) (v0 : Veh) (s : State)
    (hs : loadMany c os 0 0 (State.init v0) = .ok s) (v : ℕ) (hv : s.Made v) (hq : (s.veh v).seq = none) :
    s.trips v = [((s.veh v).origin, (s.veh v).dest)] ∧ (s.UnderWay v → s.seen v = []) ∧
      (¬ s.UnderWay v → s.seen v = [(s.veh v).dest]) :=
  ((loadMany_inv hc os ho (init_inv v0) hs).veh v hv).single hq

/-- After one interval the vehicle with two trips is on its second trip; in the end it has made both. -/
example : (∀ o ∈ TourEx.days, o.Ok) ∧ loadMany TourEx.cfg (TourEx.days.take 1) 0 0 (State.init TourEx.nobody) = .ok TourEx.half ∧
    loadMany TourEx.cfg TourEx.days 0 0 (State.init TourEx.nobody) = .ok TourEx.whole ∧
    TourEx.half.Made 2 ∧ (TourEx.half.veh 2).seq = some [(1, 7), (2, 8)] ∧ TourEx.half.trips 2 = [(1, 7), (2, 8)] ∧
    TourEx.half.UnderWay 2 ∧ TourEx.half.seen 2 = [7] ∧ ¬ TourEx.half.UnderWay 1 ∧ (TourEx.half.veh 1).seq = none ∧
    ¬ TourEx.whole.UnderWay 2 ∧ TourEx.whole.seen 2 = [7, 8] := by
  refine ⟨?_, TourEx.half_run, TourEx.whole_run, ?_⟩
  · intro o h
    simp only [TourEx.days, List.mem_cons, List.not_mem_nil, or_false] at h
    rcases h with rfl | rfl <;> exact TourEx.ok _ _
  · unfold State.Made State.UnderWay
    decide +kernel

/-- C126: tours that come by their last destination before are cut short: the tour 1-7, 2-8, 3-7 ends after its first
trip. -/
theorem C126_tours_are_cut_short :
    ∃ (c : Cfg) (os : List StepOracle) (v0 : Veh) (s : State) (sq : List (ℕ × ℕ)), c.Wf ∧ (∀ o ∈ os, o.Ok) ∧
      loadMany c os 0 0 (State.init v0) = .ok s ∧ s.Made 1 ∧ (s.veh 1).seq = some sq ∧ ¬ s.UnderWay 1 ∧
      sq = [(1, 7), (2, 8), (3, 7)] ∧ s.trips 1 = [(1, 7)] := by
  let c : Cfg := { TourEx.cfg with
    origin := fun o => if o = 1 then
        { freq := 10, labels := [], demand := [], tours := [([(1, 7), (2, 8), (3, 7)], fun _ => 1)], pickup := 0,
          roadside := 0 }
      else { freq := 10, labels := [], demand := [], tours := [], pickup := 0, roadside := 0 },
    origins := [1, 2, 3] }
  have hr : loadMany c [TourEx.day [(1, 1)] [(1, 7)]] 0 0 (State.init TourEx.nobody) =
      .ok ((loadMany c [TourEx.day [(1, 1)] [(1, 7)]] 0 0 (State.init TourEx.nobody)).stateOr (State.init TourEx.nobody)) :=
    ok_of_isOk (by decide +kernel)
  refine ⟨c, _, _, _, _, ?_, ?_, hr, by unfold State.Made; decide +kernel, by decide +kernel,
    by unfold State.UnderWay; decide +kernel, rfl, by decide +kernel⟩
  · constructor
    intro o t ht
    by_cases ho : o = 1
    · subst ho
      obtain rfl : t = ([(1, 7), (2, 8), (3, 7)], fun _ => 1) := by simpa [c] using ht
      exact ⟨7, [(2, 8), (3, 7)], rfl⟩
    · simp [c, ho] at ht
  · intro o h
    obtain rfl := List.mem_singleton.1 h
    exact TourEx.ok _ _

/-- C126, every destination with vehicles in its queue, each there once: a vehicle with one trip is finished; a vehicle
with a tour is finished if the tour ends here, and otherwise goes to the queue of the origin of its next trip, where it
has to wait for the pick-up; other vehicles are left alone. -/
theorem C126_at_destinations (c : Cfg) (ts d : ℕ) (s s' : State) (hn : (s.out d).Nodup)
    (hr : receive c ts s d = .ok s') (v : ℕ) :
    (v ∉ s.out d → s'.veh v = s.veh v ∧ (v ∈ s'.map ↔ v ∈ s.map) ∧ ∀ o, v ∈ s'.queue o ↔ v ∈ s.queue o) ∧
    (v ∈ s.out d → (s.veh v).dest = d) ∧
    (v ∈ s.out d → (s.veh v).seq = none → s'.veh v = { s.veh v with finish := ts } ∧ v ∉ s'.map) ∧
    (v ∈ s.out d → ∀ sq, (s.veh v).seq = some sq → sq[(s.veh v).index]? = some ((s.veh v).origin, d) →
      (Ends sq d → s'.veh v = { s.veh v with finish := ts } ∧ v ∉ s'.map) ∧
      (¬ Ends sq d → ∃ p, sq[(s.veh v).index + 1]? = some p ∧ v ∈ s'.queue p.1 ∧ (v ∈ s'.map ↔ v ∈ s.map) ∧
        s'.veh v = { s.veh v with
          index := (s.veh v).index + 1, origin := p.1, dest := p.2, waiting := (c.origin p.1).pickup })) := by
  obtain ⟨a, g⟩ := receive_got _ hn hr
  exact ⟨fun h => ⟨(a v h).veh, (a v h).map, (a v h).queue⟩, fun h => (g v h).dest, fun h => (g v h).single,
    fun h sq hs hc => (g v h).tour sq hs hc⟩

/-- The vehicle with two trips is received at destination 7 and goes on to origin 2, where pick-ups take three
intervals. -/
example : ∃ s s', s.out 7 = [2] ∧ receive TourEx.cfg 0 s 7 = .ok s' ∧ (s.veh 2).seq = some [(1, 7), (2, 8)] ∧
    (s.veh 2).index = 0 ∧ (s.veh 2).origin = 1 ∧ ¬ Ends [(1, 7), (2, 8)] 7 ∧ (s'.veh 2).waiting = 3 ∧
    s'.queue 2 = [2] := by
  let s : State := { State.init TourEx.nobody with
    veh := fun _ => { TourEx.nobody with origin := 1, dest := 7, seq := some [(1, 7), (2, 8)] }, map := [2],
    out := fun d => if d = 7 then [2] else [] }
  refine ⟨s, _, rfl, ok_of_isOk (d := s) (by decide +kernel), rfl, rfl, rfl, ?_, by decide +kernel, by decide +kernel⟩
  rintro ⟨p, h, e⟩
  simp at h
  subst h
  simp at e

/-! ## C127: where vehicles are, and counters -/

/-- C127, after any number of intervals: a vehicle that is under way is in exactly one place, once: the queue of the
origin of its current trip, the road, or the queue of one destination; finished vehicles are nowhere. -/
theorem C127_one_place (c : Cfg) (hc : c.Wf) (os : List StepOracle) (ho : ∀ o ∈ os, o.Ok) (v0 : Veh) (s : State)
    (hs : loadMany c os 0 0 (State.init v0) = .ok s) :
    (∀ v, s.UnderWay v ↔ s.Made v ∧ (v ∈ s.queue (s.veh v).origin ∨ v ∈ s.road ∨ ∃ d, v ∈ s.out d)) ∧
    (∀ v o, v ∈ s.queue o → s.UnderWay v ∧ o = (s.veh v).origin ∧ v ∉ s.road ∧ ∀ d, v ∉ s.out d) ∧
    (∀ v ∈ s.road, s.UnderWay v ∧ ∀ d, v ∉ s.out d) ∧
    (∀ v d d', v ∈ s.out d → v ∈ s.out d' → d = d') ∧
    (∀ o, (s.queue o).Nodup) ∧ s.road.Nodup ∧ (∀ d, (s.out d).Nodup) := by
  have I := loadMany_inv hc os ho (init_inv v0) hs
  refine ⟨fun v => ⟨fun h => ⟨I.ids v h, I.somewhere v h⟩, ?_⟩, ?_, I.roadMap, ?_, I.queueNodup, I.roadNodup, I.outNodup⟩
  · rintro ⟨-, h | h | ⟨d, h⟩⟩
    · exact (I.queueMap _ v h).1
    · exact (I.roadMap v h).1
    · exact (I.outMap d v h).1
  · intro v o h
    obtain ⟨a, b, e⟩ := I.queueMap o v h
    exact ⟨a, b.symm, e⟩
  · intro v d d' h h'
    exact (I.outMap d' v h').2 d h

/-- C127: the counters of the vehicle factory are right: the vehicles under way and the finished ones, the vehicles with
tours, the electrified ones and those that do not charge at the roadside, and the total time of finished vehicles. -/
theorem C127_counters (c : Cfg) (hc : c.Wf) (os : List StepOracle) (ho : ∀ o ∈ os, o.Ok) (v0 : Veh) (s : State)
    (hs : loadMany c os 0 0 (State.init v0) = .ok s) :
    s.enroute = ((List.range s.num).countP fun i => (s.veh (i + 1)).finish = -1) ∧
    s.finished = ((List.range s.num).countP fun i => (s.veh (i + 1)).finish ≠ -1) ∧
    (∀ v, s.UnderWay v ↔ s.Made v ∧ (s.veh v).finish = -1) ∧
    s.delivery = s.count (fun v => v.seq.isSome) ∧ s.electrified = s.count (fun v => v.ev.isSome) ∧
    s.nonRoadside = s.count Veh.elsewhere ∧
    s.total = ((List.range s.num).map fun i => if (s.veh (i + 1)).finish = -1 then 0
      else (s.veh (i + 1)).finish - (s.veh (i + 1)).start).sum := by
  have I := loadMany_inv hc os ho (init_inv v0) hs
  have under : ∀ i ∈ List.range s.num, (i + 1 ∈ s.map ↔ (s.veh (i + 1)).finish = -1) := by
    intro i hi
    have := List.mem_range.1 hi
    exact (I.veh (i + 1) ⟨by omega, by omega⟩).time
  have en : s.map.length = (List.range s.num).countP fun i => (s.veh (i + 1)).finish = -1 := by
    have p : s.map.Perm (((List.range s.num).map (· + 1)).filter fun v => (s.veh v).finish = -1) := by
      rw [List.perm_ext_iff_of_nodup I.nodup
        ((List.nodup_range.map (fun a b h => Nat.add_right_cancel h)).filter _)]
      intro v
      rw [List.mem_filter, List.mem_map]
      constructor
      · intro h
        have hm := I.ids v h
        refine ⟨⟨v - 1, List.mem_range.2 (by have := hm.1; have := hm.2; omega), by have := hm.1; omega⟩, ?_⟩
        simpa using (I.veh v hm).time.1 h
      · rintro ⟨⟨i, hi, rfl⟩, h⟩
        exact (under i hi).2 (by simpa using h)
    rw [p.length_eq, ← List.countP_eq_length_filter, List.countP_map]
    rfl
  refine ⟨?_, ?_, ?_, I.delivery, I.electrified, I.nonRoadside, ?_⟩
  · rw [I.enroute, en]
  · have h1 := I.finished
    have h2 := List.length_eq_countP_add_countP (fun i => decide ((s.veh (i + 1)).finish = -1)) (l := List.range s.num)
    rw [List.length_range] at h2
    rw [I.enroute, en] at h1
    have h3 : (List.range s.num).countP (fun i => !decide ((s.veh (i + 1)).finish = -1)) =
        (List.range s.num).countP fun i => decide ((s.veh (i + 1)).finish ≠ -1) := by
      apply List.countP_congr
      simp
    have h4 : (List.range s.num).countP (fun i => decide (¬ decide ((s.veh (i + 1)).finish = -1) = true)) =
        (List.range s.num).countP fun i => decide ((s.veh (i + 1)).finish ≠ -1) := by
      apply List.countP_congr
      simp
    omega
  · intro v
    exact ⟨fun h => ⟨I.ids v h, (I.veh v (I.ids v h)).time.1 h⟩, fun h => (I.veh v h.1).time.2 h.2⟩
  · rw [I.total]
    congr 1
    apply List.map_congr_left
    intro i hi
    simp only [under i hi]

example : TourEx.half.enroute = 1 ∧ TourEx.half.finished = 1 ∧ TourEx.half.queue 2 = [2] ∧ TourEx.half.delivery = 1 ∧
    TourEx.half.electrified = 2 ∧ TourEx.half.nonRoadside = 1 ∧ TourEx.whole.total = 1 := by
  decide +kernel

/-! ## C128: release -/

/-- C128, every origin, demand that is not negative, and all draws: in a release interval the origin makes for each
destination and for each tour the scaled demand, rounded, of vehicles, destinations first; they have the attributes and
batteries they should have, and join the queue of the origin, which is shuffled; nothing else changes. -/
theorem C128_release (c : Cfg) (hc : c.Wf) (oid : ℕ) (orc : ReleaseOracle) (hsh : ∀ l, (orc.shuffle l).Perm l)
    (ts assign : ℕ) (s s' : State) (hd : ∀ p ∈ (c.origin oid).demand, 0 ≤ p.2 assign * c.scalar)
    (ht : ∀ p ∈ (c.origin oid).tours, 0 ≤ p.2 assign * c.scalar) (hr : releaseOne c oid orc ts assign s = .ok s') :
    ∃ ns ms : List ℕ, ns.length = (c.origin oid).demand.length ∧ ms.length = (c.origin oid).tours.length ∧
      (∀ (k n d : ℕ) f, (c.origin oid).demand[k]? = some (d, f) → ns[k]? = some n →
        Rounded (f assign * c.scalar) (orc.u k) n) ∧
      (∀ (k n : ℕ) sq f, (c.origin oid).tours[k]? = some (sq, f) → ms[k]? = some n →
        Rounded (f assign * c.scalar) (orc.u' k) n) ∧
      s'.num = s.num + (ns.sum + ms.sum) ∧
      (List.range' (s.num + 1) (ns.sum + ms.sum)).map (fun v => ((s'.veh v).seq, (s'.veh v).dest)) =
        ((c.origin oid).demand.zip ns).flatMap (fun p => List.replicate p.2 (none, p.1.1)) ++
        ((c.origin oid).tours.zip ms).flatMap
          (fun p => List.replicate p.2 (some p.1.1, (p.1.1.head?.map Prod.snd).getD 0)) ∧
      (∀ v, s.num < v → v ≤ s'.num → Released c oid orc ts v (s'.veh v)) ∧
      (∀ v ≤ s.num, s'.veh v = s.veh v) ∧
      s'.map = s.map ++ List.range' (s.num + 1) (ns.sum + ms.sum) ∧
      (s'.queue oid).Perm (s.queue oid ++ List.range' (s.num + 1) (ns.sum + ms.sum)) ∧
      (∀ o, o ≠ oid → s'.queue o = s.queue o) ∧ s'.out = s.out ∧ s'.road = s.road := by
  unfold releaseOne at hr
  split at hr
  · cases hr
  rw [Res.bind_eq_ok'] at hr
  obtain ⟨s1, r1, hr⟩ := hr
  rw [Res.bind_eq_ok'] at hr
  obtain ⟨s2, r2, hr⟩ := hr
  obtain rfl := Res.ok.inj hr
  obtain ⟨vs, ns, a1, a2, a3, a4, a5⟩ := releaseDests_added _ hd r1
  obtain ⟨ws, ms, b1, b2, b3, b4, b5⟩ := releaseTours_added _ (hc.tours oid) ht r2
  have len : ∀ {α : Type} (l : List α) (ns : List ℕ) (g : α → Option (List (ℕ × ℕ)) × ℕ), ns.length = l.length →
      ((l.zip ns).flatMap fun p => List.replicate p.2 (g p.1)).length = ns.sum := by
    intro α l
    induction l with
    | nil =>
      intro ns g h
      obtain rfl := List.length_eq_zero_iff.1 h
      rfl
    | cons x l ih =>
      intro ns g h
      cases ns with
      | nil => simp at h
      | cons n ns =>
        rw [List.zip_cons_cons, List.flatMap_cons, List.length_append, ih ns g (by simpa using h)]
        simp
  have l1 : vs.length = ns.sum := by
    rw [← len _ ns (fun x => (none, x.1)) a3, ← a5, List.length_map]
  have l2 : ws.length = ms.sum := by
    rw [← len _ ms (fun x => (some x.1, (x.1.head?.map Prod.snd).getD 0)) b3, ← b5, List.length_map]
  have A := a1.trans b1
  have L : (vs ++ ws).length = ns.sum + ms.sum := by rw [List.length_append, l1, l2]
  refine ⟨ns, ms, a3, b3, ?_, ?_, ?_, ?_, ?_, A.old, ?_, ?_, ?_, A.out, A.road⟩
  · intro k n d f h1 h2
    have := a4 k d f n h1 h2
    rwa [Nat.zero_add] at this
  · intro k n sq f h1 h2
    have := b4 k sq f n h1 h2
    rwa [Nat.zero_add] at this
  · show s2.num = _
    rw [A.num, L]
  · rw [← a5, ← b5, ← List.map_append]
    apply List.ext_getElem?
    intro i
    by_cases hi : i < ns.sum + ms.sum
    · obtain ⟨v, hv⟩ : ∃ v, (vs ++ ws)[i]? = some v := ⟨_, List.getElem?_eq_getElem (by rw [L]; exact hi)⟩
      rw [List.getElem?_map, List.getElem?_map, List.getElem?_range' hi, hv]
      have := A.new i v hv
      simp only [Option.map_some, Nat.one_mul, Option.some.injEq]
      show ((s2.veh _).seq, (s2.veh _).dest) = _
      rw [this]
      rfl
    · rw [List.getElem?_eq_none (by simpa using Nat.le_of_not_lt hi),
        List.getElem?_eq_none (by rw [List.length_map, L]; omega)]
  · intro v h1 h2
    have h2 : v ≤ s2.num := h2
    rw [A.num, L] at h2
    obtain ⟨i, rfl⟩ : ∃ i, v = s.num + 1 + i := ⟨v - (s.num + 1), by omega⟩
    obtain ⟨w, hw⟩ : ∃ w, (vs ++ ws)[i]? = some w := ⟨_, List.getElem?_eq_getElem (by rw [L]; omega)⟩
    show Released _ _ _ _ _ (s2.veh _)
    rw [A.new i w hw]
    rw [a1.num] at b2
    exact a2.append b2 i w hw
  · show s2.map = _
    rw [A.map, L]
  · show (upd s2.queue oid (orc.shuffle (s2.queue oid)) oid).Perm _
    rw [upd_same]
    refine (hsh _).trans ?_
    rw [A.queue, L]
  · intro o ho
    show upd s2.queue oid _ o = _
    rw [upd_other _ _ _ _ ho, A.others o ho]

/-- Vehicle 1 has one trip and uses roadside charging, so it is adaptive; vehicle 2 has a tour and charges elsewhere. -/
example : ∃ s', releaseOne TourEx.cfg 1 TourEx.draws 0 0 (State.init TourEx.nobody) = .ok s' ∧ s'.num = 2 ∧
    (s'.veh 1).seq = none ∧ (s'.veh 1).adaptive = true ∧ (s'.veh 1).ev.map (·.range) = some 20 ∧
    (s'.veh 2).seq = some [(1, 7), (2, 8)] ∧ (s'.veh 2).adaptive = false ∧ (s'.veh 2).ev.map (·.range) = some 50 :=
  ⟨_, ok_of_isOk (d := State.init TourEx.nobody) (by decide +kernel), by decide +kernel⟩

/-- C128: at the beginning of an interval, electrified vehicles with a tour that wait at an origin become adaptive if
they need charging, and otherwise adaptive or not according to a draw; all other vehicles are left alone, and so are all
vehicles if there are no electrified ones. -/
theorem C128_adjust (c : Cfg) (r : ℕ → ℚ) (oid : ℕ) (s : State) (v : ℕ) :
    (v ∉ s.queue oid ∨ (s.veh v).ev = none ∨ (s.veh v).seq = none ∨ c.evLabel = none →
      (adjust c r oid s).veh v = s.veh v) ∧
    (v ∈ s.queue oid → ∀ e sq l, (s.veh v).ev = some e → (s.veh v).seq = some sq → c.evLabel = some l →
      ∃ b, (adjust c r oid s).veh v = { s.veh v with adaptive := b } ∧
        (b = true ↔ e.needCharging = true ∨ r v ≤ c.ratio)) ∧
    (adjust c r oid s).queue = s.queue ∧ (adjust c r oid s).map = s.map := by
  unfold adjust
  cases hl : c.evLabel with
  | none => exact ⟨fun _ => rfl, fun _ e sq l _ _ h => by (cases h), rfl, rfl⟩
  | some l0 =>
    obtain ⟨h1, h2, h3, h4⟩ := adjust_fold (c := c) (r := r) (s.queue oid) s v
    refine ⟨fun h => h1 ?_, fun hv e sq l he hs _ => ⟨_, h2 e sq hv he hs, ?_⟩, h3, h4⟩
    · rcases h with h | h | h | h
      · exact Or.inl h
      · exact Or.inr (Or.inl h)
      · exact Or.inr (Or.inr h)
      · cases h
    · cases e.needCharging <;> simp

/-- A vehicle on its second trip with an empty battery, waiting at origin 2. -/
example : ∃ s : State, s.queue 2 = [5] ∧ (s.veh 5).ev.isSome = true ∧ (s.veh 5).seq.isSome = true ∧
    (s.veh 5).adaptive = false ∧ ((adjust TourEx.cfg (fun _ => 1 / 2) 2 s).veh 5).adaptive = true :=
  ⟨{ State.init { TourEx.nobody with seq := some [(1, 7), (2, 8)], ev := some (Chg.Ev.make 5 100 true true) } with
    queue := fun _ => [5] }, by decide +kernel⟩

/-! ## C129: waiting at pick-ups -/

/-- C129, point queues that keep delivery vehicles waiting, every supply and every schedule of vehicles that come at most
once: a vehicle enters the queue at most once and only after it has come and has waited for the time it has to wait.
Vehicles that are not at an origin, or not delivery vehicles, do not have to wait. -/
theorem C129_waits_long_enough (supply : ℚ) (atOrigin : Bool) (delivery : ℕ → Bool) (xs : List Coming)
    (hn : ((comes xs 0).map (·.2.1)).Nodup) (t v : ℕ) (w : ℤ) (hc : (t, v, w) ∈ comes xs 0) :
    let l0 := Pq.empty supply atOrigin delivery
    let l := l0.run xs 0
    (l.log.map (·.2)).Nodup ∧ (∀ t', (t', v) ∈ l.log → t + l0.must v w ≤ t') ∧
      (v ∈ l.incoming ↔ ∀ t', (t', v) ∉ l.log) := by
  intro l0 l
  have I := pq_inv supply atOrigin delivery xs hn
  have nd := I.perm.nodup_iff.2 hn
  refine ⟨(List.nodup_append.1 nd).2.1, fun t' h => (I.log t v w t' hc h).1, ?_, ?_⟩
  · intro h t' h'
    exact (List.nodup_append.1 nd).2.2 v h v (List.mem_map.2 ⟨_, h', rfl⟩) rfl
  · intro h
    have hm : v ∈ (comes xs 0).map (·.2.1) := List.mem_map.2 ⟨_, hc, rfl⟩
    rcases List.mem_append.1 (I.perm.mem_iff.2 hm) with h' | h'
    · exact h'
    · obtain ⟨⟨t', u⟩, h1, rfl⟩ := List.mem_map.1 h'
      exact absurd h1 (h t')

/-- C129: if the supply is enough for all vehicles that come, a vehicle enters exactly when it has waited for the time it
has to wait. -/
theorem C129_waits_no_longer (supply : ℚ) (atOrigin : Bool) (delivery : ℕ → Bool) (xs : List Coming)
    (hn : ((comes xs 0).map (·.2.1)).Nodup) (hsup : ((comes xs 0).length : ℚ) ≤ supply) (t v : ℕ) (w : ℤ)
    (hc : (t, v, w) ∈ comes xs 0) :
    let l0 := Pq.empty supply atOrigin delivery
    let l := l0.run xs 0
    ∀ t', (t', v) ∈ l.log ↔ t' = t + l0.must v w ∧ t' < xs.length := by
  intro l0 l t'
  have I := pq_inv supply atOrigin delivery xs hn
  obtain ⟨E1, E2⟩ := I.exact hsup
  refine ⟨fun h => ⟨E2 t v w t' hc h, (I.log t v w t' hc h).2⟩, ?_⟩
  rintro ⟨rfl, ht⟩
  have hm : v ∈ (comes xs 0).map (·.2.1) := List.mem_map.2 ⟨_, hc, rfl⟩
  rcases List.mem_append.1 (I.perm.mem_iff.2 hm) with h' | h'
  · obtain ⟨x1, x2, x3⟩ := E1 t v w hc h'
    have : l0.must v w = w.toNat := by
      unfold Pq.must
      rw [if_pos x1]
    rw [this] at ht
    omega
  · obtain ⟨⟨t2, u⟩, h1, rfl⟩ := List.mem_map.1 h'
    have := E2 t u w t2 hc h1
    show (t + l0.must u w, u) ∈ _
    rw [← this]
    exact h1

/-- C129: at most the supply, rounded up, enters in an interval. -/
theorem C129_supply (supply : ℚ) (h0 : 0 ≤ supply) (atOrigin : Bool) (delivery : ℕ → Bool) (xs : List Coming)
    (hn : ((comes xs 0).map (·.2.1)).Nodup) (t : ℕ) :
    ((((Pq.empty supply atOrigin delivery).run xs 0).log.filter (·.1 = t)).length : ℚ) < supply + 1 := by
  have I := pq_inv supply atOrigin delivery xs hn
  rcases I.few t with h | h
  · rw [h]
    simp only [List.length_nil, Nat.cast_zero]
    linarith
  · exact h

/-- C129: in every interval, a vehicle is kept outside only because it still has to wait or because the supply is used
up. -/
theorem C129_kept_outside (l : Pq) (x : Coming) (ts : ℕ) (hn : (l.incoming ++ x.ins.map (·.1)).Nodup) (v : ℕ)
    (hv : v ∈ (l.step ts x).incoming) :
    (l.atOrigin = true ∧ l.delivery v = true ∧ 0 < (l.come x.ins).wait v) ∨
      l.supply ≤ ((l.step ts x).log.length : ℚ) - l.log.length := by
  have R := letIn_spec (fun v => l.atOrigin && l.delivery v) l.supply (l.incoming ++ x.ins.map (·.1))
    ((l.come x.ins).wait) hn
  rcases R.room v hv with ⟨h1, h2⟩ | h
  · have : l.atOrigin = true ∧ l.delivery v = true := by simpa using h1
    exact Or.inl ⟨this.1, this.2, h2⟩
  · right
    have e : (l.step ts x).log = l.log ++ ((letIn (fun v => l.atOrigin && l.delivery v) l.supply
      (l.incoming ++ x.ins.map (·.1)) ((l.come x.ins).wait)).2.1).map fun v => (ts, v) := rfl
    rw [e, List.length_append, List.length_map]
    push_cast
    linarith

/-- A pick-up of two intervals: vehicle 1 enters at once, vehicle 2 after two intervals; with little supply it
enters later, after vehicle 3. -/
example : let xs : List Coming := [⟨[(1, 5), (2, 2)], id⟩, ⟨[], id⟩, ⟨[(3, 0)], id⟩, ⟨[], id⟩, ⟨[], id⟩]
    ((comes xs 0).map (·.2.1)).Nodup ∧ ((comes xs 0).length : ℚ) ≤ 3 ∧
    ((Pq.empty 3 true (fun v => v != 1)).run xs 0).log = [(0, 1), (2, 2), (2, 3)] ∧
    ((Pq.empty 1 true (fun v => v != 1)).run xs 0).log = [(0, 1), (2, 3), (3, 2)] := by
  decide +kernel

/-- C129: a finding.  The clock of a vehicle that waits stops in an interval whose supply is used up by others: vehicle 2
has to wait for one interval, nobody enters in the second interval, and still vehicle 2 enters only in the third. -/
theorem C129_clock_stops :
    ∃ xs : List Coming, ((comes xs 0).map (·.2.1)).Nodup ∧ (0, 2, 1) ∈ comes xs 0 ∧
      ((Pq.empty 1 true (fun v => v != 1)).run xs 0).log = [(0, 1), (2, 2)] :=
  ⟨[⟨[(1, 0), (2, 1)], id⟩, ⟨[], id⟩, ⟨[], id⟩], by decide +kernel⟩

end Verif

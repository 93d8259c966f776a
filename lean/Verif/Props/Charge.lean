import Verif.Lemmas.ChargeRun
import Verif.Props.History

/-! # C115, C116, C117: charging stations -/

namespace Verif
open Ults Curve

/-- A station with one slot, two queues (flow scalar two) and a charging time of one interval. -/
def chgDemo : Chg.Cfg :=
  { id := 9, scalar := 2, unit := 5, slots := 1, time := 1, inLinks := [0, 1], outLinks := [2, 3] }

/-- A vehicle on its way to the station and then to link `o`. -/
def chgEv (o : ℕ) : Chg.Ev :=
  { Chg.Ev.make 10 100 true false with miles := 50, since := 5, station := some 9, next := some o }

/-- Three vehicles come in the first interval and two in the third one. -/
def chgDay : List Chg.Around :=
  let quiet : Chg.Around := ⟨[], fun _ => 5, [0, 1]⟩
  [⟨[(0, 1, chgEv 2), (1, 2, chgEv 3), (0, 3, chgEv 2)], fun _ => 0, [1, 0]⟩, quiet,
    ⟨[(1, 4, chgEv 3), (0, 5, chgEv 2)], fun _ => 1, [0, 1]⟩, quiet, quiet, quiet, quiet, quiet]

/-- The station at first. -/
def chgStart : Chg.State := Chg.State.init chgDemo fun _ => chgEv 2

/-- The station after the first `k` intervals. -/
def chgAfter (k : ℕ) : Chg.State := (Chg.run chgDemo (chgDay.take k) 0 chgStart).stateOr chgStart

theorem stateOr_ok {α : Type} {r : Res α} {d : α} (h : r.isOk = true) : r = .ok (r.stateOr d) := by
  cases r <;> simp [Res.stateOr, Res.isOk] at h ⊢

theorem chgDay_run (k : ℕ) (hk : k ≤ 8) : Chg.run chgDemo (chgDay.take k) 0 chgStart = .ok (chgAfter k) := by
  refine stateOr_ok ?_
  have : ∀ k ≤ 8, (Chg.run chgDemo (chgDay.take k) 0 chgStart).isOk = true := by decide +kernel
  exact this k hk

theorem chgDay_ok (k : ℕ) (hk : k ≤ 8) : Chg.Ok chgDemo (chgDay.take k) 0 chgStart := by
  refine Chg.okB_ok (by decide) _ 0 _ (.init _ _) ?_
  have : ∀ k ≤ 8, Chg.okB chgDemo (chgDay.take k) 0 chgStart = true := by decide +kernel
  exact this k hk

/-- C115: what leaves a slot, and when, follows from what joined its queue: vehicles leave in the order in
which they came, each is connected when it has come and the one before it has left, stays connected for the charging
time, and the slot is blocked for one more interval.  The vehicles join queues in the order in which they come to
the station. -/
theorem C115_slots_serve_in_order (c : Chg.Cfg) (hl : c.inLinks.Nodup) (as : List Chg.Around) (veh : ℕ → Chg.Ev)
    (ho : Chg.Ok c as 0 (Chg.State.init c veh)) (s : Chg.State)
    (hr : Chg.run c as 0 (Chg.State.init c veh) = .ok s) :
    (s.joins.map fun x => (x.1, x.2.1)) = Chg.arrivals as 0 ∧
    ∀ i < c.queues, Chg.atSlot s.leaves i
      = (Chg.schedule c.time.toNat 0 (Chg.atSlot s.joins i)).filter fun x => decide (x.1 < as.length) := by
  obtain ⟨h, hj⟩ := Chg.run_inv hl as 0 _ s (.init c veh) ho hr
  rw [Nat.zero_add] at h
  refine ⟨by simpa [Chg.State.init] using hj, fun i hi => ?_⟩
  obtain ⟨J, K, S⟩ := h.station.whole.slot i hi
  exact S.schedule

example : chgDemo.inLinks.Nodup ∧ Chg.Ok chgDemo (chgDay.take 8) 0 chgStart ∧
    ∃ s, Chg.run chgDemo (chgDay.take 8) 0 chgStart = .ok s ∧
      Chg.atSlot s.joins 0 = [(0, 2), (0, 3), (2, 4)] ∧ Chg.atSlot s.leaves 0 = [(1, 2), (3, 3), (5, 4)] ∧
      Chg.atSlot s.joins 1 = [(0, 1), (2, 5)] ∧ Chg.atSlot s.leaves 1 = [(1, 1), (3, 5)] :=
  ⟨by decide, chgDay_ok 8 le_rfl, _, chgDay_run 8 le_rfl, by decide +kernel⟩

/-- C115: every vehicle joins the first one of the shortest queues of the station. -/
theorem C115_shortest_queue (c : Chg.Cfg) (hl : c.inLinks.Nodup) (as : List Chg.Around) (veh : ℕ → Chg.Ev)
    (ho : Chg.Ok c as 0 (Chg.State.init c veh)) (s : Chg.State)
    (hr : Chg.run c as 0 (Chg.State.init c veh) = .ok s) : Chg.Fair c s :=
  (Chg.run_inv hl as 0 _ s (.init c veh) ho hr).1.station.whole.fair

/-- Vehicle 4 comes to slot 0, where vehicle 3 is, after vehicle 5 went to the empty queue 1. -/
example : ∃ s, Chg.run chgDemo (chgDay.take 8) 0 chgStart = .ok s ∧ s.joins = [(0, 2, 0), (0, 1, 1), (0, 3, 0), (2, 5, 1)] ++
    (2, 4, 0) :: [] ∧ s.ahead [(0, 2, 0), (0, 1, 1), (0, 3, 0), (2, 5, 1)] 0 2 = 1 ∧
    s.ahead [(0, 2, 0), (0, 1, 1), (0, 3, 0), (2, 5, 1)] 1 2 = 1 :=
  ⟨_, chgDay_run 8 le_rfl, by decide +kernel⟩

/-- C115: a vehicle that finds `k` vehicles in its queue leaves the station, not before it was connected for the
charging time, and not later than when every one of the others was connected as long, with one interval
in between. -/
theorem C115_waiting_is_bounded (c : Chg.Cfg) (hl : c.inLinks.Nodup) (as : List Chg.Around) (veh : ℕ → Chg.Ev)
    (ho : Chg.Ok c as 0 (Chg.State.init c veh)) (s : Chg.State)
    (hr : Chg.run c as 0 (Chg.State.init c veh) = .ok s) (came rest : List (ℕ × ℕ × ℕ)) (t p i k : ℕ)
    (hj : s.joins = came ++ (t, p, i) :: rest) (hk : s.ahead came i t = k)
    (hT : t + k * (c.time.toNat + 1) + c.time.toNat < as.length) :
    ∃ e, (e, p, i) ∈ s.leaves ∧ t + c.time.toNat ≤ e ∧ e ≤ t + k * (c.time.toNat + 1) + c.time.toNat := by
  obtain ⟨h, hjs⟩ := Chg.run_inv hl as 0 _ s (.init c veh) ho hr
  rw [Nat.zero_add] at h
  have hi := (h.station.whole.fair came t p i rest hj).1
  obtain ⟨J, K, S⟩ := h.station.whole.slot i hi
  have hs := S.schedule
  have hsplit : Chg.atSlot s.joins i = Chg.atSlot came i ++ (t, p) :: Chg.atSlot rest i := by
    rw [hj, Chg.atSlot_append]
    simp [Chg.atSlot]
  rw [hsplit, Chg.schedule_append] at hs
  -- everything came in order
  have hord : s.joins.Pairwise fun a b => a.1 ≤ b.1 := by
    have : (s.joins.map fun x => (x.1, x.2.1)).Pairwise fun a b => a.1 ≤ b.1 := by
      rw [hjs]
      simpa [Chg.State.init] using Chg.arrivals_order as 0
    rwa [List.pairwise_map] at this
  have hle : ∀ x ∈ Chg.atSlot came i, x.1 ≤ t := fun x hx => by
    obtain ⟨y, hy, rfl⟩ := List.mem_map.1 hx
    rw [hj, List.pairwise_append] at hord
    exact hord.2.2 y (List.mem_of_mem_filter hy) (t, p, i) (by simp)
  have htT : t < as.length := by omega
  -- how many have left before
  have hb : Chg.before s.leaves i t = (Chg.schedule c.time.toNat 0 (Chg.atSlot came i)).countP fun x => decide (x.1 < t) := by
    have e1 : Chg.before s.leaves i t = (Chg.atSlot s.leaves i).countP fun x => decide (x.1 < t) := by
      unfold Chg.before Chg.atSlot
      rw [List.countP_map, List.countP_filter]
      refine List.countP_congr fun x _ => ?_
      simp [and_comm]
    rw [e1, hs, List.filter_append, List.countP_append, List.countP_filter, List.countP_filter]
    have e2 : (Chg.schedule c.time.toNat (Chg.freeAfter c.time.toNat 0 (Chg.atSlot came i))
        ((t, p) :: Chg.atSlot rest i)).countP (fun x => decide (x.1 < t) && decide (x.1 < as.length)) = 0 := by
      rw [List.countP_eq_zero]
      intro x hx
      have := Chg.schedule_le _ _ _ _ _ x hx
      simp only [Bool.and_eq_true, decide_eq_true_eq]
      omega
    rw [e2, Nat.add_zero]
    refine List.countP_congr fun x _ => ?_
    simp only [Bool.and_eq_true, decide_eq_true_eq, and_iff_left_iff_imp]
    omega
  have hcount : (Chg.schedule c.time.toNat 0 (Chg.atSlot came i)).countP (fun x => decide (t ≤ x.1)) = k := by
    have e1 := List.length_eq_countP_add_countP (fun x : ℕ × ℕ => decide (x.1 < t))
      (l := Chg.schedule c.time.toNat 0 (Chg.atSlot came i))
    have e2 : (Chg.schedule c.time.toNat 0 (Chg.atSlot came i)).countP (fun x => decide ¬(decide (x.1 < t)) = true)
        = (Chg.schedule c.time.toNat 0 (Chg.atSlot came i)).countP (fun x => decide (t ≤ x.1)) :=
      List.countP_congr fun x _ => by simp
    unfold Chg.State.ahead at hk
    rw [hb, ← Chg.atSlot_length] at hk
    rw [Chg.schedule_length] at e1
    rw [e2] at e1
    omega
  have hfree := Chg.freeAfter_le c.time.toNat t _ hle
  rw [hcount] at hfree
  have hmem : (max t (Chg.freeAfter c.time.toNat 0 (Chg.atSlot came i)) + c.time.toNat, p) ∈ Chg.atSlot s.leaves i := by
    rw [hs, List.mem_filter]
    refine ⟨List.mem_append.2 (.inr (by simp [Chg.schedule])), ?_⟩
    rw [decide_eq_true_eq]
    simp only
    have : t ≤ t + k * (c.time.toNat + 1) := Nat.le_add_right _ _
    omega
  obtain ⟨x, hx, hxe⟩ := List.mem_map.1 hmem
  obtain ⟨hx, hxi⟩ := List.mem_filter.1 hx
  rw [decide_eq_true_eq] at hxi
  simp only [Prod.mk.injEq] at hxe
  refine ⟨x.1, by rw [← hxe.2, ← hxi]; exact hx, by omega, ?_⟩
  have : t ≤ t + k * (c.time.toNat + 1) := Nat.le_add_right _ _
  omega

example : ∃ s, Chg.run chgDemo (chgDay.take 8) 0 chgStart = .ok s ∧ s.joins = [(0, 2, 0), (0, 1, 1), (0, 3, 0), (2, 5, 1)] ++
    (2, 4, 0) :: [] ∧ s.ahead [(0, 2, 0), (0, 1, 1), (0, 3, 0), (2, 5, 1)] 0 2 = (1 : ℕ) ∧
    2 + 1 * (chgDemo.time.toNat + 1) + chgDemo.time.toNat < chgDay.length ∧ (5, 4, 0) ∈ s.leaves :=
  ⟨_, chgDay_run 8 le_rfl, by decide +kernel⟩

/-- C116: the curve of the station counts the vehicles that have been charged, and the curves of the links around it
the vehicles that left the station from and to them, in flow units: a vehicle counts as being on the link it came from
until it leaves the station. -/
theorem C116_curves_count_charged_vehicles (c : Chg.Cfg) (hl : c.inLinks.Nodup) (hsc : 0 < c.scalar)
    (as : List Chg.Around) (veh : ℕ → Chg.Ev) (hT : as.length < 10000)
    (ho : Chg.Ok c as 0 (Chg.State.init c veh)) (s : Chg.State)
    (hr : Chg.run c as 0 (Chg.State.init c veh) = .ok s) (t : ℕ) (ht : t < 10000) :
    getResult s.charged t = .ok ((s.leaves.countP fun x => decide (x.1 < t) : ℕ) / c.scalar) ∧
    (∀ l, getResult (s.nOut l) t = .ok ((s.log.countP fun e => decide (e.src = some l ∧ e.t < t) : ℕ) / c.scalar)) ∧
    (∀ l, getResult (s.nIn l) t = .ok ((s.log.countP fun e => decide (e.dst = some l ∧ e.t < t) : ℕ) / c.scalar)) ∧
    (s.log.map fun e => (e.t, e.veh)) = s.leaves.map fun x => (x.1, x.2.1) := by
  obtain ⟨h, _⟩ := Chg.run_inv hl as 0 _ s (.init c veh) ho hr
  rw [Nat.zero_add] at h
  have L := h.ledger
  refine ⟨?_, fun l => ?_, fun l => ?_, L.same⟩
  · obtain ⟨k, a1, b1⟩ := Tt.run_holds (h := s.leaves.map fun x => (x.1 + 1, 1)) hsc hT ⟨fun x hx => by
      obtain ⟨y, hy, rfl⟩ := List.mem_map.1 hx
      have := L.times y hy
      exact ⟨by simp, by simp only; omega⟩, by
      rw [List.pairwise_map]
      refine L.order.imp fun {a b} hab => ?_
      simp only; omega⟩
    rw [L.charged] at a1
    simp only [Res.ok.injEq] at a1
    subst a1
    rw [b1.get t ht]
    congr 3
    generalize s.leaves = M
    induction M with
    | nil => rfl
    | cons x M ih =>
      rw [List.countP_cons, ← ih]
      unfold Tt.upTo
      by_cases h2 : x.1 < t <;> simp [h2, Nat.succ_le_iff]
      omega
  · obtain ⟨k, a1, b1⟩ := Tt.run_holds (h := Net.exits s.log l) hsc hT (L.log _)
    rw [L.nOut l] at a1
    simp only [Res.ok.injEq] at a1
    subst a1
    rw [← upTo_exits]; exact b1.get t ht
  · obtain ⟨k, a1, b1⟩ := Tt.run_holds (h := Net.entries s.log l) hsc hT (L.log _)
    rw [L.nIn l] at a1
    simp only [Res.ok.injEq] at a1
    subst a1
    rw [← upTo_entries]; exact b1.get t ht

example : ∃ s, Chg.run chgDemo (chgDay.take 8) 0 chgStart = .ok s ∧ getResult s.charged 4 = .ok 2 ∧
    (s.leaves.countP fun x => decide (x.1 < 4)) = 4 ∧ getResult (s.nOut 0) 4 = .ok (3 / 2) ∧
    getResult (s.nIn 3) 4 = .ok (1 / 2) ∧ (0 : ℚ) < chgDemo.scalar ∧ chgDay.length < 10000 :=
  ⟨_, chgDay_run 8 le_rfl, by decide +kernel⟩

/-- C116: the record of waiting times has one entry per interval: none at first, and then the charging time of the
vehicles in a shortest queue. -/
theorem C116_waiting_times_are_recorded (c : Chg.Cfg) (hl : c.inLinks.Nodup) (as : List Chg.Around)
    (veh : ℕ → Chg.Ev) (ho : Chg.Ok c as 0 (Chg.State.init c veh)) (s : Chg.State)
    (hr : Chg.run c as 0 (Chg.State.init c veh) = .ok s) :
    (s.record.map (·.1)) = (List.range (as.length + 1)).map (fun t => (t : ℤ)) ∧ ((0 : ℤ), (0 : ℤ)) ∈ s.record ∧
    ∀ (t : ℕ) (v : ℤ), ((t : ℤ) + 1, v) ∈ s.record → ∃ i < c.queues,
      v = c.time * s.waiting i (t + 1) ∧ ∀ j < c.queues, s.waiting i (t + 1) ≤ s.waiting j (t + 1) := by
  obtain ⟨h, _⟩ := Chg.run_inv hl as 0 _ s (.init c veh) ho hr
  rw [Nat.zero_add] at h
  exact ⟨h.est.keys, h.est.start, fun t v hv => (h.est.value t v hv).2⟩

example : ∃ s, Chg.run chgDemo (chgDay.take 8) 0 chgStart = .ok s ∧
    s.record = [(0, 0), (1, 1), (2, 0), (3, 1), (4, 0), (5, 0), (6, 0), (7, 0), (8, 0)] ∧
    s.waiting 0 1 = 2 ∧ s.waiting 1 1 = 1 ∧ s.waiting 1 2 = 0 :=
  ⟨_, chgDay_run 8 le_rfl, by decide +kernel⟩

/-- The station of `chgDemo` with a flow scalar of one, and four vehicles: three in the first interval, one in the
second one. -/
def chgBusy : List Chg.Around :=
  let quiet : Chg.Around := ⟨[], fun _ => 5, [0, 1]⟩
  [⟨[(0, 1, chgEv 2), (1, 2, chgEv 3), (0, 3, chgEv 2)], fun _ => 0, [1, 0]⟩,
    ⟨[(1, 4, chgEv 3)], fun _ => 1, [0, 1]⟩, quiet, quiet, quiet, quiet, quiet, quiet, quiet]

/-- What C116 does not say: the recorded waiting time is no bound for how long a vehicle waits.  Here it is three
intervals at the start of interval 1, and a vehicle that comes then leaves in interval 7, that is, it is connected
in interval 6 and has waited for five intervals. -/
theorem C116_recorded_times_are_too_short : ∃ s,
    Chg.run { chgDemo with scalar := 1 } chgBusy 0 (Chg.State.init { chgDemo with scalar := 1 } fun _ => chgEv 2) = .ok s ∧
    Chg.Ok { chgDemo with scalar := 1 } chgBusy 0 (Chg.State.init { chgDemo with scalar := 1 } fun _ => chgEv 2) ∧
    (1, 3) ∈ s.record ∧ (1, 4, 0) ∈ s.joins ∧ (7, 4, 0) ∈ s.leaves :=
  ⟨_, stateOr_ok (d := chgStart) (by decide +kernel), Chg.okB_ok (by decide) _ 0 _ (.init _ _) (by decide +kernel), by decide +kernel⟩

/-- C117: in an interval the station changes a vehicle that leaves (its battery is full, the distance since
charging is zero, the timer is off, no station is assigned and it is on its next link) and the timers of vehicles that
wait; it changes nothing else about vehicles. -/
theorem C117_charging_fills_the_battery (c : Chg.Cfg) (hl : c.inLinks.Nodup) (as : List Chg.Around) (veh : ℕ → Chg.Ev)
    (ho : Chg.Ok c as 0 (Chg.State.init c veh)) (s : Chg.State)
    (hr : Chg.run c as 0 (Chg.State.init c veh) = .ok s) (a : Chg.Around) (ha : a.Ok c s) (s' : Chg.State)
    (he : Chg.evolve c a.order as.length (s.around a) = .ok s') (p : ℕ) :
    ((∃ i, (as.length, p, i) ∈ s'.leaves) → s'.veh p = { (s.around a).veh p with
      range := ((s.around a).veh p).full, since := 0, timer := 0, station := none, cur := ((s.around a).veh p).next }) ∧
    ((¬ ∃ i, (as.length, p, i) ∈ s'.leaves) →
      s'.veh p = { (s.around a).veh p with timer := (s'.veh p).timer }) ∧
    (¬ (s.around a).there p → s'.veh p = (s.around a).veh p) := by
  obtain ⟨h, _⟩ := Chg.run_inv hl as 0 _ s (.init c veh) ho hr
  rw [Nat.zero_add] at h
  obtain ⟨_, I⟩ := h.step hl ha he
  exact ⟨fun hp => I.left p hp, I.stay p, I.out p⟩

/-- In interval 1 vehicle 2 leaves and vehicle 3, behind it, waits. -/
example : ∃ s s', Chg.run chgDemo (chgDay.take 1) 0 chgStart = .ok s ∧ Chg.Ok chgDemo (chgDay.take 1) 0 chgStart ∧
    (⟨[], fun _ => 5, [0, 1]⟩ : Chg.Around).Ok chgDemo s ∧
    Chg.evolve chgDemo [0, 1] 1 (s.around ⟨[], fun _ => 5, [0, 1]⟩) = .ok s' ∧
    (1, 2, 0) ∈ s'.leaves ∧ (s'.veh 2).range = 100 ∧ (s'.veh 2).cur = some 3 ∧ (s.veh 2).range = 10 ∧
    (s'.veh 3).range = 10 ∧ s'.pool = [[3], []] :=
  ⟨_, _, chgDay_run 1 (by decide), chgDay_ok 1 (by decide), ⟨by simp [chgDemo], by simp, by simp, by simp, by simp⟩,
    stateOr_ok (d := chgStart) (by decide +kernel), by decide +kernel⟩

/-- C117: a station with at least one queue serves vehicles that were routed to it, and does not fail. -/
theorem C117_stations_work (c : Chg.Cfg) (hl : c.inLinks.Nodup) (hsc : 0 < c.scalar) (hq : 0 < c.queues)
    (as : List Chg.Around) (veh : ℕ → Chg.Ev) (hT : as.length < 10000)
    (ho : Chg.Ok c as 0 (Chg.State.init c veh)) (hr : ∀ a ∈ as, ∀ x ∈ a.arrive, x.2.2.Routed c) :
    ∃ s, Chg.run c as 0 (Chg.State.init c veh) = .ok s :=
  Chg.run_total hl hsc hq as 0 _ (.init c veh) (fun i p hp => by
    have := (Chg.Inv.init c veh).station.whole
    obtain ⟨q, hq, hp⟩ := Chg.queue_mem_pool hp
    simp only [Chg.State.init, List.mem_replicate] at hq
    rw [hq.2] at hp
    simp at hp) ho (by omega) hr

example : 0 < chgDemo.queues ∧ Chg.Ok chgDemo chgDay 0 chgStart ∧ ∀ a ∈ chgDay, ∀ x ∈ a.arrive, x.2.2.Routed chgDemo :=
  ⟨by decide +kernel, chgDay_ok 8 le_rfl, by
    simp only [chgDay, List.mem_cons, List.not_mem_nil, or_false, forall_eq_or_imp, forall_eq]
    refine ⟨⟨?_, ?_, ?_⟩, by simp, ⟨?_, ?_⟩, by simp⟩ <;>
      exact ⟨rfl, rfl, rfl, _, by decide, rfl⟩⟩

/-- The number of queues is the number of slots times the flow scalar without its fraction. -/
theorem C117_no_queues_below_one (c : Chg.Cfg) (h0 : 0 ≤ c.scalar) (h1 : c.scalar < 1) : c.queues = 0 := by
  have : trunc c.scalar = 0 := by
    unfold trunc
    rw [if_pos h0]
    exact Int.floor_eq_zero_iff.2 ⟨h0, h1⟩
  simp [Chg.Cfg.queues, this]

/-- C117 fails with a flow scalar less than one: then a station has no queues, and its first interval is undefined,
even if no vehicle comes. -/
theorem C117_stations_fail_below_one (c : Chg.Cfg) (h0 : 0 ≤ c.scalar) (h1 : c.scalar < 1) (a : Chg.Around)
    (as : List Chg.Around) (veh : ℕ → Chg.Ev) (ha : a.arrive = []) :
    Chg.run c (a :: as) 0 (Chg.State.init c veh) = .ub := by
  have hq := C117_no_queues_below_one c h0 h1
  have hj : ∀ (L : List ℕ) (s : Chg.State), (∀ l, s.finished l = []) → s.pool = [] →
      ∃ s', Res.foldlM (Chg.joinLink c 0) s L = .ok s' ∧ s'.pool = [] := by
    intro L
    induction L with
    | nil => exact fun s _ h => ⟨s, rfl, h⟩
    | cons l L ih =>
      intro s hf hp
      obtain ⟨s', h1, h2⟩ := ih { s with finished := upd s.finished l [] } (fun l' => by
        by_cases e : l' = l
        · subst e; simp
        · simp [upd_other _ _ _ _ e, hf]) hp
      refine ⟨s', ?_, h2⟩
      rw [Res.foldlM_cons, Chg.joinLink, hf l, Res.foldlM_nil, Res.bind_ok', Res.ok_bind]
      exact h1
  obtain ⟨s', h1, h2⟩ := hj a.order ((Chg.State.init c veh).around a) (fun l => by simp [Chg.State.around, ha, Chg.State.init])
    (by simp [Chg.State.around, ha, Chg.State.init, hq])
  unfold Chg.run Chg.evolve
  rw [h1, Res.bind_ok', h2]
  simp [Chg.estimate, h2, Res.bind]

example : (0 : ℚ) ≤ 1 / 2 ∧ (1 / 2 : ℚ) < 1 ∧
    Chg.run { chgDemo with scalar := 1 / 2 } [⟨[], fun _ => 0, [0, 1]⟩] 0
      (Chg.State.init { chgDemo with scalar := 1 / 2 } fun _ => chgEv 2) = .ub :=
  ⟨by norm_num, by norm_num, C117_stations_fail_below_one _ (by norm_num) (by norm_num) _ _ _ rfl⟩

end Verif

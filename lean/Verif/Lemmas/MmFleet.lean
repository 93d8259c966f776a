import Verif.Spec.MmFleet
import Verif.Lemmas.TourRelease

/-! # Lemmas about the release of vehicles in multimodal loadings -/

namespace Verif.MmF
open Ults

/-- The vehicles `l` have been made. -/
structure Added (l : List Veh) (s s' : State) : Prop where
  vehs : s'.fleet.vehs = s.fleet.vehs ++ l
  num : s'.fleet.num = s.fleet.num + l.length
  ids : l.map (·.id) = List.range' (s.fleet.num + 1) l.length
  queue : s'.queue = s.queue ++ List.range' (s.fleet.num + 1) l.length
  enroute : s'.fleet.enroute = s.fleet.enroute + l.length
  numOf : ∀ k, s'.fleet.numOf k = s.fleet.numOf k + (l.countP fun v => v.kind == k)
  enrouteOf : ∀ k, s'.fleet.enrouteOf k = s.fleet.enrouteOf k + (l.countP fun v => v.kind == k)
  finished : s'.fleet.finished = s.fleet.finished
  finishedOf : s'.fleet.finishedOf = s.fleet.finishedOf
  time : s'.fleet.time = s.fleet.time
  timeCar : s'.fleet.timeCar = s.fleet.timeCar
  timeTruck : s'.fleet.timeTruck = s.fleet.timeTruck
  timeBus : s'.fleet.timeBus = s.fleet.timeBus

theorem Added.refl (s : State) : Added [] s s := by
  constructor <;> simp

theorem Added.trans {l l' : List Veh} {s s1 s2 : State} (h : Added l s s1) (h' : Added l' s1 s2) :
    Added (l ++ l') s s2 := by
  have e : s1.fleet.num + 1 = s.fleet.num + 1 + l.length := by rw [h.num]; omega
  refine ⟨?_, ?_, ?_, ?_, ?_, ?_, ?_, h'.finished.trans h.finished, h'.finishedOf.trans h.finishedOf,
    h'.time.trans h.time, h'.timeCar.trans h.timeCar, h'.timeTruck.trans h.timeTruck, h'.timeBus.trans h.timeBus⟩
  · rw [h'.vehs, h.vehs, List.append_assoc]
  · rw [h'.num, h.num, List.length_append, Nat.add_assoc]
  · rw [List.map_append, h.ids, h'.ids, e, List.length_append, List.range'_append_1]
  · rw [h'.queue, h.queue, e, List.length_append, List.append_assoc, List.range'_append_1]
  · rw [h'.enroute, h.enroute, List.length_append]; push_cast; ring
  · intro k; rw [h'.numOf, h.numOf, List.countP_append]; push_cast; ring
  · intro k; rw [h'.enrouteOf, h.enrouteOf, List.countP_append]; push_cast; ring

theorem added_make {s : State} {v : Veh} (hv : v.id = s.fleet.num + 1) :
    Added [v] s ⟨s.fleet.make v, s.queue ++ [s.fleet.num + 1]⟩ := by
  refine ⟨rfl, rfl, ?_, ?_, ?_, ?_, ?_, rfl, rfl, rfl, rfl, rfl, rfl⟩
  · simp [hv]
  · simp
  · simp [Fleet.make]
  · intro k
    simp only [Fleet.make]
    by_cases hk : v.kind = k
    · subst hk; simp [upd_same]
    · rw [upd_other _ _ _ _ (fun e => hk e.symm)]; simp [hk]
  · intro k
    simp only [Fleet.make]
    by_cases hk : v.kind = k
    · subst hk; simp [upd_same]
    · rw [upd_other _ _ _ _ (fun e => hk e.symm)]; simp [hk]

theorem added_many {mk : ℕ → Veh} (hm : ∀ i, (mk i).id = i) (n : ℕ) (s : State) :
    Added ((List.range' (s.fleet.num + 1) n).map mk) s (releaseMany mk n s) := by
  induction n generalizing s with
  | zero => exact Added.refl _
  | succ n ih =>
    have h1 := added_make (s := s) (v := mk (s.fleet.num + 1)) (hm _)
    have := h1.trans (ih _)
    rw [List.range'_succ]
    exact this

theorem entry_ok {xs : List ℚ} {a : ℕ} {x : ℚ} (h : entry xs a = .ok x) : xs[a]? = some x := by
  unfold entry at h
  split at h
  · simp at h
  · rename_i y hy
    rw [hy]
    simpa using h

theorem many_countP {mk : ℕ → Veh} {p : Veh → Bool} {b : Bool} (h : ∀ i, p (mk i) = b) (a n : ℕ) :
    ((List.range' a n).map mk).countP p = if b then n else 0 := by
  cases b with
  | false =>
    simp only [Bool.false_eq_true, if_false, List.countP_eq_zero, List.mem_map, forall_exists_index, and_imp]
    rintro v i _ rfl
    simp [h]
  | true =>
    simp only [if_true]
    have : ((List.range' a n).map mk).countP p = ((List.range' a n).map mk).length := by
      rw [List.countP_eq_length]
      intro v hv
      rw [List.mem_map] at hv
      obtain ⟨i, _, rfl⟩ := hv
      exact h i
    rw [this]; simp

/-- What is known about a vehicle released for a destination. -/
def FromDests (o : Org) (dr : Draws) (ts a : ℕ) (truck pnr : Bool) (own : ℕ → Option (List ℚ)) (ratio : ℚ)
    (l : List (ℕ × List ℚ)) (v : Veh) : Prop :=
  ∃ q, v = newVeh o dr ts truck pnr q v.dest v.id ∧ v.dest ∈ l.map (·.1) ∧
    (∀ f, own v.dest = some f → f[a]? = some q) ∧ ((∀ p ∈ l, own p.1 = none) → q = ratio)

theorem releaseDests_added {o : Org} {dr : Draws} {ts a : ℕ} {truck pnr : Bool} {u : ℕ → ℚ}
    {own : ℕ → Option (List ℚ)} (hs : 0 ≤ o.scalar) (l : List (ℕ × List ℚ)) {k : ℕ} {ratio : ℚ} {s : State}
    {r : State × ℚ} (h : releaseDests o dr ts a truck pnr u own k ratio l s = .ok r) :
    ∃ new, Added new s r.1 ∧ (∀ v ∈ new, FromDests o dr ts a truck pnr own ratio l v) ∧
      ((∀ p ∈ l, own p.1 = none) → r.2 = ratio) ∧
      ((l.map (·.1)).Nodup → (∀ p ∈ l, ∀ x, p.2[a]? = some x → 0 ≤ x) →
        ∀ i d dem, l[i]? = some (d, dem) →
          ∃ x, dem[a]? = some x ∧ Tour.Rounded (x * o.scalar) (u (k + i)) (new.countP fun v => v.dest == d)) := by
  induction l generalizing k ratio s with
  | nil =>
    simp only [releaseDests, Res.ok.injEq] at h
    subst h
    exact ⟨[], Added.refl _, by simp, by simp, by simp⟩
  | cons p rest ih =>
    obtain ⟨d, dem⟩ := p
    rw [releaseDests] at h
    obtain ⟨q, hq, h⟩ := Res.bind_eq_ok'.1 h
    obtain ⟨x, hx, h⟩ := Res.bind_eq_ok'.1 h
    obtain ⟨n, hn, h⟩ := Res.bind_eq_ok'.1 h
    obtain ⟨new, hadd, hfrom, hrat, hcnt⟩ := ih h
    have hx := entry_ok hx
    have hm := added_many (mk := newVeh o dr ts truck pnr q d) (fun _ => rfl) n.toNat s
    have hown : ∀ f, own d = some f → f[a]? = some q := by
      intro f hf
      rw [ratioFor, hf] at hq
      exact entry_ok hq
    have hnone : own d = none → q = ratio := by
      intro hf
      rw [ratioFor, hf] at hq
      simpa using hq.symm
    refine ⟨_, hm.trans hadd, ?_, ?_, ?_⟩
    · intro v hv
      rw [List.mem_append] at hv
      rcases hv with hv | hv
      · rw [List.mem_map] at hv
        obtain ⟨i, _, rfl⟩ := hv
        refine ⟨q, rfl, by simp [newVeh], hown, fun hall => hnone (hall (d, dem) (by simp))⟩
      · obtain ⟨q', h1, h2, h3, h4⟩ := hfrom v hv
        refine ⟨q', h1, by simp only [List.map_cons, List.mem_cons]; exact Or.inr h2, h3, fun hall => ?_⟩
        rw [h4 (fun p hp => hall p (by simp [hp])), hnone (hall (d, dem) (by simp))]
    · intro hall
      rw [hrat (fun p hp => hall p (by simp [hp])), hnone (hall (d, dem) (by simp))]
    · intro hnd hpos i d' dem' hi
      rw [List.map_cons, List.nodup_cons] at hnd
      cases i with
      | zero =>
        simp only [List.getElem?_cons_zero, Option.some.injEq, Prod.mk.injEq] at hi
        obtain ⟨rfl, rfl⟩ := hi
        refine ⟨x, hx, ?_⟩
        have h0 : new.countP (fun v => v.dest == d) = 0 := by
          rw [List.countP_eq_zero]
          intro v hv
          obtain ⟨_, _, h2, _⟩ := hfrom v hv
          intro e
          rw [beq_iff_eq] at e
          rw [e] at h2
          exact hnd.1 h2
        rw [List.countP_append, h0, many_countP (b := true) (fun i => by simp [newVeh])]
        exact Tour.rounded_of (mul_nonneg (hpos (d, dem) (by simp) x hx) hs) hn
      | succ i =>
        rw [List.getElem?_cons_succ] at hi
        obtain ⟨y, hy, hr⟩ := hcnt hnd.2 (fun p hp => hpos p (by simp [hp])) i d' dem' hi
        refine ⟨y, hy, ?_⟩
        have hne : d ≠ d' := by
          rintro rfl
          exact hnd.1 (List.mem_map.2 ⟨_, List.mem_of_getElem? hi, rfl⟩)
        rw [List.countP_append, many_countP (b := false) (fun i => by simp [newVeh, hne])]
        rw [show k + (i + 1) = k + 1 + i by omega]
        simpa using hr

theorem toInt_floor {x : ℚ} {n : ℤ} (h : toInt (⌊x⌋ : ℚ) = .ok n) : n = ⌊x⌋ := by
  unfold toInt at h
  split at h
  · simp only [Res.ok.injEq] at h
    rw [← h, trunc]
    split <;> simp
  · simp at h

theorem releaseRoutes_added {o : Org} {ts a d : ℕ} (l : List (ℤ × List ℚ)) {s s' : State}
    (h : releaseRoutes o ts a d l s = .ok s') :
    ∃ new, Added new s s' ∧ (∀ v ∈ new, v = newBus o ts d v.route v.id ∧ v.route ∈ l.map (·.1)) ∧
      ((l.map (·.1)).Nodup → (∀ p ∈ l, ∀ x, p.2[a]? = some x → 0 ≤ x * o.scalar) →
        ∀ p ∈ l, ∃ x, p.2[a]? = some x ∧ ((new.countP fun v => v.route == p.1 : ℕ) : ℤ) = ⌊x * o.scalar⌋) := by
  induction l generalizing s with
  | nil =>
    simp only [releaseRoutes, Res.ok.injEq] at h
    subst h
    exact ⟨[], Added.refl _, by simp, by simp⟩
  | cons p rest ih =>
    obtain ⟨ρ, dem⟩ := p
    rw [releaseRoutes] at h
    obtain ⟨x, hx, h⟩ := Res.bind_eq_ok'.1 h
    obtain ⟨n, hn, h⟩ := Res.bind_eq_ok'.1 h
    obtain ⟨new, hadd, hfrom, hcnt⟩ := ih h
    have hx := entry_ok hx
    have hm := added_many (mk := newBus o ts d ρ) (fun _ => rfl) n.toNat s
    refine ⟨_, hm.trans hadd, ?_, ?_⟩
    · intro v hv
      rw [List.mem_append] at hv
      rcases hv with hv | hv
      · rw [List.mem_map] at hv
        obtain ⟨i, _, rfl⟩ := hv
        exact ⟨rfl, by simp [newBus]⟩
      · obtain ⟨h1, h2⟩ := hfrom v hv
        exact ⟨h1, by simp only [List.map_cons, List.mem_cons]; exact Or.inr h2⟩
    · intro hnd hpos p hp
      rw [List.map_cons, List.nodup_cons] at hnd
      rw [List.mem_cons] at hp
      rcases hp with rfl | hp
      · refine ⟨x, hx, ?_⟩
        have h0 : new.countP (fun v => v.route == ρ) = 0 := by
          rw [List.countP_eq_zero]
          intro v hv e
          rw [beq_iff_eq] at e
          have h2 := (hfrom v hv).2
          rw [e] at h2
          exact hnd.1 h2
        rw [List.countP_append, h0, many_countP (b := true) (fun i => by simp [newBus])]
        have h1 := toInt_floor hn
        have h2 : 0 ≤ ⌊x * o.scalar⌋ := Int.floor_nonneg.2 (hpos (ρ, dem) (by simp) x hx)
        simp only [if_true, Nat.add_zero]
        omega
      · obtain ⟨y, hy, hr⟩ := hcnt hnd.2 (fun p hp => hpos p (by simp [hp])) p hp
        refine ⟨y, hy, ?_⟩
        have hne : ρ ≠ p.1 := by
          rintro rfl
          exact hnd.1 (List.mem_map.2 ⟨_, hp, rfl⟩)
        rw [List.countP_append, many_countP (b := false) (fun i => by simp [newBus, hne])]
        simpa using hr

theorem releaseBuses_added {o : Org} {ts a : ℕ} (l : List (ℕ × List (ℤ × List ℚ))) {s s' : State}
    (h : releaseBuses o ts a l s = .ok s') :
    ∃ new, Added new s s' ∧
      (∀ v ∈ new, v = newBus o ts v.dest v.route v.id ∧ ∃ p ∈ l, p.1 = v.dest ∧ v.route ∈ p.2.map (·.1)) ∧
      ((l.map (·.1)).Nodup → (∀ p ∈ l, (p.2.map (·.1)).Nodup) →
        (∀ p ∈ l, ∀ q ∈ p.2, ∀ x, q.2[a]? = some x → 0 ≤ x * o.scalar) →
        ∀ p ∈ l, ∀ q ∈ p.2, ∃ x, q.2[a]? = some x ∧
          ((new.countP fun v => v.dest == p.1 && v.route == q.1 : ℕ) : ℤ) = ⌊x * o.scalar⌋) := by
  induction l generalizing s with
  | nil =>
    simp only [releaseBuses, Res.ok.injEq] at h
    subst h
    exact ⟨[], Added.refl _, by simp, by simp⟩
  | cons p rest ih =>
    obtain ⟨d, rs⟩ := p
    rw [releaseBuses] at h
    obtain ⟨s1, h1, h⟩ := Res.bind_eq_ok'.1 h
    obtain ⟨new1, hadd1, hfrom1, hcnt1⟩ := releaseRoutes_added rs h1
    obtain ⟨new, hadd, hfrom, hcnt⟩ := ih h
    have hd1 : ∀ v ∈ new1, v.dest = d := by
      intro v hv
      rw [(hfrom1 v hv).1]; rfl
    refine ⟨_, hadd1.trans hadd, ?_, ?_⟩
    · intro v hv
      rw [List.mem_append] at hv
      rcases hv with hv | hv
      · refine ⟨?_, (d, rs), by simp, (hd1 v hv).symm, (hfrom1 v hv).2⟩
        rw [hd1 v hv]
        exact (hfrom1 v hv).1
      · obtain ⟨h1, q, hq, h2⟩ := hfrom v hv
        exact ⟨h1, q, by simp [hq], h2⟩
    · intro hnd hrn hpos p hp q hq
      rw [List.map_cons, List.nodup_cons] at hnd
      rw [List.mem_cons] at hp
      rcases hp with rfl | hp
      · obtain ⟨x, hx, hc⟩ := hcnt1 (hrn (d, rs) (by simp)) (hpos (d, rs) (by simp)) q hq
        refine ⟨x, hx, ?_⟩
        have h0 : new.countP (fun v => v.dest == d && v.route == q.1) = 0 := by
          rw [List.countP_eq_zero]
          intro v hv e
          rw [Bool.and_eq_true, beq_iff_eq] at e
          obtain ⟨_, p, hp, h2, _⟩ := hfrom v hv
          rw [e.1] at h2
          exact hnd.1 (List.mem_map.2 ⟨p, hp, h2⟩)
        have h1 : new1.countP (fun v => v.dest == d && v.route == q.1) = new1.countP (fun v => v.route == q.1) := by
          apply List.countP_congr
          intro v hv
          simp [hd1 v hv]
        simp only at *
        rw [List.countP_append, h0, h1]
        simpa using hc
      · obtain ⟨x, hx, hc⟩ := hcnt hnd.2 (fun p hp => hrn p (by simp [hp])) (fun p hp => hpos p (by simp [hp])) p hp q hq
        refine ⟨x, hx, ?_⟩
        have h0 : new1.countP (fun v => v.dest == p.1 && v.route == q.1) = 0 := by
          rw [List.countP_eq_zero]
          intro v hv e
          rw [Bool.and_eq_true, beq_iff_eq, hd1 v hv] at e
          exact hnd.1 (List.mem_map.2 ⟨p, hp, e.1.symm⟩)
        rw [List.countP_append, h0]
        simpa using hc

theorem kind_newVeh (o : Org) (dr : Draws) (ts : ℕ) (truck pnr : Bool) (q : ℚ) (d id : ℕ) :
    (newVeh o dr ts truck pnr q d id).kind = if truck then .truck else if pnr then .pnr else .car := by
  simp [newVeh, Veh.kind]

theorem kind_newBus (o : Org) (ts d : ℕ) (ρ : ℤ) (id : ℕ) (h : ρ ≠ -1) : (newBus o ts d ρ id).kind = .bus := by
  simp [newBus, Veh.kind, h]

theorem released_newVeh (o : Org) (dr : Draws) (ts : ℕ) (truck pnr : Bool) (q : ℚ) (d id : ℕ)
    (h : truck = true → pnr = false) : Released o ts (newVeh o dr ts truck pnr q d id) := by
  cases truck <;> cases pnr
  · constructor <;> simp [newVeh, Veh.kind]
  · constructor <;> simp [newVeh, Veh.kind]
  · constructor <;> simp [newVeh, Veh.kind]
  · exact absurd (h rfl) (by simp)

theorem released_newBus (o : Org) (ts d : ℕ) (ρ : ℤ) (id : ℕ) (h : ρ ≠ -1) : Released o ts (newBus o ts d ρ id) := by
  constructor <;> simp [newBus, Veh.kind, h]

theorem adaptiveBy {q r : ℚ} (hr1 : r ≤ 1) (hq : 0 ≤ q) : AdaptiveBy q r (adaptiveWith q r) := by
  unfold AdaptiveBy adaptiveWith
  by_cases h0 : q = 0
  · simp [h0]
  · rw [if_neg h0]
    have : 0 < q := lt_of_le_of_ne hq (Ne.symm h0)
    by_cases h1 : q = 1
    · simp [h1, hr1]
    · simp [h1, this]

end Verif.MmF

namespace Verif.MmF
open Ults

theorem countP_kind {l : List Veh} {k0 : Kind} (h : ∀ v ∈ l, v.kind = k0) (k : Kind) (p : Veh → Bool) :
    l.countP (fun v => v.kind == k && p v) = if k0 = k then l.countP p else 0 := by
  split_ifs with e
  · apply List.countP_congr
    intro v hv
    simp [h v hv, e]
  · rw [List.countP_eq_zero]
    intro v hv
    simp [h v hv, e]

theorem countP_dest_none {l : List Veh} {d : ℕ} {ks : List ℕ} (h : ∀ v ∈ l, v.dest ∈ ks) (hd : d ∉ ks) :
    l.countP (fun v => v.dest == d) = 0 := by
  rw [List.countP_eq_zero]
  intro v hv e
  rw [beq_iff_eq] at e
  exact hd (e ▸ h v hv)

/-- All that is known after a release. -/
theorem release_added {o : Org} {dm : Demand} {dr : Draws} {ts : ℕ} {a : ℕ} {m : Ratios} {s s' : State}
    (hs : 0 ≤ o.scalar) (h : release o dm dr ts a m s = .ok s') :
    ∃ c t b p : List Veh, ∃ z : State, ∃ rt rp : ℚ,
      Added (c ++ t ++ b ++ p) s z ∧ s' = { z with queue := dr.shuffle z.queue } ∧
      (∀ v ∈ c, FromDests o dr ts a false false dm.ratioCar m.car dm.car v) ∧
      (∀ v ∈ t, FromDests o dr ts a true false dm.ratioTruck rt dm.truck v) ∧
      (∀ v ∈ b, v = newBus o ts v.dest v.route v.id ∧ ∃ p ∈ dm.bus, p.1 = v.dest ∧ v.route ∈ p.2.map (·.1)) ∧
      (∀ v ∈ p, FromDests o dr ts a false true (fun _ => none) rp dm.pnr v) ∧
      (∀ r, m = .one r → (∀ q ∈ dm.car, dm.ratioCar q.1 = none) → rt = r) ∧
      (∀ r, m = .one r → (∀ q ∈ dm.car, dm.ratioCar q.1 = none) → (∀ q ∈ dm.truck, dm.ratioTruck q.1 = none) →
        rp = r) ∧
      (∀ x y, m = .two x y → rt = y) ∧
      (∀ x y, m = .two x y → (∀ q ∈ dm.car, dm.ratioCar q.1 = none) → rp = x) ∧
      (dm.Ok a →
        (∀ i d dem, dm.car[i]? = some (d, dem) →
          ∃ x, dem[a]? = some x ∧ Tour.Rounded (x * o.scalar) (dr.uCar i) (c.countP fun v => v.dest == d)) ∧
        (∀ i d dem, dm.truck[i]? = some (d, dem) →
          ∃ x, dem[a]? = some x ∧ Tour.Rounded (x * o.scalar) (dr.uTruck i) (t.countP fun v => v.dest == d)) ∧
        (∀ q ∈ dm.bus, ∀ q' ∈ q.2, ∃ x, q'.2[a]? = some x ∧
          ((b.countP fun v => v.dest == q.1 && v.route == q'.1 : ℕ) : ℤ) = ⌊x * o.scalar⌋) ∧
        (∀ i d dem, dm.pnr[i]? = some (d, dem) →
          ∃ x, dem[a]? = some x ∧ Tour.Rounded (x * o.scalar) (dr.uPnr i) (p.countP fun v => v.dest == d))) := by
  unfold release at h
  rw [if_neg (by omega)] at h
  by_cases hf : o.freq = 0
  · rw [if_pos hf] at h; simp at h
  rw [if_neg hf] at h
  simp only [Int.toNat_natCast] at h
  obtain ⟨x1, h1, h⟩ := Res.bind_eq_ok'.1 h
  obtain ⟨x2, h2, h⟩ := Res.bind_eq_ok'.1 h
  obtain ⟨x3, h3, h⟩ := Res.bind_eq_ok'.1 h
  obtain ⟨x4, h4, h⟩ := Res.bind_eq_ok'.1 h
  obtain ⟨c, c1, c2, c3, c4⟩ := releaseDests_added hs _ h1
  obtain ⟨t, t1, t2, t3, t4⟩ := releaseDests_added hs _ h2
  obtain ⟨b, b1, b2, b3⟩ := releaseBuses_added _ h3
  obtain ⟨p, p1, p2, p3, p4⟩ := releaseDests_added hs _ h4
  simp only [Res.ok.injEq] at h
  refine ⟨c, t, b, p, x4.1, _, _, ((c1.trans t1).trans b1).trans p1, h.symm, c2, t2, b2, p2, ?_, ?_, ?_, ?_, ?_⟩
  · rintro r rfl hc
    exact c3 hc
  · rintro r rfl hc ht
    exact (t3 ht).trans (c3 hc)
  · rintro x y rfl
    rfl
  · rintro x y rfl hc
    exact c3 hc
  · intro hd
    refine ⟨?_, ?_, ?_, ?_⟩
    · intro i d dem hi
      have := c4 hd.carKeys hd.car i d dem hi
      rwa [Nat.zero_add] at this
    · intro i d dem hi
      have := t4 hd.truckKeys hd.truck i d dem hi
      rwa [Nat.zero_add] at this
    · exact b3 hd.busKeys hd.routeKeys fun q hq q' hq' x hx => mul_nonneg (hd.bus q hq q' hq' x hx) hs
    · intro i d dem hi
      have := p4 hd.pnrKeys hd.pnr i d dem hi
      rwa [Nat.zero_add] at this

/-! ## Success -/

/-- An entry is there, and the vehicles for it can be counted. -/
def Countable (o : Org) (a : ℕ) (xs : List ℚ) : Prop :=
  ∃ x, xs[a]? = some x ∧ 0 ≤ x * o.scalar ∧ x * o.scalar < 2147483647

theorem toInt_ok {x : ℚ} (h0 : 0 ≤ x) (h1 : x < 2147483648) : toInt x = .ok ⌊x⌋ := by
  unfold toInt trunc
  rw [if_pos h0, if_pos]
  constructor
  · have := Int.floor_nonneg.2 h0
    omega
  · have : ⌊x⌋ < 2147483648 := Int.floor_lt.2 (by exact_mod_cast h1)
    omega

theorem round_ok {x u : ℚ} (h0 : 0 ≤ x) (h1 : x < 2147483647) : ∃ n, round x u = .ok n := by
  unfold Ults.round
  rw [toInt_ok h0 (by linarith)]
  have h2 : (0 : ℚ) ≤ (⌊x⌋ : ℚ) := by exact_mod_cast Int.floor_nonneg.2 h0
  have h3 : (⌊x⌋ : ℚ) ≤ x := Int.floor_le x
  simp only [Res.bind]
  split_ifs
  · exact ⟨_, toInt_ok (by linarith) (by linarith)⟩
  · exact ⟨_, toInt_ok h2 (by linarith)⟩

theorem releaseDests_ok {o : Org} {dr : Draws} {ts a : ℕ} {truck pnr : Bool} {u : ℕ → ℚ}
    {own : ℕ → Option (List ℚ)} (l : List (ℕ × List ℚ)) (hl : ∀ p ∈ l, Countable o a p.2)
    (hown : ∀ p ∈ l, ∀ f, own p.1 = some f → a < f.length) (k : ℕ) (ratio : ℚ) (s : State) :
    ∃ r, releaseDests o dr ts a truck pnr u own k ratio l s = .ok r := by
  induction l generalizing k ratio s with
  | nil => exact ⟨_, rfl⟩
  | cons p rest ih =>
    obtain ⟨d, dem⟩ := p
    obtain ⟨x, hx, h0, h1⟩ := hl (d, dem) (by simp)
    obtain ⟨n, hn⟩ := round_ok (u := u k) h0 h1
    have hq : ∃ q, ratioFor own a ratio d = .ok q := by
      cases ho : own d with
      | none => exact ⟨ratio, by rw [ratioFor, ho]⟩
      | some f =>
        have := hown (d, dem) (by simp) f ho
        exact ⟨f[a], by simp [ratioFor, ho, entry, List.getElem?_eq_getElem this]⟩
    obtain ⟨q, hq⟩ := hq
    have he : entry dem a = .ok x := by simp only [entry]; rw [show dem[a]? = some x from hx]
    obtain ⟨r, hr⟩ := ih (fun p hp => hl p (by simp [hp])) (fun p hp => hown p (by simp [hp])) (k + 1) q
      (releaseMany (newVeh o dr ts truck pnr q d) n.toNat s)
    refine ⟨r, ?_⟩
    rw [releaseDests, hq]
    simp only [Res.bind, he, hn]
    exact hr

theorem releaseRoutes_ok {o : Org} {ts a d : ℕ} (l : List (ℤ × List ℚ)) (hl : ∀ p ∈ l, Countable o a p.2)
    (s : State) : ∃ r, releaseRoutes o ts a d l s = .ok r := by
  induction l generalizing s with
  | nil => exact ⟨_, rfl⟩
  | cons p rest ih =>
    obtain ⟨ρ, dem⟩ := p
    obtain ⟨x, hx, h0, h1⟩ := hl (ρ, dem) (by simp)
    have he : entry dem a = .ok x := by simp only [entry]; rw [show dem[a]? = some x from hx]
    have h2 : (0 : ℚ) ≤ (⌊x * o.scalar⌋ : ℚ) := by exact_mod_cast Int.floor_nonneg.2 h0
    have h3 : (⌊x * o.scalar⌋ : ℚ) ≤ x * o.scalar := Int.floor_le _
    have hn := toInt_ok h2 (by linarith)
    obtain ⟨r, hr⟩ := ih (fun p hp => hl p (by simp [hp])) (releaseMany (newBus o ts d ρ) (⌊((⌊x * o.scalar⌋ : ℤ) : ℚ)⌋).toNat s)
    refine ⟨r, ?_⟩
    rw [releaseRoutes]
    simp only [Res.bind, he, hn]
    exact hr

theorem releaseBuses_ok {o : Org} {ts a : ℕ} (l : List (ℕ × List (ℤ × List ℚ)))
    (hl : ∀ p ∈ l, ∀ q ∈ p.2, Countable o a q.2) (s : State) : ∃ r, releaseBuses o ts a l s = .ok r := by
  induction l generalizing s with
  | nil => exact ⟨_, rfl⟩
  | cons p rest ih =>
    obtain ⟨d, rs⟩ := p
    obtain ⟨r1, h1⟩ := releaseRoutes_ok (ts := ts) (d := d) rs (hl (d, rs) (by simp)) s
    obtain ⟨r, hr⟩ := ih (fun p hp => hl p (by simp [hp])) r1
    refine ⟨r, ?_⟩
    rw [releaseBuses, h1]
    exact hr

theorem release_ok {o : Org} {dm : Demand} {dr : Draws} {ts : ℕ} {a : ℕ} {m : Ratios} {s : State}
    (hf : o.freq ≠ 0) (hc : ∀ p ∈ dm.car, Countable o a p.2) (ht : ∀ p ∈ dm.truck, Countable o a p.2)
    (hb : ∀ p ∈ dm.bus, ∀ q ∈ p.2, Countable o a q.2) (hp : ∀ p ∈ dm.pnr, Countable o a p.2)
    (hrc : ∀ d f, dm.ratioCar d = some f → a < f.length) (hrt : ∀ d f, dm.ratioTruck d = some f → a < f.length) :
    ∃ s', release o dm dr ts a m s = .ok s' := by
  unfold release
  rw [if_neg (by omega), if_neg hf]
  simp only [Int.toNat_natCast]
  obtain ⟨x1, h1⟩ := releaseDests_ok (dr := dr) (ts := ts) (truck := false) (pnr := false) (u := dr.uCar) dm.car hc
    (fun p _ => hrc p.1) 0 m.car s
  rw [h1]
  obtain ⟨x2, h2⟩ := releaseDests_ok (dr := dr) (ts := ts) (truck := true) (pnr := false) (u := dr.uTruck) dm.truck ht
    (fun p _ => hrt p.1) 0 (m.truck x1.2) x1.1
  simp only [Res.bind]
  rw [h2]
  obtain ⟨x3, h3⟩ := releaseBuses_ok (ts := ts) dm.bus hb x2.1
  simp only
  rw [h3]
  obtain ⟨x4, h4⟩ := releaseDests_ok (dr := dr) (ts := ts) (truck := false) (pnr := true) (u := dr.uPnr)
    (own := fun _ => none) dm.pnr hp (by simp) 0 (m.pnr x1.2 x2.2) x3
  simp only
  rw [h4]
  exact ⟨_, rfl⟩

end Verif.MmF

import Verif.Lemmas.MmQuerySim

/-!
# Travel times by bus and on foot (C153, C154, C155, C156)
-/

namespace Verif
open MmQ Curve Tt

/-- **C155** Queries of travel times by bus and on foot do not disturb each other: after any calls, a call gives what it
would have given before them. -/
theorem C155_no_interference {e : MmQ.Env} {s s' : MmQ.State} {asks : List MmQ.Ask} (q : MmQ.Ask)
    (hs : MmQ.session e asks s = .ok s') :
    ((MmQ.answer e q s').bind fun r => .ok r.1) = (MmQ.answer e q s).bind fun r => .ok r.1 := by
  have h := MmQ.answer_blind e q s s' s (MmQ.session_keep asks s s' hs) (MmQ.Sim.refl _ _)
  revert h
  generalize MmQ.answer e q s' = x
  generalize MmQ.answer e q s = y
  intro h
  cases h <;> rfl

/-- **C153** (partial: whole buses, and with the cut at the last bus that is part of `Rides`) `get_bus_link_tt`, after any
calls: the entry for a bus link and a start is the time until the bus that the passenger gets has arrived at the next
stop, in seconds. -/
theorem C153_bus_link_tt_partial {e : MmQ.Env} (he : e.explicitBus = true) {arr dep next : ℤ → List (ℕ × ℕ)}
    {s s' : MmQ.State} (hl : ∀ l ∈ e.regBus, BusLoaded e.T (arr l) (dep l) (next l) s l)
    {asks : List MmQ.Ask} (hs : MmQ.session e asks s = .ok s') (inf : Bool) {starts : List ℕ}
    (hst : ∀ x ∈ starts, x < e.T) :
    ∃ cols s'', MmQ.answer e (.bus inf false (starts.map fun x : ℕ => (x : ℚ))) s' = .ok (cols, s'') ∧
      List.Forall₂ (fun x col => List.Forall₂ (fun l v =>
        ∃ n, Rides e.T (arr l) (dep l) (next l) (x + 1) n ∧ v = some (scale e.unit (shown e.T inf n))) e.regBus col)
        starts cols := by
  obtain ⟨c, t', h1, h2⟩ := MmQ.columns_values (T := e.T) (s := s) (check := MmQ.checkStart e.T)
    (f := MmQ.busOne e inf false) (V := fun y l v => ∀ x : ℕ, y = x →
      ∃ n, Rides e.T (arr l) (dep l) (next l) (x + 1) n ∧ v = some (scale e.unit (shown e.T inf n))) e.regBus
    (starts.map fun x : ℕ => (x : ℚ)) (MmQ.busOne_blind e inf false)
    (by intro y hy
        obtain ⟨x, hx, rfl⟩ := List.mem_map.1 hy
        exact MmQ.checkStart_nat (hst x hx))
    (by intro y hy l hlm t ht
        obtain ⟨x, hx, rfl⟩ := List.mem_map.1 hy
        obtain ⟨n, t', h3, h4⟩ := MmQ.busTt_rides he (hl l hlm) ht inf (x := x + 1) (by omega)
        refine ⟨some (scale e.unit (shown e.T inf n)), t', ?_, fun x' hx' => ?_⟩
        · unfold MmQ.busOne
          rw [show (x : ℚ) + 1 = ((x + 1 : ℕ) : ℚ) by push_cast; rfl, h4, Res.bind_ok']
        · have : x = x' := by exact_mod_cast hx'
          subst this
          exact ⟨n, h3, rfl⟩) s' (MmQ.session_keep asks s s' hs)
  refine ⟨c, t', h1, ?_⟩
  rw [List.forall₂_map_left_iff] at h2
  refine h2.imp fun x col h => h.imp fun l v h => h x rfl

/-- **C153** (partial, as above) `get_bus_link_tt` when only riding times are asked for: the riding time if a bus stands
at the stop, minus one interval if the passenger would have to wait, and "no bus" otherwise. -/
theorem C153_bus_time_partial {e : MmQ.Env} (he : e.explicitBus = true) {arr dep next : ℤ → List (ℕ × ℕ)}
    {s s' : MmQ.State} (hl : ∀ l ∈ e.regBus, BusLoaded e.T (arr l) (dep l) (next l) s l)
    {asks : List MmQ.Ask} (hs : MmQ.session e asks s = .ok s') (inf : Bool) {starts : List ℕ}
    (hst : ∀ x ∈ starts, x < e.T) :
    ∃ cols s'', MmQ.answer e (.bus inf true (starts.map fun x : ℕ => (x : ℚ))) s' = .ok (cols, s'') ∧
      List.Forall₂ (fun x col => List.Forall₂ (fun l v =>
        ∃ n, Rides e.T (arr l) (dep l) (next l) (x + 1) n ∧
          (n = ⊤ → v = some (scale e.unit (shown e.T inf ⊤))) ∧
          (∀ i : ℕ, n = i → upTo (dep l) (x + 1) < upTo (arr l) (x + 1) → v = some (((i * e.unit : ℚ) : WithTop ℚ))) ∧
          (∀ i : ℕ, n = i → upTo (dep l) (x + 1) = upTo (arr l) (x + 1) → v = some (((-1 * e.unit : ℚ) : WithTop ℚ))))
        e.regBus col) starts cols := by
  obtain ⟨c, t', h1, h2⟩ := MmQ.columns_values (T := e.T) (s := s) (check := MmQ.checkStart e.T)
    (f := MmQ.busOne e inf true) (V := fun y l v => ∀ x : ℕ, y = x →
      ∃ n, Rides e.T (arr l) (dep l) (next l) (x + 1) n ∧
          (n = ⊤ → v = some (scale e.unit (shown e.T inf ⊤))) ∧
          (∀ i : ℕ, n = i → upTo (dep l) (x + 1) < upTo (arr l) (x + 1) → v = some (((i * e.unit : ℚ) : WithTop ℚ))) ∧
          (∀ i : ℕ, n = i → upTo (dep l) (x + 1) = upTo (arr l) (x + 1) → v = some (((-1 * e.unit : ℚ) : WithTop ℚ))))
    e.regBus (starts.map fun x : ℕ => (x : ℚ)) (MmQ.busOne_blind e inf true)
    (by intro y hy
        obtain ⟨x, hx, rfl⟩ := List.mem_map.1 hy
        exact MmQ.checkStart_nat (hst x hx))
    (by intro y hy l hlm t ht
        obtain ⟨x, hx, rfl⟩ := List.mem_map.1 hy
        obtain ⟨L, M, w, hL, hM, hw, hcase⟩ := MmQ.busTt_eq he (hl l hlm) ht inf (x := x + 1) (by omega)
        have hone : ∀ v t', MmQ.busTt e inf true l ((x + 1 : ℕ) : ℚ) t = .ok (v, t') →
            MmQ.busOne e inf true x l t = .ok (some (scale e.unit v), t') := by
          intro v t' h
          unfold MmQ.busOne
          rw [show (x : ℚ) + 1 = ((x + 1 : ℕ) : ℚ) by push_cast; rfl, h, Res.bind_ok']
        rcases hcase with ⟨h3, h4⟩ | ⟨i, h3, h4⟩
        · obtain ⟨t', h5⟩ := h4 true
          refine ⟨_, t', hone _ _ h5, fun x' hx' => ?_⟩
          have : x = x' := by exact_mod_cast hx'
          subst this
          exact ⟨⊤, ⟨L, M, w, hL, hM, hw, fun _ => rfl, fun _ _ _ => rfl, fun i hi => by rw [h3] at hi; cases hi⟩,
            fun _ => rfl, fun i hi => (WithTop.top_ne_coe hi).elim, fun i hi => (WithTop.top_ne_coe hi).elim⟩
        · have hxL : x + 1 < L := by
            by_contra hcon
            have := hw.1 (not_lt.1 hcon)
            rw [h3] at this
            exact WithTop.coe_ne_top this
          rcases h4 with ⟨h4, h5⟩ | ⟨h4, a, h5, h6, _, h7, h8⟩
          · obtain ⟨t', h6⟩ := h5 true
            refine ⟨_, t', hone _ _ h6, fun x' hx' => ?_⟩
            have : x = x' := by exact_mod_cast hx'
            subst this
            refine ⟨⊤, ⟨L, M, w, hL, hM, hw, fun _ => rfl, fun _ _ _ => rfl, fun j hj h7 => ?_⟩,
              fun _ => rfl, fun i hi => (WithTop.top_ne_coe hi).elim, fun i hi => (WithTop.top_ne_coe hi).elim⟩
            rw [h3] at hj
            have : i = j := WithTop.coe_injective hj
            omega
          · have hr : Rides e.T (arr l) (dep l) (next l) (x + 1) ((a - (x + 1) : ℕ) : WithTop ℕ) := by
              refine ⟨L, M, w, hL, hM, hw, fun h => ?_, fun j hj h8 => ?_, fun j hj h8 => ?_⟩
              · rw [h3] at h; exact (WithTop.coe_ne_top h).elim
              · rw [h3] at hj
                have : i = j := WithTop.coe_injective hj
                omega
              · rw [h3] at hj
                have : i = j := WithTop.coe_injective hj
                subst this
                exact ⟨a, h5, h6, rfl⟩
            by_cases h0 : i = 0
            · obtain ⟨t', h9⟩ := h7 h0
              refine ⟨_, t', hone _ _ h9, fun x' hx' => ?_⟩
              have : x = x' := by exact_mod_cast hx'
              subst this
              refine ⟨_, hr, fun h => (WithTop.coe_ne_top h).elim, fun k hk _ => ?_, fun k hk hd => ?_⟩
              · have : a - (x + 1) = k := WithTop.coe_injective hk
                rw [this]; rfl
              · exfalso
                obtain ⟨i', hi', e'⟩ := hw.2.2 hxL hd
                rw [h3] at e'
                have : i = i' := WithTop.coe_injective e'
                have h10 : upTo (arr l) (x + 1) < upTo (arr l) (x + 1 + i') := hi'.1
                rw [← this, h0] at h10
                exact absurd h10 (lt_irrefl _)
            · obtain ⟨t', h9⟩ := h8 h0
              refine ⟨_, t', hone _ _ h9, fun x' hx' => ?_⟩
              have : x = x' := by exact_mod_cast hx'
              subst this
              refine ⟨_, hr, fun h => (WithTop.coe_ne_top h).elim, fun k hk hd => ?_, fun k hk _ => rfl⟩
              exfalso
              have e' := hw.2.1 hxL hd
              rw [h3] at e'
              exact h0 (WithTop.coe_injective e')) s' (MmQ.session_keep asks s s' hs)
  refine ⟨c, t', h1, ?_⟩
  rw [List.forall₂_map_left_iff] at h2
  refine h2.imp fun x col h => h.imp fun l v h => h x rfl

/-- A network with a bus link 7 from stop 1 to stop 2: the histories of arrivals and departures at the first stop and of
arrivals at the next stop, one unit per `σ`-th part of a bus. -/
def busNet (σ : ℚ) (arr dep next : List (ℕ × ℕ)) : Res MmQ.State := do
  let cin ← Res.foldlM addIncrement install (flows σ arr)
  let cout ← Res.foldlM addIncrement install (flows σ dep)
  let cnext ← Res.foldlM addIncrement install (flows σ next)
  return ⟨fun i => if i = 1 then ⟨cin, cout, -1⟩ else ⟨cnext, install, -1⟩, fun _ => ⟨1, 2, -1, -1, []⟩,
    fun _ => ⟨install, install, -1, 0⟩, fun _ => ⟨install, install, -1, 0⟩⟩

/-- The environment of the examples: 20 intervals of 5 seconds, buses are driven explicitly, bus link 7 is registered. -/
def busEnv : MmQ.Env := ⟨20, 5, true, fun _ => 0, [7], []⟩

/-- **C153** refuted in full, for the last bus: buses arrive at a stop in intervals 2 and 5 and leave in intervals 3 and 9; they
get to the next stop in intervals 4 and 12.  Who comes in interval 6 finds the second bus at the stop, but the
answer (for start 5) is "no bus". -/
theorem C153_last_bus_standing :
    upTo [(3, 1), (9, 1)] 6 < upTo [(2, 1), (5, 1)] 6 ∧ upTo [(2, 1), (5, 1)] 6 ≤ upTo [(4, 1), (12, 1)] 12 ∧
    ((busNet 1 [(2, 1), (5, 1)] [(3, 1), (9, 1)] [(4, 1), (12, 1)]).bind fun s =>
      (MmQ.answer busEnv (.bus true false [5]) s).bind fun r => .ok r.1) = .ok [[some ⊤]] := by
  decide +kernel

/-- **C153** refuted in full, for buses in a bunch: two buses arrive at a stop in interval 2, one of them leaves in interval 4 and is
at the next stop in interval 6.  Who comes in interval 1 gets the answer "no bus". -/
theorem C153_bunched_buses :
    ((busNet 1 [(2, 2)] [(4, 1)] [(6, 1)]).bind fun s =>
      (MmQ.answer busEnv (.bus true false [0]) s).bind fun r => .ok r.1) = .ok [[some ⊤]] := by
  decide +kernel

/-- **C153** refuted for buses in parts (flow scalar 2, every bus is simulated as two units): the first bus arrives in interval 2
and leaves in interval 6, and is at the next stop in interval 8; the second one arrives in parts in intervals 4 and 9.
Who comes in interval 3 is at the next stop in interval 8; who comes in interval 4 or 5, with the first bus still at the
stop, has to wait for the second one, because a part of it has arrived. -/
theorem C153_buses_in_parts :
    upTo [(6, 2), (11, 2)] 5 = 0 ∧ upTo [(2, 2), (4, 1), (9, 1), (12, 2)] 3 = 2 ∧
    ((busNet 2 [(2, 2), (4, 1), (9, 1), (12, 2)] [(6, 2), (11, 2), (13, 2)] [(8, 2), (14, 2), (16, 2)]).bind fun s =>
      (MmQ.answer busEnv (.bus true false [2, 3, 4]) s).bind fun r => .ok r.1) =
      .ok [[some ((25 : ℚ) : WithTop ℚ)], [some ((50 : ℚ) : WithTop ℚ)], [some ((45 : ℚ) : WithTop ℚ)]] := by
  decide +kernel

/-- **C154** refuted for buses in parts (flow scalar 4): the first bus and a quarter of the second one arrive in interval 2 and
leave in interval 3; another quarter arrives in interval 5 and is at the next stop in interval 7, the rest of the
second bus in intervals 9 and 12.  Who comes in interval 4 waits for the whole second bus and is at the next stop in
interval 12; who comes in interval 5 is there in interval 7. -/
theorem C154_buses_in_parts :
    ((busNet 4 [(2, 5), (5, 1), (9, 2), (14, 4)] [(3, 5), (6, 1), (10, 2), (15, 4)] [(4, 5), (7, 1), (12, 2), (17, 4)]).bind
      fun s => (MmQ.answer busEnv (.bus true false [3, 4]) s).bind fun r => .ok r.1) =
      .ok [[some ((40 : ℚ) : WithTop ℚ)], [some ((10 : ℚ) : WithTop ℚ)]] := by
  decide +kernel

/-- **C154** Nobody who comes later is faster (whole buses): after any calls, if the answer for start `y` and a bus link is
finite, so is the answer for every earlier start `x`, and who starts at `x` is not later at the next stop. -/
theorem C154_no_overtaking_partial {e : MmQ.Env} (he : e.explicitBus = true) (hu : 0 ≤ e.unit)
    {arr dep next : ℤ → List (ℕ × ℕ)}
    {s s' : MmQ.State} (hl : ∀ l ∈ e.regBus, BusLoaded e.T (arr l) (dep l) (next l) s l)
    {asks : List MmQ.Ask} (hs : MmQ.session e asks s = .ok s') {x y : ℕ} (hxy : x ≤ y) (hy : y < e.T) :
    ∃ cx cy s'', MmQ.answer e (.bus true false [(x : ℚ), (y : ℚ)]) s' = .ok ([cx, cy], s'') ∧
      List.Forall₂ (fun a b => ∀ v : ℚ, b = some (v : WithTop ℚ) →
        ∃ u : ℚ, a = some (u : WithTop ℚ) ∧ x * e.unit + u ≤ y * e.unit + v) cx cy := by
  obtain ⟨cols, s'', h1, h2⟩ := C153_bus_link_tt_partial he hl hs true (starts := [x, y])
    (by intro z hz; simp only [List.mem_cons, List.not_mem_nil, or_false] at hz; omega)
  rcases h2 with _ | ⟨hcx, _ | ⟨hcy, _ | _⟩⟩
  rename_i cx cy
  refine ⟨cx, cy, s'', h1, ?_⟩
  have hle : ∀ l ∈ e.regBus, ∀ t, upTo (dep l) t ≤ upTo (arr l) t := fun l h => (hl l h).here.le
  revert hcx hcy hle
  generalize e.regBus = ls
  intro hcx hcy hle
  clear h1
  induction hcx generalizing cy with
  | nil => cases hcy; exact .nil
  | @cons l a ls cx ha _ ih =>
    rcases hcy with _ | ⟨hb, hcy⟩
    rename_i b cy
    refine .cons ?_ (ih hcy fun l' hl' => hle l' (List.mem_cons_of_mem _ hl'))
    obtain ⟨n, hn, rfl⟩ := ha
    obtain ⟨m, hm, rfl⟩ := hb
    intro v hv
    rcases m with _ | m
    · have := Option.some.inj hv
      exact (WithTop.top_ne_coe this).elim
    · obtain ⟨k, hk, hle'⟩ := MmQ.rides_mono (hle l (by simp)) (Nat.succ_le_succ hxy) hn hm (b := m) rfl
      subst hk
      refine ⟨k * e.unit, rfl, ?_⟩
      have hv' : (m : ℚ) * e.unit = v := WithTop.coe_injective (Option.some.inj hv)
      rw [← hv', ← add_mul, ← add_mul]
      refine mul_le_mul_of_nonneg_right ?_ hu
      have : x + k ≤ y + m := by omega
      exact_mod_cast this

/-- **C153** (partial, as above) `get_bus_link_tt_robust`, after any calls, for periods with at most as many intervals as
there are trials: the entry for a bus link and a period is the mean of the travel times for the intervals of the
period. -/
theorem C153_robust_partial {e : MmQ.Env} (he : e.explicitBus = true) {arr dep next : ℤ → List (ℕ × ℕ)}
    {s s' : MmQ.State} (hl : ∀ l ∈ e.regBus, BusLoaded e.T (arr l) (dep l) (next l) s l) (hT : e.T < 10000)
    {asks : List MmQ.Ask} (hs : MmQ.session e asks s = .ok s') (inf : Bool) {trials : ℤ} {periods : List (ℕ × ℕ)}
    (hst : ∀ p ∈ periods, p.1 < p.2 ∧ p.2 ≤ e.T ∧ ((p.2 - p.1 : ℕ) : ℤ) ≤ trials) :
    ∃ cols s'', MmQ.answer e (.robust trials inf false (periods.map fun p => ((p.1 : ℚ), (p.2 : ℚ)))) s' = .ok (cols, s'') ∧
      List.Forall₂ (fun p col => List.Forall₂ (fun l v => ∃ ns : List (WithTop ℕ),
        List.Forall₂ (fun i n => Rides e.T (arr l) (dep l) (next l) (p.1 + 1 + i) n) (List.range (p.2 - p.1)) ns ∧
        v = some (scale e.unit (divN ((ns.map (shown e.T inf)).sum) (p.2 - p.1)))) e.regBus col) periods cols := by
  obtain ⟨c, t', h1, h2⟩ := MmQ.columns_values (T := e.T) (s := s) (check := MmQ.checkPeriod e.T)
    (f := MmQ.robustOne e trials inf false) (V := fun y l v => ∀ p : ℕ × ℕ, y = ((p.1 : ℚ), (p.2 : ℚ)) →
      ∃ ns : List (WithTop ℕ),
        List.Forall₂ (fun i n => Rides e.T (arr l) (dep l) (next l) (p.1 + 1 + i) n) (List.range (p.2 - p.1)) ns ∧
        v = some (scale e.unit (divN ((ns.map (shown e.T inf)).sum) (p.2 - p.1)))) e.regBus
    (periods.map fun p => ((p.1 : ℚ), (p.2 : ℚ))) (MmQ.robustOne_blind e trials inf false)
    (by intro y hy
        obtain ⟨p, hp, rfl⟩ := List.mem_map.1 hy
        obtain ⟨h3, h4, _⟩ := hst p hp
        unfold MmQ.checkPeriod
        dsimp only
        rw [if_neg (by push Not; exact_mod_cast h3), if_neg (by push Not; exact_mod_cast (by omega : p.1 < e.T)),
          if_neg (by push Not; exact_mod_cast h4)])
    (by intro y hy l hlm t ht
        obtain ⟨p, hp, rfl⟩ := List.mem_map.1 hy
        obtain ⟨h3, h4, h5⟩ := hst p hp
        obtain ⟨ns, t', h6, h7⟩ := MmQ.robustSum_rides he (hl l hlm) inf (x := p.1 + 1) (by omega) (p.2 - p.1) 0 0 0 t ht
        refine ⟨some (scale e.unit (divN ((ns.map (shown e.T inf)).sum) (p.2 - p.1))), t', ?_, fun p' hp' => ?_⟩
        · unfold MmQ.robustOne MmQ.busTtRobust
          have hd : ((p.2 : ℚ) + 1) - ((p.1 : ℚ) + 1) = ((p.2 - p.1 : ℕ) : ℚ) := by
            rw [Nat.cast_sub h3.le]; ring
          simp only [hd]
          rw [MmQ.toInt_nat (by omega), Res.bind_ok']
          have hn : (if trials > ((p.2 - p.1 : ℕ) : ℤ) then ((p.2 - p.1 : ℕ) : ℤ) else trials) = ((p.2 - p.1 : ℕ) : ℤ) := by
            split
            · rfl
            · omega
          simp only [Bool.false_eq_true, if_false, hn, Bool.false_and, Bool.false_or]
          rw [if_neg (by omega)]
          have hdelta : ((p.2 - p.1 : ℕ) : ℚ) / (((p.2 - p.1 : ℕ) : ℤ) : ℚ) = 1 := by
            rw [Int.cast_natCast]
            refine div_self ?_
            have : p.2 - p.1 ≠ 0 := by omega
            exact_mod_cast this
          rw [hdelta, show ((p.1 : ℚ) + 1) = ((p.1 + 1 : ℕ) : ℚ) by push_cast; rfl, Int.toNat_natCast,
            List.range_eq_range', h7, Res.bind_ok', Res.bind_ok']
          simp
        · have e1 : p.1 = p'.1 := Nat.cast_injective (R := ℚ) (congrArg Prod.fst hp')
          have e2 : p.2 = p'.2 := Nat.cast_injective (R := ℚ) (congrArg Prod.snd hp')
          rw [← e1, ← e2]
          refine ⟨ns, ?_, rfl⟩
          rw [List.range_eq_range']
          exact h6) s' (MmQ.session_keep asks s s' hs)
  refine ⟨c, t', h1, ?_⟩
  rw [List.forall₂_map_left_iff] at h2
  refine h2.imp fun x col h => h.imp fun l v h => h x rfl

/-- The hypotheses are met, and waiting and riding times add up: three buses, the second one late, the third one after
it. -/
example : ((busNet 1 [(2, 1), (5, 1), (12, 1)] [(3, 1), (9, 1), (13, 1)] [(4, 1), (11, 1), (15, 1)]).bind fun s =>
      (MmQ.session busEnv [.bus false true [7], .walk [3]] s).bind fun s =>
      (MmQ.answer busEnv (.bus true false [0, 1, 2, 5, 9, 12]) s).bind fun r => .ok r.1) =
      .ok [[some ((15 : ℚ) : WithTop ℚ)], [some ((10 : ℚ) : WithTop ℚ)], [some ((40 : ℚ) : WithTop ℚ)],
        [some ((25 : ℚ) : WithTop ℚ)], [some ((25 : ℚ) : WithTop ℚ)], [some ⊤]] := by
  decide +kernel

/-- The mean over three intervals is 30 seconds; for riding times only, the mean over the two intervals in which a bus
stands at the stop. -/
example : ((busNet 1 [(2, 1), (5, 1), (12, 1)] [(3, 1), (9, 1), (13, 1)] [(4, 1), (11, 1), (15, 1)]).bind fun s =>
      (MmQ.answer busEnv (.robust 5 true false [(3, 6)]) s).bind fun r =>
      (MmQ.answer busEnv (.robust 5 true true [(3, 6), (9, 10)]) r.2).bind fun q => .ok (r.1, q.1)) =
      .ok ([[some ((30 : ℚ) : WithTop ℚ)]], [[some ((55 / 2 : ℚ) : WithTop ℚ)], [some ⊤]]) := by
  decide +kernel

example : ∃ s, busNet 1 [(2, 1), (5, 1), (12, 1)] [(3, 1), (9, 1), (13, 1)] [(4, 1), (11, 1), (15, 1)] = .ok s ∧
    BusLoaded 20 [(2, 1), (5, 1), (12, 1)] [(3, 1), (9, 1), (13, 1)] [(4, 1), (11, 1), (15, 1)] s 7 := by
  obtain ⟨cin, h1, _⟩ := run_holds one_pos (T := 20) (by norm_num) (h := [(2, 1), (5, 1), (12, 1)]) (by unfold History; decide)
  obtain ⟨cout, h2, _⟩ := run_holds one_pos (T := 20) (by norm_num) (h := [(3, 1), (9, 1), (13, 1)]) (by unfold History; decide)
  obtain ⟨cnext, h3, _⟩ := run_holds one_pos (T := 20) (by norm_num) (h := [(4, 1), (11, 1), (15, 1)]) (by unfold History; decide)
  have hcmp : ∀ f g : List (ℕ × ℕ), History 20 f → History 20 g → (∀ t ≤ 20, upTo f t ≤ upTo g t) → ∀ t, upTo f t ≤ upTo g t := by
    intro f g hf hg h t
    rcases Nat.le_or_ge t 20 with h' | h'
    · exact h t h'
    · rw [upTo_total hf h', upTo_total hg h', ← upTo_total hf (le_refl 20), ← upTo_total hg (le_refl 20)]
      exact h 20 (le_refl _)
  refine ⟨_, by unfold busNet; rw [h1, h2, h3]; rfl, ?_⟩
  refine ⟨⟨by norm_num, by unfold History; decide, by unfold History; decide,
    hcmp _ _ (by unfold History; decide) (by unfold History; decide) (by decide), by decide, h1, h2, rfl⟩,
    by unfold History; decide, h3, hcmp _ _ (by unfold History; decide) (by unfold History; decide) (by decide), rfl⟩

/-! ## On foot, and buses that are not driven explicitly -/

/-- **C156** `get_passenger_walking_link_tt`, after any calls: the entry for a walking link and a start is the travel time of
the passengers on the link, in seconds (and therefore never less than the free-flow time and the historical bus waiting
time). -/
theorem C156_walking_link_tt {e : MmQ.Env} {σ : ℚ} {ins outs : ℤ → List (ℕ × ℕ)} {s s' : MmQ.State}
    (hl : ∀ l ∈ e.regWalk, Loaded σ e.T (ins l) (outs l) (s.walk l))
    {asks : List MmQ.Ask} (hs : MmQ.session e asks s = .ok s') {starts : List ℕ}
    (hst : ∀ x ∈ starts, x < e.T) :
    ∃ cols s'', MmQ.answer e (.walk (starts.map fun x : ℕ => (x : ℚ))) s' = .ok (cols, s'') ∧
      List.Forall₂ (fun x col => List.Forall₂ (fun l v =>
        ∃ r, LinkTime e.T (ins l) (outs l) (s.walk l).fftt (x + 1) r ∧ (s.walk l).fftt ≤ r ∧
          v = some ((r * e.unit : ℚ) : WithTop ℚ)) e.regWalk col)
        starts cols := by
  obtain ⟨c, t', h1, h2⟩ := MmQ.columns_values (T := e.T) (s := s) (check := MmQ.checkStart e.T)
    (f := MmQ.walkOne e) (V := fun y l v => ∀ x : ℕ, y = x →
      ∃ r, LinkTime e.T (ins l) (outs l) (s.walk l).fftt (x + 1) r ∧ (s.walk l).fftt ≤ r ∧
          v = some ((r * e.unit : ℚ) : WithTop ℚ)) e.regWalk
    (starts.map fun x : ℕ => (x : ℚ)) (MmQ.walkOne_blind e)
    (by intro y hy
        obtain ⟨x, hx, rfl⟩ := List.mem_map.1 hy
        exact MmQ.checkStart_nat (hst x hx))
    (by intro y hy l hlm t ht
        obtain ⟨x, hx, rfl⟩ := List.mem_map.1 hy
        obtain ⟨r, cc, h3, h4, h5⟩ := MQuery.getTravelTime_ccsim (hl l hlm) (ht.walk l) (x + 1)
        refine ⟨some ((r * e.unit : ℚ) : WithTop ℚ), t.setWalk l cc, ?_, fun x' hx' => ?_⟩
        · unfold MmQ.walkOne MmQ.walkTt
          rw [show (x : ℚ) + 1 = ((x + 1 : ℕ) : ℚ) by push_cast; rfl, h3, Res.bind_ok', Res.bind_ok']
        · have : x = x' := by exact_mod_cast hx'
          subst this
          refine ⟨r, h5, ?_, rfl⟩
          obtain ⟨S, _, h6⟩ := h5
          rcases Nat.eq_zero_or_pos (upTo (ins l) (min (x + 1) S)) with h0 | h0
          · exact (h6.1 h0).ge
          · obtain ⟨a, _, h7, h8⟩ := h6.2 h0
            by_cases h9 : upTo (outs l) a = upTo (ins l) (min (x + 1) S)
            · rw [h7 h9]; exact le_max_left _ _
            · obtain ⟨q, _, h10⟩ := h8 h9
              rw [h10]; exact le_max_left _ _) s' (MmQ.session_keep asks s s' hs)
  refine ⟨c, t', h1, ?_⟩
  rw [List.forall₂_map_left_iff] at h2
  refine h2.imp fun x col h => h.imp fun l v h => h x rfl

/-- Least time of a bus on a bus link: the free-flow times of the driving links it follows (for trucks), by their portions. -/
def leastRide (s : MmQ.State) (l : ℤ) : ℚ := ((s.bus l).parts.map fun p => p.portion * (s.drive p.link).fftt).sum

/-- **C156** `get_bus_link_tt` when buses are not driven explicitly, after any calls and for any starts: every entry is finite
and at least the historical waiting time at the stop (unless only riding times are asked for) and the free-flow time of
the driving links. -/
theorem C156_implicit_bus {e : MmQ.Env} (he : e.explicitBus = false) (hu : 0 ≤ e.unit) {s s' s'' : MmQ.State}
    (hp : ∀ l ∈ e.regBus, ∀ p ∈ (s.bus l).parts, 0 ≤ p.portion)
    {asks : List MmQ.Ask} (hs : MmQ.session e asks s = .ok s') {inf bt : Bool} {starts : List ℚ}
    {cols : List (List (Option (WithTop ℚ)))}
    (ha : MmQ.answer e (.bus inf bt starts) s' = .ok (cols, s'')) :
    ∀ col ∈ cols, List.Forall₂ (fun l v => ∃ r : ℚ, v = some (r : WithTop ℚ) ∧
      ((if bt then 0 else e.histWait (s.bus l).src) + leastRide s l) * e.unit ≤ r) e.regBus col := by
  refine MmQ.columns_all (T := e.T) (s := s) (MmQ.busOne_blind e inf bt) (fun x l hl t r ht h => ?_) starts s' _
    (MmQ.session_keep asks s s' hs) ha
  unfold MmQ.busOne at h
  rw [Res.bind_eq_ok'] at h
  obtain ⟨b, h1, h2⟩ := h
  cases h2
  unfold MmQ.busTt at h1
  simp only [he, Bool.false_eq_true, if_false] at h1
  rw [Res.bind_eq_ok'] at h1
  obtain ⟨c, h3, h4⟩ := h1
  cases h4
  refine ⟨(c.1 - (x + 1)) * e.unit, rfl, mul_le_mul_of_nonneg_right ?_ hu⟩
  have h5 := MmQ.along_ge (t.bus l).parts _ t c (by rw [← ht.parts l]; exact hp l hl) h3
  have h6 : leastRide s l = ((t.bus l).parts.map fun p => p.portion * (t.drive p.link).fftt).sum := by
    unfold leastRide
    rw [ht.parts l]
    congr 1
    apply List.map_congr_left
    intro p _
    rw [(ht.drive p.link).fftt]
  rw [h6, ht.src l]
  cases bt
  · simp only [Bool.false_eq_true, if_false] at h5 ⊢
    linarith
  · simp only [if_true] at h5 ⊢
    linarith

/-- A bus link along two driving links of 2 and 3 intervals, half of the second one; a historical waiting time of 4
intervals: both answers are 37.5 seconds, of which 20 are the wait. -/
example : ((MmQ.answer ⟨10, 5, false, fun _ => 4, [7], []⟩ (.bus true false [0, 3])
    ⟨fun _ => ⟨install, install, -1⟩, fun _ => ⟨1, 2, -1, -1, [⟨1, 1⟩, ⟨2, 1 / 2⟩]⟩,
      fun i => ⟨install, install, -1, if i = 1 then 2 else 3⟩, fun _ => ⟨install, install, -1, 0⟩⟩).bind fun r =>
      .ok r.1) = .ok [[some ((75 / 2 : ℚ) : WithTop ℚ)], [some ((75 / 2 : ℚ) : WithTop ℚ)]] := by
  decide +kernel

end Verif

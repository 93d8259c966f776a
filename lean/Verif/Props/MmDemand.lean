import Verif.Lemmas.MmDemand

/-!
# C138-C140: from passenger paths to the demand and the path tables of the loading
-/

namespace Verif
open MmDue

namespace MmDemandEx

def cars : List PPath := [⟨.driving 2 none [1, 2], fun c => if c = 0 then 6 else 2, fun _ => 0, 0⟩,
  ⟨.driving 1 none [1, 3], fun c => if c = 0 then 1 else 0, fun _ => 0, 0⟩,
  ⟨.driving 1 (some 5) [1, 2], fun c => if c = 0 then 2 else 4, fun _ => 0, 0⟩]

/-- The first `n` entries of the demand arrays of driving, transit and park-and-ride. -/
def seen (r : Res LState) (n : ℕ) : List (Option (List ℚ)) :=
  match r with
  | .ok s => modes.map fun m => (s.vec m).map fun f => (List.range n).map f
  | _ => []

end MmDemandEx
open MmDemandEx

/-! ## C138 Demand from passenger paths -/

/-- C138, over how many intervals of the loading the demand of an assignment interval is spread: the largest number
of intervals, at most `n`, such that every one of them gets at least one vehicle, or all `n` if even a single
one would not get one. -/
theorem C138_spread_minutes (n : ℕ) (hn : 0 < n) (σ d : ℚ) :
    1 ≤ minutes n σ d ∧ minutes n σ d ≤ n ∧
    ((1 ≤ d / (minutes n σ d : ℚ) * σ ∧ ∀ j : ℕ, minutes n σ d < j → j ≤ n → d / (j : ℚ) * σ < 1) ∨
     (minutes n σ d = n ∧ ∀ j : ℕ, 1 ≤ j → j ≤ n → d / (j : ℚ) * σ < 1)) := by
  have conv : ∀ x : ℚ, (¬ (1 : ℤ) ≤ ⌊x⌋) → x < 1 := by
    intro x h
    by_contra hx
    exact h (Int.le_floor.2 (by simpa using not_lt.1 hx))
  have conv' : ∀ x : ℚ, ((1 : ℤ) ≤ ⌊x⌋) → 1 ≤ x := by
    intro x h
    have := Int.le_floor.1 h
    simpa using this
  refine ⟨(minutes_range hn σ d).1, (minutes_range hn σ d).2, ?_⟩
  unfold minutes
  rcases minutesFrom_spec n σ d n (le_refl _) with ⟨_, _, h3, h4⟩ | ⟨h1, h2⟩
  · exact Or.inl ⟨conv' _ h3, fun j h1 h2 => conv _ (h4 j h1 h2)⟩
  · exact Or.inr ⟨h1, fun j h3 h4 => conv _ (h2 j h3 h4)⟩

example : minutes 15 2 5 = 10 ∧ minutes 15 2 (1 / 4) = 15 ∧ minutes 15 1 100 = 15 := by decide +kernel

/-- C138: for every mode of a pair the demand of the loading is what the passenger paths carry.  Within assignment
interval `c` the entries add up to the vehicles of the interval (passengers over persons per vehicle), none is
negative, all at the first entry or spread evenly according to the configuration; the entries that belong to no
interval are zero, and nothing is written behind the `mm` entries of the loading. -/
theorem C138_demand_of_paths (mm T : ℕ) (hn : 0 < mm / T) (split : ℤ) (hs : split = 0 ∨ split = 1) (σ : ℚ)
    (ps : List PPath) (hne : ps ≠ []) (v : List ℚ) (hv : mm ≤ v.length) :
    ∃ w, releaseMode mm T split σ (some ps) (some v) = .ok (some w) ∧ w.length = v.length ∧
      (∀ c < T, (block (mm / T) c w).sum = (ps.map fun p => p.flow c / p.route.people).sum ∧
        (split = 0 → block (mm / T) c w =
          (ps.map fun p => p.flow c / p.route.people).sum :: List.replicate (mm / T - 1) 0) ∧
        ((∀ p ∈ ps, 0 ≤ p.flow c) → ∀ x ∈ block (mm / T) c w, 0 ≤ x)) ∧
      (∀ i, T * (mm / T) ≤ i → i < mm → w[i]? = some 0) ∧ ∀ i, mm ≤ i → w[i]? = v[i]? := by
  obtain ⟨w, hw⟩ := fold_blocks_isOk hs (n := mm / T) (σ := σ) (ps := ps) (List.range T) []
  obtain ⟨h1, h2⟩ := fold_blocks hn T w hw
  have hle : T * (mm / T) ≤ mm := Nat.mul_div_le mm T
  have hblock : ∀ c < T, block (mm / T) c (w ++ List.replicate (mm - T * (mm / T)) 0 ++ v.drop mm) =
      block (mm / T) c w := by
    intro c hc
    have h3 : c * (mm / T) + mm / T ≤ w.length := by
      rw [h1]
      calc c * (mm / T) + mm / T = (c + 1) * (mm / T) := by ring
        _ ≤ T * (mm / T) := Nat.mul_le_mul_right _ (by omega)
    unfold block
    rw [List.append_assoc, List.drop_append_of_le_length (by omega),
      List.take_append_of_le_length (by rw [List.length_drop]; omega)]
  refine ⟨w ++ List.replicate (mm - T * (mm / T)) 0 ++ v.drop mm, ?_, ?_, ?_, ?_, ?_⟩
  · unfold releaseMode
    simp only [Option.getD_some]
    rw [if_neg (by omega), if_neg (by simpa using hne), hw]
    rfl
  · simp only [List.length_append, List.length_replicate, List.length_drop, h1]
    omega
  · intro c hc
    rw [hblock c hc]
    refine ⟨(spread_ok hn (h2 c hc)).2, ?_, ?_⟩
    · intro e
      have h4 := h2 c hc
      unfold spread at h4
      rw [if_pos e] at h4
      exact (Res.ok.inj h4).symm
    · intro hp x hx
      refine spread_nonneg ?_ (h2 c hc) x hx
      refine sum_map_nonneg fun p hm => div_nonneg (hp p hm) ?_
      unfold Route.people
      split <;> positivity
  · intro i hi hi'
    rw [List.append_assoc, List.getElem?_append_right (by omega), List.getElem?_append_left (by simp; omega),
      List.getElem?_replicate, if_pos (by omega)]
  · intro i hi
    rw [List.getElem?_append_right (by simp only [List.length_append, List.length_replicate, h1]; omega),
      List.getElem?_drop]
    congr 1
    simp only [List.length_append, List.length_replicate, h1]
    omega

example : releaseMode 5 2 1 1 (some cars) (some [9, 9, 9, 9, 9, 9]) = .ok (some [3, 3, 5 / 2, 5 / 2, 0, 9]) := by decide +kernel

/-- C138, arrays that are allocated on the way: they hold `T * (mm / T)` entries, so all is well if the number of
assignment intervals of the loading is a multiple of that of the equilibrium. -/
theorem C138_new_array_partial (mm T : ℕ) (hd : T ∣ mm) (split : ℤ) (σ : ℚ) (set : Option (List PPath)) :
    set ≠ none → releaseMode mm T split σ set none = releaseMode mm T split σ set (some (List.replicate mm 0)) := by
  intro h
  cases set with
  | none => exact absurd rfl h
  | some ps =>
    unfold releaseMode
    simp only [Option.getD_none, Option.getD_some, Nat.mul_div_cancel' hd]

/-- C138, what is missing: otherwise the array is shorter than what is cleared, and memory behind it is
overwritten, whatever the paths. -/
theorem C138_new_array_overflows (mm T : ℕ) (hd : ¬ T ∣ mm) (split : ℤ) (σ : ℚ) (ps : List PPath) :
    releaseMode mm T split σ (some ps) none = .ub := by
  unfold releaseMode
  simp only [Option.getD_none, List.length_replicate]
  rw [if_pos]
  have := Nat.mul_div_le mm T
  rcases Nat.lt_or_eq_of_le this with h | h
  · exact h
  · exact absurd ⟨mm / T, h.symm⟩ hd

example : (releaseMode 4 2 1 1 (some cars) none).isOk = true ∧ (releaseMode 5 2 1 1 (some cars) none).isOk = false := by
  decide +kernel

/-! ## C139 Demand by the logit model -/

/-- C139, as far as it holds (transit is on, or has no demand array): in the interval, every mode that is on gets its
share of the demand, spread as configured, and its tally grows by it; the demand of every other mode is zero in the
interval; other intervals are untouched. -/
theorem C139_logit_demand_partial (split : ℤ) (hs : split = 0 ∨ split = 1) (n : ℕ) (hn : 0 < n) (σ tot : ℚ) (a : ℕ)
    (on : Mode → Bool) (x : Mode → Option ℚ) (s : LState)
    (ht : (on .transit = true ∧ x .transit ≠ none) ∨ s.vec .transit = none) :
    ∃ s', logitPair split n σ tot a on x s = .ok s' ∧ ∀ m,
      (∀ y, on m = true → x m = some y →
        ∃ f xs, s'.vec m = some f ∧ spread split n σ (y * tot) = .ok xs ∧ slotSum n a f = y * tot ∧
          (∀ i < n, f (a * n + i) = xs.getD i 0) ∧ s'.share m = s.share m + y * tot ∧
          ∀ i, (i < a * n ∨ a * n + n ≤ i) → f i = (s.vec m).getD (fun _ => 0) i) ∧
      ((on m = false ∨ x m = none) → s'.share m = s.share m ∧ (s.vec m = none → s'.vec m = none) ∧
        ∀ f, s.vec m = some f → ∃ g, s'.vec m = some g ∧ (∀ i < n, g (a * n + i) = 0) ∧
          ∀ i, (i < a * n ∨ a * n + n ≤ i) → g i = f i) := by
  obtain ⟨s1, h1⟩ := logitMode_isOk hs (n := n) (σ := σ) (tot := tot) (a := a) (on := on .driving) (x := x .driving)
    (m := .driving) (s := s) (Or.inl (by decide))
  obtain ⟨s2, h2⟩ := logitMode_isOk hs (n := n) (σ := σ) (tot := tot) (a := a) (on := on .pnr) (x := x .pnr)
    (m := .pnr) (s := s1) (Or.inl (by decide))
  have ev : s2.vec .transit = s.vec .transit :=
    ((logitMode_other h2 .transit (by decide)).1).trans (logitMode_other h1 .transit (by decide)).1
  have es : s2.share .transit = s.share .transit :=
    ((logitMode_other h2 .transit (by decide)).2).trans (logitMode_other h1 .transit (by decide)).2
  obtain ⟨s3, h3⟩ := logitMode_isOk hs (n := n) (σ := σ) (tot := tot) (a := a) (on := on .transit) (x := x .transit)
    (m := .transit) (s := s2) (by rcases ht with h | h; exact Or.inr (Or.inr h); exact Or.inr (Or.inl (ev.trans h)))
  have o1 := logitMode_other h1
  have o2 := logitMode_other h2
  have o3 := logitMode_other h3
  refine ⟨s3, by unfold logitPair; rw [h1, Res.bind_ok', h2, Res.bind_ok']; exact h3, ?_⟩
  intro m
  cases m with
  | driving =>
    have e1 : s3.vec .driving = s1.vec .driving := (o3 .driving (by decide)).1.trans (o2 .driving (by decide)).1
    have e2 : s3.share .driving = s1.share .driving := (o3 .driving (by decide)).2.trans (o2 .driving (by decide)).2
    refine ⟨?_, ?_⟩
    · intro y hon hx
      rw [hon, hx] at h1
      obtain ⟨f, xs, b1, b2, b3, b4, b5, b6⟩ := logitMode_on hn h1
      exact ⟨f, xs, e1.trans b1, b2, b3, b5, e2.trans b4, b6⟩
    · intro hoff
      obtain ⟨b1, b2, b3⟩ := logitMode_off hoff (Or.inl (by decide)) h1
      exact ⟨e2.trans b1, fun h => e1.trans (b2 h), fun f hf => by
        obtain ⟨g, c1, c2⟩ := b3 f hf; exact ⟨g, e1.trans c1, c2⟩⟩
  | pnr =>
    have e1 := (o3 .pnr (by decide)).1
    have e2 := (o3 .pnr (by decide)).2
    have d1 := (o1 .pnr (by decide)).1
    have d2 := (o1 .pnr (by decide)).2
    refine ⟨?_, ?_⟩
    · intro y hon hx
      rw [hon, hx] at h2
      obtain ⟨f, xs, b1, b2, b3, b4, b5, b6⟩ := logitMode_on hn h2
      exact ⟨f, xs, e1.trans b1, b2, b3, b5, by rw [e2, b4, d2], fun i hi => by rw [b6 i hi, d1]⟩
    · intro hoff
      obtain ⟨b1, b2, b3⟩ := logitMode_off hoff (Or.inl (by decide)) h2
      exact ⟨by rw [e2, b1, d2], fun h => e1.trans (b2 (d1.trans h)), fun f hf => by
        obtain ⟨g, c1, c2⟩ := b3 f (d1.trans hf); exact ⟨g, e1.trans c1, c2⟩⟩
  | transit =>
    refine ⟨?_, ?_⟩
    · intro y hon hx
      rw [hon, hx] at h3
      obtain ⟨f, xs, b1, b2, b3, b4, b5, b6⟩ := logitMode_on hn h3
      exact ⟨f, xs, b1, b2, b3, b5, by rw [b4, es], fun i hi => by rw [b6 i hi, ev]⟩
    · intro hoff
      have hnone : s2.vec .transit = none := by
        rcases ht with ⟨a1, a2⟩ | h
        · rcases hoff with h | h
          · rw [a1] at h; cases h
          · exact absurd h a2
        · exact ev.trans h
      obtain ⟨b1, b2, b3⟩ := logitMode_off hoff (Or.inr hnone) h3
      exact ⟨by rw [b1, es], fun _ => b2 hnone, fun f hf => by rw [← ev, hnone] at hf; cases hf⟩

example : seen (logitPair 0 2 1 10 1 (fun m => m ≠ .pnr) (fun _ => some (1 / 2))
    ⟨fun m => if m = .pnr then some (fun _ => 7) else none, none, fun _ => 0⟩) 6 =
      [some [0, 0, 5, 0, 0, 0], some [0, 0, 5, 0, 0, 0], some [7, 7, 0, 0, 7, 7]] := by
  decide +kernel

/-- C139, consequence: the entries of the interval over all modes add up to the demand times the shares of the modes
that are on. -/
theorem C139_logit_total_partial (split : ℤ) (hs : split = 0 ∨ split = 1) (n : ℕ) (hn : 0 < n) (σ tot : ℚ) (a : ℕ)
    (on : Mode → Bool) (x : Mode → Option ℚ) (s : LState)
    (ht : (on .transit = true ∧ x .transit ≠ none) ∨ s.vec .transit = none) :
    ∃ s', logitPair split n σ tot a on x s = .ok s' ∧
      (modes.map fun m => slotSum n a ((s'.vec m).getD fun _ => 0)).sum =
        tot * (modes.map fun m => if on m then (x m).getD 0 else 0).sum := by
  obtain ⟨s', h, hm⟩ := C139_logit_demand_partial split hs n hn σ tot a on x s ht
  refine ⟨s', h, ?_⟩
  have key : ∀ m, slotSum n a ((s'.vec m).getD fun _ => 0) = tot * if on m then (x m).getD 0 else 0 := by
    intro m
    have zero : (on m = false ∨ x m = none) → slotSum n a ((s'.vec m).getD fun _ => 0) = 0 := by
      intro hoff
      obtain ⟨_, b1, b2⟩ := (hm m).2 hoff
      cases hv : s.vec m with
      | none => rw [b1 hv]; simp [slotSum]
      | some f =>
        obtain ⟨g, c1, c2, _⟩ := b2 f hv
        rw [c1, Option.getD_some]
        unfold slotSum
        rw [List.map_congr_left (g := fun _ => 0) fun i hi => c2 i (List.mem_range.1 hi)]
        simp
    cases hon : on m with
    | false => rw [zero (Or.inl hon)]; simp
    | true =>
      cases hx : x m with
      | none => rw [zero (Or.inr hx)]; simp
      | some y =>
        obtain ⟨f, xs, b1, _, b3, _⟩ := (hm m).1 y hon hx
        rw [b1, Option.getD_some, b3]
        simp only [if_true, Option.getD_some]
        ring
  simp only [modes, List.map_cons, List.map_nil, List.sum_cons, List.sum_nil, key]
  ring

/-- C139, what is missing: if transit is off for the pair but has a demand array, the entries of transit are not
cleared but set to the last demand computed.  Ten passengers who all drive turn into ten drivers and twenty
passengers of transit; and if no mode is on, a variable that was never set is read. -/
theorem C139_transit_off_makes_demand :
    seen (logitPair 0 2 1 10 0 (fun m => m = .driving) (fun m => if m = .driving then some 1 else none)
      ⟨fun m => if m = .transit then some (fun _ => 0) else none, none, fun _ => 0⟩) 4 =
        [some [10, 0, 0, 0], some [10, 10, 0, 0], none] ∧
    logitPair 0 2 1 10 0 (fun _ => false) (fun _ => none)
      ⟨fun m => if m = .transit then some (fun _ => 0) else none, none, fun _ => 0⟩ = .ub := by
  refine ⟨by decide +kernel, rfl⟩

/-! ## C140 Path tables -/

/-- C140, transit: the table made from the passenger paths of a pair has every sequence of links once, exactly those
of the paths, and its flow in each interval is the sum of the passengers of the paths with these links. -/
theorem C140_transit_table (T : ℕ) (ps : List PPath) :
    ((transitTable T ps).map VPath.key).Nodup ∧
    (∀ k, k ∈ (transitTable T ps).map VPath.key ↔ ∃ p ∈ ps, p.route.busLinks = k) ∧
    ∀ k i, i < T → flowOf (transitTable T ps) k i =
      ((ps.filter fun p => decide (p.route.busLinks = k)).map fun p => p.flow i / p.route.people).sum := by
  obtain ⟨h1, h2, h3⟩ := fold_put (fun p : PPath => p.route.busLinks) (carFlow T) ps [] (by simp)
  refine ⟨h1, fun k => by unfold transitTable; rw [h2]; simp, fun k i hi => ?_⟩
  unfold transitTable
  rw [h3 k i]
  simp [flowOf, carFlow, hi]

/-- C140, park-and-ride: the same, where a path is identified by the middle parking lot, the links driven and the links
ridden. -/
theorem C140_park_and_ride_table (T : ℕ) (ps : List PPath) :
    ((pnrTable T ps).map VPath.key).Nodup ∧
    (∀ k, k ∈ (pnrTable T ps).map VPath.key ↔ ∃ p ∈ ps, (p.mid, p.route.carLinks, p.route.busLinks) = k) ∧
    ∀ k i, i < T → flowOf (pnrTable T ps) k i =
      ((ps.filter fun p => decide ((p.mid, p.route.carLinks, p.route.busLinks) = k)).map
        fun p => p.flow i / p.route.people).sum := by
  obtain ⟨h1, h2, h3⟩ := fold_put (fun p : PPath => (p.mid, p.route.carLinks, p.route.busLinks)) (carFlow T) ps []
    (by simp)
  refine ⟨h1, fun k => by unfold pnrTable; rw [h2]; simp, fun k i hi => ?_⟩
  unfold pnrTable
  rw [h3 k i]
  simp [flowOf, carFlow, hi]

/-- C140, driving, as far as it holds (the fixed truck paths carry no cars): every sequence of links occurs once; the
car flow of an interval is the sum of the passengers over persons per car of the paths with these links, and the
truck flow that of the truck paths with these links. -/
theorem C140_driving_table_partial (T : ℕ) (trucks : Option (List (VPath (List ℤ)))) (ps : List PPath)
    (hz : ∀ v ∈ trucks.getD [], ∀ i < T, v.buf i = 0) :
    ((drivingTable T trucks ps).map VPath.key).Nodup ∧
    (∀ k i, i < T → flowOf (drivingTable T trucks ps) k i =
      ((ps.filter fun p => decide (p.route.carLinks = k)).map fun p => p.flow i / p.route.people).sum) ∧
    ∀ k i, T ≤ i → i < 2 * T → flowOf (drivingTable T trucks ps) k i = flowOf (trucks.getD []) k i := by
  obtain ⟨a1, a2, a3⟩ := fold_trucks T (trucks.getD []) [] (by simp)
  obtain ⟨h1, h2, h3⟩ := fold_put (fun p : PPath => p.route.carLinks) (carFlow T) ps (putTrucks T (trucks.getD [])) a1
  refine ⟨h1, fun k i hi => ?_, fun k i hi hi' => ?_⟩
  · unfold drivingTable
    rw [h3 k i]
    unfold putTrucks
    rw [a3 hz k i hi]
    simp [flowOf, carFlow, hi]
  · unfold drivingTable
    rw [h3 k i]
    unfold putTrucks
    rw [a2 k i hi hi']
    have : ((ps.filter fun p => decide (p.route.carLinks = k)).map fun p => carFlow T p i).sum = 0 := by
      rw [List.map_congr_left (g := fun _ => 0) fun p _ => by unfold carFlow; rw [if_neg (by omega)]]
      simp
    rw [this]
    simp [flowOf]

example : (drivingTable 2 (some [⟨[1, 3], fun i => if i < 2 then 0 else 4⟩]) cars).map (fun x => (x.key, (List.range 4).map x.buf)) =
    [([1, 3], [1, 0, 4, 4]), ([1, 2], [5, 5, 0, 0])] := by decide +kernel

/-- C140, what is missing: a truck path whose buffer also holds cars brings them along (three cars per interval appear
although no passenger drives), and the trucks of a pair without driving passengers get no path at all. -/
theorem C140_trucks_bring_cars_and_get_lost :
    flowOf (drivingTable 2 (some [⟨[1, 3], fun _ => 3⟩]) []) [1, 3] 0 = 3 ∧
    ∀ (trucks : ℤ × ℤ → Option (List (VPath (List ℤ)))) (od : ℤ × ℤ),
      drivingTables 2 (fun _ => none) trucks od = none := by
  refine ⟨by decide +kernel, fun _ _ => rfl⟩

end Verif

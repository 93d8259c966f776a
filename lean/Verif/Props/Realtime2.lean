import Verif.Lemmas.RtSign
import Verif.Lemmas.RtTable
import Verif.Lemmas.Ults

/-!
# Message signs, averages, link travel times, ownership and closed links in real-time loadings (C175-C177, C179-C182)
-/

namespace Verif
open Verif.Rt Lnk

/-! ## C175 -/

/-- **C175.**  A sign, once it knows the paths: it has one alternative for each link that leaves the node where its own
link starts, and the list of an alternative holds, once each, exactly the paths of the table that use that link. -/
theorem C175_hooked (ends : ℤ → Option (ℤ × ℤ)) (outOf : ℤ → List ℤ) (link : ℤ) (s : Sign) (tbl : List Od)
    (hn : ∀ v, (outOf v).Nodup) (h : mkSign ends outOf link = .ok s) :
    ∃ e, ends link = some e ∧ (hookPath tbl s).alts.map Prod.fst = outOf e.1 ∧
      ∀ a ∈ (hookPath tbl s).alts, a.2.Nodup ∧ ∀ ij, ij ∈ a.2 ↔ ∃ P, At tbl ij P ∧ a.1 ∈ P.links := by
  unfold mkSign at h
  cases he : ends link with
  | none => rw [he] at h; cases h
  | some e =>
    rw [he] at h
    cases h
    refine ⟨e, rfl, ?_⟩
    have h1 : (outOf e.1).foldl insertNew [] = (outOf e.1).map fun l => (l, []) := by
      have := insertNew_nodup (outOf e.1) [] (by simpa using hn e.1)
      simpa using this
    have h2 := hook_map (outOf e.1) (hn e.1) (places tbl) fun _ => []
    unfold hookPath
    simp only [h1, h2, List.nil_append]
    refine ⟨by rw [List.map_map]; simp [Function.comp_def], fun a ha => ?_⟩
    obtain ⟨l, _, rfl⟩ := List.mem_map.1 ha
    refine ⟨?_, fun ij => ?_⟩
    · exact (List.Sublist.map _ List.filter_sublist).nodup (places_nodup tbl)
    · simp only [List.mem_map, List.mem_filter, decide_eq_true_eq]
      constructor
      · rintro ⟨x, ⟨hx, hl⟩, rfl⟩
        exact ⟨x.2, (mem_places tbl x.1 x.2).1 hx, hl⟩
      · rintro ⟨P, hP, hl⟩
        exact ⟨(ij, P), ⟨(mem_places tbl ij P).2 hP, hl⟩, rfl⟩

/-- **C175.**  Whenever a sign has alternatives and the demand of their paths is known, a detour is found: an
alternative with the largest gain, the first of those.  Nothing else of the sign changes. -/
theorem C175_detour (dem : ℤ → ℤ → Res ℚ) (D : ℤ → ℤ → ℚ) (tbl : List Od) (s : Sign) (hne : s.alts ≠ [])
    (hk : ∀ a ∈ s.alts, Known dem D tbl a.2) (hpos : ∀ a ∈ s.alts, 0 ≤ a.1) :
    ∃ s', makeDetour dem tbl s = .ok s' ∧ s' = { s with detour := s'.detour } ∧
      ∃ pre a post, s.alts = pre ++ a :: post ∧ s'.detour = a.1 ∧ (∀ b ∈ pre, gain D tbl b.2 < gain D tbl a.2) ∧
        ∀ b ∈ post, gain D tbl b.2 ≤ gain D tbl a.2 := by
  obtain ⟨c, ⟨pre, post, h1, h2, h3⟩, h4⟩ := detourLoop_none hne hk
  refine ⟨{ s with detour := c.1 }, ?_, rfl, pre, c, post, h1, rfl, h2, h3⟩
  unfold makeDetour
  rw [h4, Res.bind_ok']
  simp only
  rw [if_neg (not_lt.2 (hpos c (by rw [h1]; simp)))]

/-- **C175.**  Without alternatives the search raises. -/
theorem C175_none (dem : ℤ → ℤ → Res ℚ) (tbl : List Od) (s : Sign) (h : s.alts = []) :
    makeDetour dem tbl s = .throw "invalid state" := by
  unfold makeDetour
  rw [h]
  rfl

/-- **C175.**  The demand read for a path: for an origin and a destination, the demand of the interval, zero if the
origin has none for the destination; every other pair of nodes raises. -/
theorem C175_demand (nodes : ℤ → Option OdNode) (k : ℕ) (o d : ℤ) :
    (∀ dem q, nodes o = some (.origin dem) → nodes d = some .dest →
      (demandByNode nodes k o d = .ok q ↔
        (∀ e ∈ dem, e.1 ≠ d) ∧ q = 0 ∨
          ∃ pre ds post, dem = pre ++ (d, ds) :: post ∧ (∀ e ∈ pre, e.1 ≠ d) ∧ ds[k]? = some q)) ∧
      ((∀ dem, nodes o ≠ some (.origin dem)) ∨ nodes d ≠ some .dest → ∃ m, demandByNode nodes k o d = .throw m) := by
  constructor
  · intro dem q ho hd
    unfold demandByNode
    rw [ho, hd]
    simp only
    cases hf : dem.find? fun e => decide (e.1 = d) with
    | none =>
      rw [List.find?_eq_none] at hf
      simp only [decide_eq_true_eq] at hf
      constructor
      · intro h
        cases h
        exact .inl ⟨hf, rfl⟩
      · rintro (⟨_, rfl⟩ | ⟨pre, ds, post, h1, _⟩)
        · rfl
        · exact absurd rfl (hf (d, ds) (by rw [h1]; simp))
    | some e =>
      rw [List.find?_eq_some_iff_append] at hf
      obtain ⟨he, pre, post, h1, h2⟩ := hf
      simp only [decide_eq_true_eq] at he
      simp only [Bool.not_eq_true', decide_eq_false_iff_not] at h2
      have e1 : e = (d, e.2) := by rw [← he]
      constructor
      · intro h
        refine .inr ⟨pre, e.2, post, by rw [h1, ← e1], h2, ?_⟩
        cases hq : e.2[k]? with
        | none => simp only [hq] at h; cases h
        | some x => simp only [hq] at h; cases h; rfl
      · rintro (⟨h, _⟩ | ⟨pre', ds, post', h1', h2', h3⟩)
        · exact absurd he (h e (by rw [h1]; simp))
        · have : e.2 = ds := by
            have hf1 : dem.find? (fun x => decide (x.1 = d)) = some e := by
              rw [List.find?_eq_some_iff_append]
              exact ⟨by simpa using he, pre, post, h1, by simpa using h2⟩
            have hf2 : dem.find? (fun x => decide (x.1 = d)) = some (d, ds) := by
              rw [List.find?_eq_some_iff_append]
              exact ⟨by simp, pre', post', h1', by simpa using h2'⟩
            rw [hf1] at hf2
            cases hf2
            rfl
          simp only [this, h3]
  · intro h
    unfold demandByNode
    cases ho : nodes o with
    | none => exact ⟨_, rfl⟩
    | some a =>
      cases a with
      | origin dem =>
        cases hd : nodes d with
        | none => exact ⟨_, rfl⟩
        | some b =>
          cases b with
          | origin _ => exact ⟨_, rfl⟩
          | dest =>
            rcases h with h | h
            · exact absurd ho (h dem)
            · exact absurd hd h
          | other => exact ⟨_, rfl⟩
      | dest => exact ⟨_, rfl⟩
      | other => exact ⟨_, rfl⟩

/-- **C175 is false of the link of the sign**: in every graph, a sign proposes its own link as an alternative to it. -/
theorem C175_false_own_link (ends : ℤ → Option (ℤ × ℤ)) (outOf : ℤ → List ℤ) (link : ℤ) (s : Sign) (tbl : List Od)
    (hn : ∀ v, (outOf v).Nodup) (hg : ∀ l e, ends l = some e → l ∈ outOf e.1) (h : mkSign ends outOf link = .ok s) :
    link ∈ (hookPath tbl s).alts.map Prod.fst := by
  obtain ⟨e, h1, h2, _⟩ := C175_hooked ends outOf link s tbl hn h
  rw [h2]
  exact hg link e h1

/-- **C175 is false of what is gained**: if the best portions are the real ones, as they are after every optimisation
(`C178_false_optimisation_never_moves`), the detour is the first alternative, whatever the traffic. -/
theorem C175_false_first_alternative (dem : ℤ → ℤ → Res ℚ) (D : ℤ → ℤ → ℚ) (tbl : List Od) (s : Sign)
    (hk : ∀ a ∈ s.alts, Known dem D tbl a.2) (hpos : ∀ a ∈ s.alts, 0 ≤ a.1)
    (hb : ∀ e ∈ tbl, ∀ P ∈ e.paths, P.best = P.real) (a : ℤ × List (ℕ × ℕ)) (r : List (ℤ × List (ℕ × ℕ)))
    (ha : s.alts = a :: r) : makeDetour dem tbl s = .ok { s with detour := a.1 } := by
  obtain ⟨s', h1, h2, pre, c, post, h3, h4, h5, _⟩ := C175_detour dem D tbl s (by rw [ha]; simp) hk hpos
  have hz : ∀ ijs, gain D tbl ijs = 0 := by
    intro ijs
    unfold gain
    refine List.sum_eq_zero fun q hq => ?_
    obtain ⟨ij, _, rfl⟩ := List.mem_map.1 hq
    cases he : tbl[ij.1]? with
    | none => rfl
    | some e =>
      simp only [Option.bind_some]
      cases hP : e.paths[ij.2]? with
      | none => rfl
      | some P =>
        simp only
        rw [hb e (List.mem_of_getElem? he) P (List.mem_of_getElem? hP)]
        ring
  cases pre with
  | nil =>
    rw [List.nil_append, ha] at h3
    cases h3
    rw [h1, h2, h4]
  | cons b pre =>
    have := h5 b (by simp)
    rw [hz, hz] at this
    exact absurd this (lt_irrefl _)

/-- Two paths over link 3, one over link 1. -/
def signTable : List Od :=
  [⟨1, 2, [⟨[1, 2], [1, 5, 2], 0, 1 / 2, 0, 1 / 4, 0⟩, ⟨[3, 4], [1, 6, 2], 0, 1 / 4, 0, 1 / 2, 0⟩,
    ⟨[3, 5], [1, 7, 2], 0, 1 / 4, 0, 1 / 4, 0⟩]⟩]

/-- Node 1 is an origin with demand for node 2. -/
def signNodes (v : ℤ) : Option OdNode :=
  if v = 1 then some (.origin [(2, [10, 20])]) else if v = 2 then some .dest else some .other

/-- Links 1 and 3 leave node 1. -/
def signOuts (v : ℤ) : List ℤ := if v = 1 then [1, 3] else []

example : ((mkSign (fun _ => some (1, 9)) signOuts 1).bind fun s =>
    (makeDetour (demandByNode signNodes 1) signTable (hookPath signTable s)).bind fun s =>
      .ok (s.alts, s.detour, s.ratio)) = .ok ([(1, [(0, 0)]), (3, [(0, 1), (0, 2)])], 3, 1) ∧
    gain (fun _ _ => 20) signTable [(0, 0)] = -5 ∧ gain (fun _ _ => 20) signTable [(0, 1), (0, 2)] = 5 := by
  decide +kernel

example : Known (demandByNode signNodes 1) (fun _ _ => 20) signTable [(0, 1), (0, 2)] ∧
    ∀ v, (signOuts v).Nodup := by
  refine ⟨?_, fun v => ?_⟩
  · intro ij hij
    simp only [List.mem_cons, List.not_mem_nil, or_false] at hij
    rcases hij with rfl | rfl
    · exact ⟨_, ⟨_, rfl, rfl⟩, by decide, rfl⟩
    · exact ⟨_, ⟨_, rfl, rfl⟩, by decide, rfl⟩
  · unfold signOuts
    split <;> decide

/-! ## C176 -/

/-- **C176.**  What a gradient leaves in the average of a link, for at least as many intervals as sample points: to the
old value it adds the travel times at the ends of the steps of `M / S` intervals, each divided by the number of
points. -/
theorem C176_value (M S : ℕ) (hS : 0 < S) (hM : S ≤ M) (tt : ℕ → ℚ) (avg : ℚ) :
    average M S tt avg =
      .ok (avg + ((List.range (M / (M / S))).map fun j => tt ((j + 1) * (M / S) - 1) / S).sum) := by
  have hq : 0 < M / S := Nat.div_pos hM hS
  unfold average
  have hM' : M = M / (M / S) * (M / S) + M % (M / S) := by
    rw [Nat.mul_comm]
    exact (Nat.div_add_mod M (M / S)).symm
  have h1 := sampleLoop_add (M : ℤ) (S : ℤ) tt (M / (M / S) * (M / S)) (M % (M / S)) 0 avg
  rw [← hM'] at h1
  rw [Int.toNat_natCast, h1, sampleLoop_blocks hS hq, Res.bind_ok', Nat.zero_add]
  refine sampleLoop_skip hS hq tt _ _ _ fun k hk hd => ?_
  rw [Nat.add_assoc] at hd
  have := (Nat.dvd_add_right (Dvd.intro_left _ rfl)).1 hd
  have h2 := Nat.le_of_dvd (by omega) this
  have h3 := Nat.mod_lt M hq
  omega

/-- **C176.**  For a first gradient, and a number of points that divides the number of intervals, the average is the
mean of the travel times at the points.  (Missing: later gradients and other numbers, see the `C176_false_*`
theorems.) -/
theorem C176_mean_partial (S q : ℕ) (hS : 0 < S) (hq : 0 < q) (tt : ℕ → ℚ) :
    average ((S * q : ℕ) : ℤ) S tt 0 = .ok (((List.range S).map fun j => tt ((j + 1) * q - 1)).sum / S) := by
  have h1 : S * q / S = q := Nat.mul_div_cancel_left q hS
  have h2 : S * q / q = S := Nat.mul_div_cancel S hq
  rw [C176_value (S * q) S hS (Nat.le_mul_of_pos_right S hq), h1, h2, zero_add]
  congr 1
  induction (List.range S) with
  | nil => simp
  | cons a l ih => rw [List.map_cons, List.sum_cons, ih, List.map_cons, List.sum_cons, add_div]

example : average 6 3 (fun k => k) 0 = .ok 3 ∧ average 6 3 (fun k => k * k) 0 = .ok (35 / 3) := by decide +kernel

/-- **C176 is false of later gradients**: the averages are never set to zero, so the second gradient leaves the sum of
the two means. -/
theorem C176_false_never_reset (S q : ℕ) (hS : 0 < S) (hq : 0 < q) (tt tt' : ℕ → ℚ) (m m' : ℚ)
    (h : average ((S * q : ℕ) : ℤ) S tt 0 = .ok m) (h' : average ((S * q : ℕ) : ℤ) S tt' 0 = .ok m') :
    ((average ((S * q : ℕ) : ℤ) S tt 0).bind fun a => average ((S * q : ℕ) : ℤ) S tt' a) = .ok (m + m') := by
  have hle : S ≤ S * q := Nat.le_mul_of_pos_right S hq
  rw [C176_value _ S hS hle] at h h' ⊢
  rw [Res.bind_ok', C176_value _ S hS hle]
  cases h
  cases h'
  congr 1
  ring

/-- **C176 is false of other numbers of points**: with five intervals and three points a travel time of one is averaged
to five thirds. -/
theorem C176_false_number : average 5 3 (fun _ => 1) 0 = .ok (5 / 3) := by decide +kernel

/-- **C176 is false of many points**: with more points than intervals, or none, the program divides by zero. -/
theorem C176_false_many_points (M S : ℕ) (h1 : 0 < M) (h : M < S ∨ S = 0) (tt : ℕ → ℚ) (avg : ℚ) :
    average M S tt avg = .ub := by
  obtain ⟨n, rfl⟩ : ∃ n, M = n + 1 := ⟨M - 1, by omega⟩
  unfold average
  rw [Int.toNat_natCast, sampleLoop.eq_2, if_pos]
  rcases h with h | h
  · right
    rw [step_cast, Nat.div_eq_of_lt h]
    rfl
  · left
    rw [h]
    rfl

example : (0 < 4 ∧ (4 < 5 ∨ 5 = 0)) ∧ average 4 5 (fun _ => 1) 0 = .ub := by decide +kernel

/-! ## C177 -/

/-- **C177.**  After any run in which no vehicle is met as finished: if no vehicle is met twice in a row at the entrance
of the same link, the travel time of each link is its time at the start, halved with each measured time in turn;
otherwise the run raises. -/
theorem C177_measured (unit : ℚ) (tt0 : ℤ → ℚ) (h : List (ℤ × List Seen)) (hd : ∀ e ∈ met h, e.2.done = false) :
    (Moves [] (met h) → ∃ m, LinkTt.run ⟨unit, tt0, fun _ => none⟩ h = .ok m ∧
      ∀ l, m.tt l = (measured unit l [] (met h)).foldl (fun x d => (x + d) / 2) (tt0 l)) ∧
    (¬ Moves [] (met h) → LinkTt.run ⟨unit, tt0, fun _ => none⟩ h = .throw "invalid state") := by
  have hs : smooth = fun x d => (x + d) / 2 := by
    funext x d
    unfold smooth
    ring
  have := run_ok (met h) [] ⟨unit, tt0, fun _ => none⟩ (fun v => rfl) hd
  rw [← run_eq, hs] at this
  exact this

/-- **C177.**  So the travel time of a link stays within every range that holds the first travel time and all measured
times. -/
theorem C177_range (unit : ℚ) (tt0 : ℤ → ℚ) (h : List (ℤ × List Seen)) (m : LinkTt) (l : ℤ) (a b : ℚ)
    (hd : ∀ e ∈ met h, e.2.done = false) (hr : LinkTt.run ⟨unit, tt0, fun _ => none⟩ h = .ok m)
    (h0 : a ≤ tt0 l ∧ tt0 l ≤ b) (hm : ∀ d ∈ measured unit l [] (met h), a ≤ d ∧ d ≤ b) :
    a ≤ m.tt l ∧ m.tt l ≤ b := by
  obtain ⟨p, q⟩ := C177_measured unit tt0 h hd
  by_cases hM : Moves [] (met h)
  · obtain ⟨m', h1, h2⟩ := p hM
    rw [h1] at hr
    cases hr
    rw [h2]
    have key : ∀ (ds : List ℚ) (x : ℚ), (∀ d ∈ ds, a ≤ d ∧ d ≤ b) → a ≤ x ∧ x ≤ b →
        a ≤ ds.foldl (fun x d => (x + d) / 2) x ∧ ds.foldl (fun x d => (x + d) / 2) x ≤ b := by
      intro ds
      induction ds with
      | nil => exact fun x _ h => h
      | cons d ds ih =>
        intro x hd hx
        have := hd d (by simp)
        refine ih _ (fun y hy => hd y (by simp [hy])) ⟨?_, ?_⟩
        · have := this.1
          have := hx.1
          linarith
        · have := this.2
          have := hx.2
          linarith
    exact key _ _ hm h0
  · rw [q hM] at hr
    cases hr

/-- Vehicle 7 enters link 1 at interval 2, link 3 at interval 6; vehicle 8 enters link 1 at 3 and link 2 at 5. -/
def trackRun : List (ℤ × List Seen) :=
  [(2, [⟨7, 1, false⟩]), (3, [⟨8, 1, false⟩]), (4, []), (5, [⟨8, 2, false⟩]), (6, [⟨7, 3, false⟩])]

example : (∀ e ∈ met trackRun, e.2.done = false) ∧ measured 5 1 [] (met trackRun) = [10, 20] ∧
    ((LinkTt.run ⟨5, fun _ => 6, fun _ => none⟩ trackRun).bind fun m => .ok (m.tt 1, m.tt 2)) = .ok (14, 6) := by
  decide +kernel

/-- **C177 is false of entrances that are too small**: a point queue that takes in one vehicle an interval and is met by
two keeps the second at its entrance, and the next interval raises. -/
theorem C177_false_waiting_vehicle :
    let l : Pq ℕ := ⟨1, 100, 20, 1, 1 / 5, 1, 5, 2, [], 0, [7, 8], []⟩
    (l.clear.bind fun l' => .ok l'.incoming) = .ok [8] ∧
      ((LinkTt.run ⟨5, fun _ => 6, fun _ => none⟩
        [(0, l.incoming.map fun v => ⟨v, 1, false⟩), (1, [8].map fun v => ⟨v, 1, false⟩)]).bind fun _ => .ok 0)
        = .throw "invalid state" := by
  decide +kernel

/-! ## C179 -/

theorem mem_estimate_zero (m : Mem) : Mem.estimate 0 m = .ok m := rfl

theorem mem_estimate_pos (n : ℕ) (m : Mem) (h : m.alive = true) : 0 < n → m.before = false →
    Mem.estimate n m = if n = 1 then .ok { m with before := true } else .ub := by
  intro hn hb
  match n, hn with
  | 1, _ =>
    cases m
    simp only at h hb
    subst h
    subst hb
    rfl
  | n + 2, _ =>
    cases m
    simp only at h hb
    subst h
    subst hb
    cases n <;> rfl

theorem mem_optimize_pos (n : ℕ) (b : Bool) : 0 < n →
    Mem.optimize n ⟨true, b, false⟩ = if n = 1 then .ok ⟨true, b, true⟩ else .ub := by
  intro hn
  match n, hn with
  | 1, _ => rfl
  | n + 2, _ => cases n <;> rfl

/-- **C179.**  The first iteration after the start: with no round of estimation and at most one round of optimisation
it reaches its end with the path table alive.  (Missing: every other number of rounds, and every second iteration, see
`C179_false_rounds` and `C179_false_second`.) -/
theorem C179_first_partial (opt : ℕ) (h : opt ≤ 1) :
    ∃ m, Mem.iteration 0 opt Mem.start = .ok m ∧ m.alive = true := by
  obtain rfl | rfl : opt = 0 ∨ opt = 1 := by omega
  · exact ⟨_, rfl, rfl⟩
  · exact ⟨_, rfl, rfl⟩

/-- **C179 is false of the code**: with a round of estimation, or two rounds of optimisation, the first iteration uses
the path table after it has been deleted with a copy of the network. -/
theorem C179_false_rounds (est opt : ℕ) (h : 0 < est ∨ 1 < opt) : Mem.iteration est opt Mem.start = .ub := by
  unfold Mem.iteration
  by_cases h0 : est = 0
  · subst h0
    rw [mem_estimate_zero, Res.bind_ok']
    change (Mem.optimize opt ⟨true, false, false⟩).bind _ = _
    rw [mem_optimize_pos opt false (by omega), if_neg (by omega)]
    rfl
  · rw [mem_estimate_pos est Mem.start rfl (by omega) rfl]
    by_cases h1 : est = 1
    · rw [if_pos h1]
      change (Mem.optimize opt ⟨true, true, false⟩).bind _ = _
      by_cases h2 : opt = 0
      · subst h2
        rfl
      · rw [mem_optimize_pos opt true (by omega)]
        by_cases h3 : opt = 1
        · rw [if_pos h3]
          rfl
        · rw [if_neg h3]
          rfl
    · rw [if_neg h1]
      rfl

/-- **C179 is false of the code**: two iterations always use a deleted path table. -/
theorem C179_false_second (est opt n : ℕ) : Mem.iterations est opt (n + 2) Mem.start = .ub := by
  unfold Mem.iterations
  by_cases h : 0 < est ∨ 1 < opt
  · rw [C179_false_rounds est opt h]
    rfl
  · have h1 : est = 0 := by omega
    have h2 : opt = 0 ∨ opt = 1 := by omega
    subst h1
    rcases h2 with rfl | rfl <;> rfl

example : (0 ≤ 1 ∧ Mem.iteration 0 1 Mem.start = .ok ⟨true, true, true⟩) ∧ Mem.iteration 1 1 Mem.start = .ub := by
  decide +kernel

/-! ## C180 -/

theorem releases_list (freq total : ℕ) (hf : 0 < freq) (ht : 0 < total) (k : ℕ) : ∀ (n cur s a : ℕ),
    a % total = (k + s) % total →
    releases freq total n cur a =
      .ok ((((List.range' cur n).filter fun t => decide (freq ∣ t + 1)).zipIdx s).map fun e =>
        ((e.1 : ℤ), (((k + e.2) % total : ℕ) : ℤ))) := by
  intro n
  induction n with
  | zero => exact fun _ _ _ _ => rfl
  | succ n ih =>
    intro cur s a ha
    have hc : ((cur : ℤ) + 1).tmod (freq : ℤ) = (((cur + 1) % freq : ℕ) : ℤ) := by
      rw [show ((cur : ℤ) + 1) = ((cur + 1 : ℕ) : ℤ) by push_cast; rfl, Int.ofNat_tmod]
    rw [releases, if_neg (by omega), hc, List.range'_succ]
    by_cases hd : freq ∣ cur + 1
    · have hm : (((cur + 1) % freq : ℕ) : ℤ) = 0 := by exact_mod_cast Nat.mod_eq_zero_of_dvd hd
      have hn : ((a : ℤ).tmod (total : ℤ) + 1) = ((a % total + 1 : ℕ) : ℤ) := by
        rw [← Int.ofNat_tmod]; push_cast; rfl
      rw [if_pos hm, if_neg (by omega), hn, show ((cur : ℤ) + 1) = ((cur + 1 : ℕ) : ℤ) by push_cast; rfl,
        ih (cur + 1) (s + 1) (a % total + 1) (by rw [ha, Nat.mod_add_mod, Nat.add_assoc]), Res.bind_ok',
        List.filter_cons, if_pos (by simpa using hd), List.zipIdx_cons, List.map_cons, ← Int.ofNat_tmod, ha]
    · have hm : (((cur + 1) % freq : ℕ) : ℤ) ≠ 0 := by
        intro h
        exact hd (Nat.dvd_of_mod_eq_zero (by exact_mod_cast h))
      rw [if_neg hm, show ((cur : ℤ) + 1) = ((cur + 1 : ℕ) : ℤ) by push_cast; rfl, ih (cur + 1) s a ha,
        List.filter_cons, if_neg (by simpa using hd)]

/-- **C180.**  The demand the prediction of iteration `k` loads, with at least one demand interval and a release
frequency of at least one: it releases at the last loading interval of each assignment interval within the prediction,
and the demand intervals are those that follow `k`, going round. -/
theorem C180_releases (freq total : ℕ) (hf : 0 < freq) (ht : 0 < total) (k n : ℕ) :
    ((nextInterval total k).bind fun a => releases freq total n 0 a) =
      .ok (((List.range n).filter fun t => decide (freq ∣ t + 1)).zipIdx.map fun e =>
        ((e.1 : ℤ), (((k + 1 + e.2) % total : ℕ) : ℤ))) := by
  have h1 : nextInterval total k = .ok (((k + 1) % total : ℕ) : ℤ) := by
    unfold nextInterval
    rw [if_neg (by omega), ← Int.ofNat_tmod,
      show (((k % total : ℕ) : ℤ) + 1) = ((k % total + 1 : ℕ) : ℤ) by push_cast; rfl, ← Int.ofNat_tmod,
      Nat.mod_add_mod]
  rw [h1, Res.bind_ok', List.range_eq_range']
  exact releases_list freq total hf ht (k + 1) n 0 0 _ (by rw [Nat.mod_mod, Nat.add_zero])

/-- **C180.**  Without demand intervals, or with a frequency of zero, the program divides by zero. -/
theorem C180_undefined (freq total : ℤ) (k : ℤ) (n : ℕ) (h : total = 0 ∨ freq = 0 ∧ 0 < n) :
    ((nextInterval total k).bind fun a => releases freq total n 0 a) = .ub := by
  by_cases h0 : total = 0
  · subst h0
    rfl
  · rcases h with h | ⟨rfl, hn⟩
    · exact absurd h h0
    · obtain ⟨n, rfl⟩ : ∃ x, n = x + 1 := ⟨n - 1, by omega⟩
      unfold nextInterval
      rw [if_neg h0]
      rfl

example : (nextInterval 4 2).bind (fun a => releases 3 4 10 0 a) = .ok [(2, 3), (5, 0), (8, 1)] := by decide +kernel

/-! ## C181 -/

theorem message_says (roads : ℤ → Option Road) (s : ℤ × Sign) (r : Road) (hr : roads s.2.detour = some r)
    (hl : 0 ≤ r.length) (ht : r.tt < 60 * 2147483648) : ∃ m, message roads s.2 = .ok m ∧ Says roads s (s.1, m) := by
  unfold message
  rw [hr]
  simp only
  have h3 : (60 * 1600 / 3600 : ℚ) = 80 / 3 := by norm_num
  rw [h3]
  by_cases h1 : r.ffs < 80 / 3
  · rw [if_pos h1]
    exact ⟨_, rfl, rfl, r, hr, fun _ => rfl, fun h => absurd h1 (not_lt.2 h), fun h => absurd h1 (not_lt.2 h)⟩
  · have hpos : 0 < r.ffs := lt_of_lt_of_le (by norm_num) (not_lt.1 h1)
    rw [if_neg h1, if_neg hpos.ne']
    by_cases h2 : r.tt > r.length / r.ffs
    · have h0 : 0 ≤ r.tt := (div_nonneg hl hpos.le).trans h2.le
      rw [if_pos h2, Ults.toInt_ok_of (by positivity) (by rw [div_lt_iff₀ (by norm_num)]; linarith), Res.bind_ok']
      refine ⟨_, rfl, rfl, r, hr, fun h => absurd h h1, fun _ h => absurd h2 (not_lt.2 h), fun _ _ => ?_⟩
      refine ⟨_, rfl, ?_, ?_⟩
      · have := Int.floor_le (r.tt / 60)
        rw [le_div_iff₀ (by norm_num)] at this
        linarith
      · have := Int.lt_floor_add_one (r.tt / 60)
        rw [div_lt_iff₀ (by norm_num)] at this
        linarith
    · rw [if_neg h2]
      exact ⟨_, rfl, rfl, r, hr, fun h => absurd h h1, fun _ _ => rfl, fun _ h => absurd h h2⟩

/-- **C181.**  The file of texts has one line for each sign, in order, with the text its detour asks for. -/
theorem C181_messages (roads : ℤ → Option Road) (signs : List (ℤ × Sign))
    (h : ∀ s ∈ signs, ∃ r, roads s.2.detour = some r ∧ 0 ≤ r.length ∧ r.tt < 60 * 2147483648) :
    ∃ ms, messages roads signs = .ok ms ∧ List.Forall₂ (Says roads) signs ms := by
  induction signs with
  | nil => exact ⟨[], rfl, .nil⟩
  | cons s signs ih =>
    obtain ⟨ms, h1, h2⟩ := ih fun x hx => h x (by simp [hx])
    obtain ⟨r, hr, hl, ht⟩ := h s (by simp)
    obtain ⟨m, h3, h4⟩ := message_says roads s r hr hl ht
    refine ⟨(s.1, m) :: ms, ?_, .cons h4 h2⟩
    unfold messages
    rw [h3, Res.bind_ok', h1, Res.bind_ok']

/-- **C181.**  If some sign has a detour that is not a link, as before the first search (`-1`), no texts are written. -/
theorem C181_no_detour (roads : ℤ → Option Road) (signs : List (ℤ × Sign)) (s : ℤ × Sign) (hs : s ∈ signs)
    (hr : roads s.2.detour = none) (ms : List (ℤ × Msg)) : messages roads signs ≠ .ok ms := by
  induction signs generalizing ms with
  | nil => cases hs
  | cons a signs ih =>
    intro h
    unfold messages at h
    obtain ⟨m, h1, h⟩ := Res.bind_eq_ok'.1 h
    obtain ⟨q, h2, h⟩ := Res.bind_eq_ok'.1 h
    rcases List.mem_cons.1 hs with rfl | hs
    · unfold message at h1
      rw [hr] at h1
      cases h1
    · exact ih hs q h2

/-- A slow road, a fast road with a queue, a fast road without. -/
def signRoads (l : ℤ) : Option Road :=
  if l = 1 then some ⟨1000, 20, 100⟩ else if l = 2 then some ⟨3000, 30, 330⟩ else if l = 3 then some ⟨3000, 30, 100⟩
  else none

example : messages signRoads [(4, ⟨9, [], [], 1, 1⟩), (5, ⟨9, [], [], 2, 1⟩), (6, ⟨9, [], [], 3, 1⟩)] =
    .ok [(4, .exit 1), (5, .minutes 5), (6, .care)] ∧ (messages signRoads [(4, ⟨9, [], [], -1, 1⟩)]).isOk = false ∧
    (signRoads 2).isSome = true := by decide +kernel

/-! ## C182 -/

theorem filter_ne_length {l : ℤ} : ∀ {xs : List ℤ}, xs.Nodup → l ∈ xs →
    (xs.filter (· ≠ l)).length + 1 = xs.length := by
  intro xs
  induction xs with
  | nil => intro _ h; cases h
  | cons x xs ih =>
    intro hn h
    obtain ⟨h1, h2⟩ := List.nodup_cons.1 hn
    rcases List.mem_cons.1 h with rfl | h
    · have : xs.filter (· ≠ l) = xs := List.filter_eq_self.2 fun y hy => by
        simp only [ne_eq, decide_not, Bool.not_eq_true', decide_eq_false_iff_not]
        rintro rfl
        exact h1 hy
      rw [List.filter_cons, if_neg (by simp), this, List.length_cons]
    · have hx : x ≠ l := by rintro rfl; exact h1 h
      rw [List.filter_cons, if_pos (by simpa using hx), List.length_cons, List.length_cons, ih h2 h]

theorem eraseRemove_nodup {l : ℤ} {xs : List ℤ} (hn : xs.Nodup) (h : l ∈ xs) :
    eraseRemove l xs = .ok (xs.filter (· ≠ l)) := by
  have := filter_ne_length hn h
  unfold eraseRemove
  simp only
  rw [if_neg (by omega), List.drop_of_length_le (by omega), List.append_nil]

/-- A removal without the array of the node. -/
theorem filter_other {l : ℤ} {xs : List ℤ} (h : l ∉ xs) : xs.filter (· ≠ l) = xs :=
  List.filter_eq_self.2 fun y hy => by
    simp only [ne_eq, decide_not, Bool.not_eq_true', decide_eq_false_iff_not]
    rintro rfl
    exact h hy

theorem close_ok (n : Net) (l : ℤ) (h : Hooked n) (hl : l ∈ n.links) :
    ∃ n', close n l = .ok n' ∧ Hooked n' ∧ n'.ends = n.ends ∧ n'.links = n.links.filter (· ≠ l) ∧
      n'.closed = n.closed ++ [l] ∧ (∀ v, n'.outs v = (n.outs v).filter (· ≠ l)) ∧
      ∀ v, n'.ins v = (n.ins v).filter (· ≠ l) := by
  obtain ⟨h1, h2, h3, h4⟩ := h
  obtain ⟨e, he, ho, hi⟩ := h1 l hl
  have eo : ∀ v, upd n.outs e.1 ((n.outs e.1).filter (· ≠ l)) v = (n.outs v).filter (· ≠ l) := by
    intro v
    by_cases hv : v = e.1
    · subst hv
      rw [upd_same]
    · rw [upd_other _ _ _ _ hv, filter_other]
      intro hm
      obtain ⟨b, hb⟩ := h3 v l hm
      rw [he] at hb
      cases hb
      exact hv rfl
  have ei : ∀ v, upd n.ins e.2 ((n.ins e.2).filter (· ≠ l)) v = (n.ins v).filter (· ≠ l) := by
    intro v
    by_cases hv : v = e.2
    · subst hv
      rw [upd_same]
    · rw [upd_other _ _ _ _ hv, filter_other]
      intro hm
      obtain ⟨b, hb⟩ := h4 v l hm
      rw [he] at hb
      cases hb
      exact hv rfl
  refine ⟨{ n with
    outs := upd n.outs e.1 ((n.outs e.1).filter (· ≠ l))
    ins := upd n.ins e.2 ((n.ins e.2).filter (· ≠ l))
    links := n.links.filter (· ≠ l)
    closed := n.closed ++ [l] }, ?_, ⟨?_, ?_, ?_, ?_⟩, rfl, rfl, rfl, eo, ei⟩
  · unfold close
    rw [if_neg (by simpa using hl), he]
    simp only
    rw [eraseRemove_nodup (h2 e.1).1 ho, Res.bind_ok', eraseRemove_nodup (h2 e.2).2 hi, Res.bind_ok']
  · intro x hx
    simp only [List.mem_filter] at hx
    obtain ⟨f, hf, a, b⟩ := h1 x hx.1
    exact ⟨f, hf, by simp only [eo]; exact List.mem_filter.2 ⟨a, hx.2⟩,
      by simp only [ei]; exact List.mem_filter.2 ⟨b, hx.2⟩⟩
  · intro v
    simp only [eo, ei]
    exact ⟨(h2 v).1.filter _, (h2 v).2.filter _⟩
  · intro v x hx
    simp only [eo] at hx
    exact h3 v x (List.mem_filter.1 hx).1
  · intro v x hx
    simp only [ei] at hx
    exact h4 v x (List.mem_filter.1 hx).1

/-- **C182.**  Closing different links of a network: at every node the links that come in and go out are those of
before without the closed ones, in their order; the link factory has the others left, and the closed links are
listed. -/
theorem C182_closed (n : Net) (ls : List ℤ) (h : Hooked n) (hn : ls.Nodup) (hl : ∀ l ∈ ls, l ∈ n.links) :
    ∃ n', closeAll n ls = .ok n' ∧ n'.links = n.links.filter (· ∉ ls) ∧ n'.closed = n.closed ++ ls ∧
      (∀ v, n'.outs v = (n.outs v).filter (· ∉ ls)) ∧ ∀ v, n'.ins v = (n.ins v).filter (· ∉ ls) := by
  unfold closeAll
  induction ls generalizing n with
  | nil => exact ⟨n, rfl, by simp, by simp, by simp, by simp⟩
  | cons l ls ih =>
    obtain ⟨a, b⟩ := List.nodup_cons.1 hn
    obtain ⟨n1, c1, c2, c3, c4, c5, c6, c7⟩ := close_ok n l h (hl l (by simp))
    obtain ⟨n2, d1, d2, d3, d4, d5⟩ := ih n1 c2 b fun x hx => by
      rw [c4]
      refine List.mem_filter.2 ⟨hl x (by simp [hx]), ?_⟩
      simp only [ne_eq, decide_not, Bool.not_eq_true', decide_eq_false_iff_not]
      rintro rfl
      exact a hx
    have ff : ∀ xs : List ℤ, (xs.filter (· ≠ l)).filter (· ∉ ls) = xs.filter (· ∉ l :: ls) := by
      intro xs
      rw [List.filter_filter]
      refine List.filter_congr fun x _ => ?_
      simp only [List.mem_cons, ne_eq]
      by_cases p : x = l <;> by_cases q : x ∈ ls <;> simp [p, q]
    refine ⟨n2, by rw [Res.foldlM_cons, c1]; exact d1, ?_, ?_, fun v => ?_, fun v => ?_⟩
    · rw [d2, c4, ff]
    · rw [d3, c5, List.append_assoc]; rfl
    · rw [d4, c6, ff]
    · rw [d5, c7, ff]

/-- **C182.**  A link that is not (or no longer) in the network cannot be closed. -/
theorem C182_unknown (n : Net) (l : ℤ) (h : l ∉ n.links) : ∃ m, close n l = .throw m :=
  ⟨_, by unfold close; rw [if_pos h]⟩

/-- **C182.**  Closing a link twice raises. -/
theorem C182_twice (n n' : Net) (l : ℤ) (h : close n l = .ok n') : ∃ m, close n' l = .throw m := by
  refine C182_unknown n' l ?_
  unfold close at h
  by_cases hl : l ∉ n.links
  · rw [if_pos hl] at h; cases h
  · rw [if_neg hl] at h
    cases he : n.ends l with
    | none => rw [he] at h; cases h
    | some e =>
      rw [he] at h
      obtain ⟨o, _, h⟩ := Res.bind_eq_ok'.1 h
      obtain ⟨i, _, h⟩ := Res.bind_eq_ok'.1 h
      cases h
      simp

/-- **C182 is false of the graph**: the closed link is still an edge, so path searches and signs on the graph go on
using it. -/
theorem C182_false_graph_keeps_link (n n' : Net) (ls : List ℤ) (h : closeAll n ls = .ok n') : n'.ends = n.ends := by
  refine Res.foldlM_inv (P := fun x : Net => x.ends = n.ends) (fun x l x' hx hc => ?_) ls _ _ rfl h
  unfold close at hc
  by_cases hl : l ∉ x.links
  · rw [if_pos hl] at hc; cases hc
  · rw [if_neg hl] at hc
    cases he : x.ends l with
    | none => rw [he] at hc; cases hc
    | some e =>
      rw [he] at hc
      obtain ⟨o, _, hc⟩ := Res.bind_eq_ok'.1 hc
      obtain ⟨i, _, hc⟩ := Res.bind_eq_ok'.1 hc
      cases hc
      exact hx

/-- **C182 is false before the links are hooked**: closing a link whose node does not list it erases the end of an
array. -/
theorem C182_false_not_hooked (n : Net) (l : ℤ) (e : ℤ × ℤ) (hl : l ∈ n.links) (he : n.ends l = some e)
    (ho : l ∉ n.outs e.1) : close n l = .ub := by
  unfold close
  rw [if_neg (by simpa using hl), he]
  simp only
  have : eraseRemove l (n.outs e.1) = .ub := by
    unfold eraseRemove
    simp only
    rw [filter_other ho, if_pos rfl]
  rw [this]
  rfl

/-- Links 1 and 2 leave node 1, links 2 and 3 enter node 3. -/
def zoneNet : Net :=
  ⟨fun l => if l = 1 then some (1, 2) else if l = 2 then some (1, 3) else if l = 3 then some (2, 3) else none,
    fun v => if v = 1 then [1, 2] else if v = 2 then [3] else [],
    fun v => if v = 2 then [1] else if v = 3 then [2, 3] else [], [1, 2, 3], []⟩

set_option synthInstance.maxSize 1024 in
example : ((closeAll zoneNet [2, 1]).bind fun n => .ok (n.outs 1, n.outs 2, n.ins 2, n.ins 3, n.links, n.closed)) =
    .ok ([], [3], [], [3], [3], [2, 1]) ∧ ((close zoneNet 2).bind fun n => .ok (n.outs 1, n.ins 3)) = .ok ([1], [3]) ∧
    ((closeAll zoneNet [2, 2]).bind fun _ => .ok 0) =
      .throw "Error, MNM_Link_Factory::get_link, link does not exist" := by
  decide +kernel

example : Hooked zoneNet := by
  refine ⟨by decide +kernel, fun v => ?_, fun v l hl => ?_, fun v l hl => ?_⟩
  · simp only [zoneNet]
    constructor <;> (split_ifs <;> decide)
  · simp only [zoneNet] at hl ⊢
    split_ifs at hl with h1 h2
    · subst h1
      simp only [List.mem_cons, List.not_mem_nil, or_false] at hl
      rcases hl with rfl | rfl
      · exact ⟨2, rfl⟩
      · exact ⟨3, rfl⟩
    · subst h2
      simp only [List.mem_cons, List.not_mem_nil, or_false] at hl
      subst hl
      exact ⟨3, rfl⟩
    · cases hl
  · simp only [zoneNet] at hl ⊢
    split_ifs at hl with h1 h2
    · subst h1
      simp only [List.mem_cons, List.not_mem_nil, or_false] at hl
      subst hl
      exact ⟨1, rfl⟩
    · subst h2
      simp only [List.mem_cons, List.not_mem_nil, or_false] at hl
      rcases hl with rfl | rfl
      · exact ⟨1, rfl⟩
      · exact ⟨2, rfl⟩
    · cases hl

end Verif

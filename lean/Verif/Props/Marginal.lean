import Verif.Lemmas.Marginal

/-!
# Arrival times, queue dissipation and marginal costs (C93–C95)

`Dissipates`, `MarginalTime`, `AtLimit`, `HasRoom` and `Ready` are in `Verif.Spec.Marginal`.
-/

namespace Verif

open Curve Tt Query Marg

/-! ## C93 -/

/-- **C93** Entering a link later never means leaving it earlier, by the reported travel times: for every loading and
any two queries. -/
theorem C93_link {σ : ℚ} {T : ℕ} {ins outs : List (ℕ × ℕ)} {cc : LinkCc} (h : Loaded σ T ins outs cc) {s s' : ℕ}
    (hs : s ≤ s') :
    ∃ r cc1 r' cc2, getTravelTime cc s T = .ok (r, cc1) ∧ getTravelTime cc1 s' T = .ok (r', cc2) ∧
      (s : ℚ) + r ≤ s' + r' := by
  obtain ⟨r, cc1, h1, h2, h3⟩ := getTravelTime_same h (Same.refl h) s
  obtain ⟨r', cc2, g1, g2, g3⟩ := getTravelTime_same h h2 s'
  exact ⟨r, cc1, r', cc2, h1, g1, linkTime_fifo hs h3 g3⟩

/-- **C93** Departing later never means arriving earlier, by the reported path travel times: for every path, all
tables of a loading (C90) and any two departures. -/
theorem C93_path {tt : Tabs} {T : ℕ} (hT : 0 < T) {τ : ℤ → ℕ → ℚ} {links : List ℤ} {ins outs : ℤ → List (ℕ × ℕ)}
    {f : ℤ → ℚ} (htt : Table tt T links τ)
    (hτ : ∀ l ∈ links, ∀ t < T, LinkTime T (ins l) (outs l) (f l) (t + 1) (τ l t) ∧ τ l t ≤ 2147483646) {s s' : ℕ}
    (hs : s ≤ s') (hb : s' + tripTime T τ s' links ≤ 2147483647) :
    ∃ x y : ℕ, pathTime tt T s links = .ok x ∧ pathTime tt T s' links = .ok y ∧ s + x ≤ s' + y := by
  have key := tripTime_fifo (M := T) (τ := τ) links s s' hs (fun l hl a b hab hb => by
    have := linkTime_fifo (by omega) (hτ l hl a (by omega)).1 (hτ l hl b hb).1
    push_cast at this
    linarith) hT
  exact ⟨_, _, pathTime_eq hT htt (fun l hl t ht => (hτ l hl t ht).2) (by omega),
    pathTime_eq hT htt (fun l hl t ht => (hτ l hl t ht).2) hb, key⟩

/-- A loading that meets the hypotheses. -/
example : ∃ cc, Loaded 2 10 [(1, 2), (3, 1)] [(4, 1), (6, 1), (9, 1)] cc ∧ cc.fftt = 2 := by
  obtain ⟨cin, h1, _⟩ := run_holds (σ := 2) (by norm_num) (T := 10) (by norm_num)
    (h := [(1, 2), (3, 1)]) (by unfold History; decide)
  obtain ⟨cout, h2, _⟩ := run_holds (σ := 2) (by norm_num) (T := 10) (by norm_num)
    (h := [(4, 1), (6, 1), (9, 1)]) (by unfold History; decide)
  exact ⟨⟨cin, cout, -1, 2⟩, ⟨by norm_num, by norm_num, by unfold History; decide, by unfold History; decide,
    by decide, by decide, h1, h2, rfl, by norm_num⟩, rfl⟩

/-! ## C94 -/

variable {V : Type}

/-- **C94** What is reported: for every loading and every interval, the time at which the queue has dissipated, where
the discharge is compared with `unit` times the capacity of the last cell per interval. -/
theorem C94_as_computed {T T' : ℕ} {unit σ : ℚ} {ins outs : List (ℕ × ℕ)} {f : ℕ} {l : DLink V} {tt : List ℚ}
    {τ : ℕ → ℚ} (h : Ready T T' unit σ ins outs f l tt τ) :
    ∃ row, dissipated T unit σ l (marks f tt) tt = .ok row ∧ row.length = T ∧
      ∀ i (hi : i < row.length), Dissipates T τ f T (AtLimit unit σ l.link outs f) i row[i] := by
  obtain ⟨row, h1, h2⟩ := rowOf_eq (g := fun i => (l.link.ffttLoading).bind fun f =>
      dissOne "Dta::get_link_queue_dissipated_time" T T unit σ l f (marks f tt) tt i)
    (P := fun i d => Dissipates T τ f T (AtLimit unit σ l.link outs f) i d) (List.range T) (fun i hi => by
      rw [List.mem_range] at hi
      rw [h.fftt, Res.bind_ok']
      exact dissOne_eq h hi (h.table i hi))
  have hl : row.length = T := by rw [← h2.length_eq, List.length_range]
  refine ⟨row, ?_, hl, fun i hi => ?_⟩
  · unfold dissipated
    rw [← h1]
    simp only [h.fftt, Res.bind_ok']
  · have := List.Forall₂.get h2 (i := i) (by simpa [hl] using hi) hi
    simpa using this

/-- **C94** For every loading, and every interval in which the link is congested, the first later interval without
congestion is reported, or the number of intervals if there is none. -/
theorem C94_congested {T T' : ℕ} {unit σ : ℚ} {ins outs : List (ℕ × ℕ)} {f : ℕ} {l : DLink V} {tt : List ℚ}
    {τ : ℕ → ℚ} (h : Ready T T' unit σ ins outs f l tt τ) :
    ∃ row, dissipated T unit σ l (marks f tt) tt = .ok row ∧ row.length = T ∧
      ∀ i (hi : i < row.length), (f : ℚ) < τ i → FirstFree T τ f T i row[i] := by
  obtain ⟨row, h1, h2, h3⟩ := C94_as_computed h
  exact ⟨row, h1, h2, fun i hi => (h3 i hi).1⟩

/-- **C94** (partial: the unit time is one second, or the link is a point queue).  The reported times are those at
which the queues have dissipated; a cell-transmission link that discharges at its capacity is at its limit. -/
theorem C94_dissipated_partial {T T' : ℕ} {unit σ : ℚ} {ins outs : List (ℕ × ℕ)} {f : ℕ} {l : DLink V} {tt : List ℚ}
    {τ : ℕ → ℚ} (h : Ready T T' unit σ ins outs f l tt τ) (hu : unit = 1 ∨ ∃ q, l.link = .pq q) :
    ∃ row, dissipated T unit σ l (marks f tt) tt = .ok row ∧ row.length = T ∧
      ∀ i (hi : i < row.length), Dissipates T τ f T (AtLimit 1 σ l.link outs f) i row[i] := by
  obtain ⟨row, h1, h2, h3⟩ := C94_as_computed h
  refine ⟨row, h1, h2, fun i hi => ?_⟩
  have e : AtLimit unit σ l.link outs f i ↔ AtLimit 1 σ l.link outs f i := by
    rcases hu with rfl | ⟨q, hq⟩
    · exact Iff.rfl
    · unfold AtLimit LastCap
      rw [hq]
      constructor <;> rintro ⟨_, _, e, _⟩ <;> cases e
  have := h3 i hi
  exact ⟨this.1, fun a b => this.2.1 a (e.2 b), fun a b => this.2.2 a fun c => b (e.1 c)⟩

/-- **C94** The state of the link does not matter otherwise: links of the other types are refused as soon as an
interval without congestion is met. -/
theorem C94_other_types {T : ℕ} {unit σ : ℚ} {q : Lnk.Lq V} {cin cout : Curve} {f : ℤ} {tt : List ℚ}
    (hf : (Lnk.Link.lq q).ffttLoading = .ok f) (hT : 0 < T) (h0 : tt[0]? = some (f : ℚ)) :
    dissipated T unit σ ⟨.lq q, cin, cout⟩ (marks f tt) tt =
      .throw ("Dta::get_link_queue_dissipated_time" ++ ", Link type not implemented") := by
  have key : dissOne "Dta::get_link_queue_dissipated_time" T T unit σ ⟨.lq q, cin, cout⟩ f (marks f tt) tt 0 =
      .throw ("Dta::get_link_queue_dissipated_time" ++ ", Link type not implemented") := by
    have r1 : rd (marks f tt) 0 = .ok false := by
      unfold rd marks
      rw [List.getElem?_map, h0]
      simp
    have r2 : rd tt 0 = .ok (f : ℚ) := by unfold rd; rw [h0]
    unfold dissOne
    rw [r1, Res.bind_ok', if_neg (by decide), r2, Res.bind_ok', if_pos (approxEq_self _)]
  obtain ⟨n, rfl⟩ : ∃ n, T = n + 1 := ⟨T - 1, by omega⟩
  unfold dissipated
  rw [List.range_succ_eq_map, rowOf]
  simp only [hf, Res.bind_ok']
  rw [key]
  rfl

/-- The link of the examples: 100 m at 10 m/s, 0.4 vehicles per second, that is 2 in each interval of 5 seconds, and two
cells. -/
theorem exLink : ∃ k : Lnk.Ctm ℕ, Lnk.mkLink .ctm ⟨1 / 10, 2 / 5, 1, 100, 10, 5, 1⟩ = .ok (.ctm k) ∧
    k.numCells = 2 ∧ (∃ c, k.cells.head? = some c ∧ c.cap = 2) ∧ ∃ c, k.cells.getLast? = some c ∧ c.cap = 2 := by
  have h : (match (Lnk.mkLink .ctm ⟨1 / 10, 2 / 5, 1, 100, 10, 5, 1⟩ : Res (Lnk.Link ℕ)) with
      | .ok (.ctm k) => some (k.numCells, k.cells.head?.map (·.cap), k.cells.getLast?.map (·.cap))
      | _ => none) = some (2, some 2, some 2) := by decide +kernel
  revert h
  cases hm : (Lnk.mkLink .ctm ⟨1 / 10, 2 / 5, 1, 100, 10, 5, 1⟩ : Res (Lnk.Link ℕ)) with
  | ok l =>
    cases l with
    | ctm k =>
      intro h
      have h := Option.some.inj h
      simp only [Prod.mk.injEq, Option.map_eq_some_iff] at h
      exact ⟨k, rfl, h.1, h.2.1, h.2.2⟩
    | _ => intro h; cases h
  | _ => intro h; cases h

/-- The curves and the travel times of a loading of that link in 10 intervals, computed. -/
theorem exReady {ins outs : List (ℕ × ℕ)} {cin cout : Curve} {tt : List ℚ} (hi : History 10 ins) (ho : History 10 outs)
    (hle : upTo outs 10 ≤ upTo ins 10) (hn : upTo ins 10 < 10000)
    (h1 : Res.foldlM addIncrement install (flows 1 ins) = .ok cin)
    (h2 : Res.foldlM addIncrement install (flows 1 outs) = .ok cout)
    (h3 : (ttRow 10 ⟨cin, cout, -1, 2⟩ (List.range 10)).bind (fun r => .ok r.1) = .ok tt) {k : Lnk.Ctm ℕ}
    (hk : k.numCells = 2) (hf : ∃ c, k.cells.head? = some c ∧ c.cap = 2) (hl : ∃ c, k.cells.getLast? = some c ∧ c.cap = 2) :
    Ready 10 10 5 1 ins outs 2 (⟨.ctm k, cin, cout⟩ : DLink ℕ) tt (fun t => tt.getD t 0) := by
  have hL : Loaded 1 10 ins outs ⟨cin, cout, -1, 2⟩ :=
    ⟨by norm_num, by norm_num, hi, ho, hle, hn, h1, h2, rfl, by norm_num⟩
  obtain ⟨row, cc', a1, _, a3, a4⟩ := ttRow_range hL (Same.refl hL)
  have e : row = tt := by
    rw [show ((10 : ℕ) : ℤ) = 10 from rfl] at a1
    rw [a1, Res.bind_ok'] at h3
    exact Res.ok.inj h3
  subst e
  obtain ⟨c1, f1, f2⟩ := hf
  obtain ⟨c2, l1, l2⟩ := hl
  refine ⟨by norm_num, by norm_num, by norm_num, hi, ho, ⟨hn, by omega⟩, h1, h2, ?_, Or.inr ⟨10, 10, by norm_num,
    by norm_num, by norm_num, by norm_num, ⟨k, c1, rfl, f1, ?_⟩, ⟨k, c2, rfl, l1, ?_⟩⟩, fun t ht => ?_, fun t ht => ?_⟩
  · show Res.ok k.numCells = _
    rw [hk]; rfl
  · rw [f2]; norm_num
  · rw [l2]; norm_num
  · obtain ⟨r, r1, _⟩ := a4 t ht
    simp [List.getD, r1]
  · obtain ⟨r, r1, r2⟩ := a4 t ht
    simpa [List.getD, r1] using r2

/-- **C94** With a unit time of 5 seconds the full claim is false, since the capacity per interval is multiplied by
the unit time once more: a link that discharges at its capacity, 2 vehicles, in interval 2 is not found to be at its
limit, and the reported time for interval 0 is 0, although the congestion that follows ends in interval 2. -/
theorem C94_capacity_missed : ∃ (l : DLink ℕ) (ins outs : List (ℕ × ℕ)) (tt : List ℚ) (τ : ℕ → ℚ) (row : List ℕ),
    Lnk.mkLink .ctm ⟨1 / 10, 2 / 5, 1, 100, 10, 5, 1⟩ = .ok l.link ∧ Ready 10 10 5 1 ins outs 2 l tt τ ∧
    dissipated 10 5 1 l (marks 2 tt) tt = .ok row ∧ row[0]? = some 0 ∧
    AtLimit 1 1 l.link outs 2 0 ∧ NextEnd 10 τ 2 10 0 2 ∧
    ¬ Dissipates 10 τ 2 10 (AtLimit 1 1 l.link outs 2) 0 0 := by
  obtain ⟨k, e, hk, hf, hl⟩ := exLink
  have hR := exReady (ins := [(1, 2), (2, 4)]) (outs := [(3, 2), (4, 2), (5, 2)])
    (cin := [(0, 0), (1, 2), (2, 6)]) (cout := [(0, 0), (3, 2), (4, 4), (5, 6)])
    (tt := [2, 3, 2, 2, 2, 2, 2, 2, 2, 2]) (by unfold History; decide) (by unfold History; decide) (by decide)
    (by decide) (by decide +kernel) (by decide +kernel) (by decide +kernel) hk hf hl
  obtain ⟨row, h1, h2, h3⟩ := C94_as_computed hR
  have hlim : AtLimit 1 1 (Lnk.Link.ctm k) [(3, 2), (4, 2), (5, 2)] 2 0 := by
    obtain ⟨c, l1, l2⟩ := hl
    refine ⟨k, c, rfl, l1, ?_⟩
    rw [l2]
    decide +kernel
  have hno : ¬ AtLimit 5 1 (Lnk.Link.ctm k) [(3, 2), (4, 2), (5, 2)] 2 0 := by
    obtain ⟨c, l1, l2⟩ := hl
    rintro ⟨k', c', e1, e2, e3⟩
    cases e1
    rw [l1] at e2
    cases e2
    rw [l2] at e3
    revert e3
    decide +kernel
  have h0 := (h3 0 (by omega)).2.2 (by decide +kernel) hno
  refine ⟨_, _, _, _, _, row, e, hR, h1, ?_, hlim, ?_, ?_⟩
  · rw [List.getElem?_eq_getElem (by omega), h0]
  · refine Or.inl ⟨by refine ⟨by norm_num, by norm_num, by decide +kernel, by decide +kernel⟩, fun y hy => ?_⟩
    rcases Nat.lt_or_ge y 2 with h | h
    · have : y = 1 := by have := hy.1; omega
      subst this
      exact absurd hy.2.2.2 (by decide +kernel)
    · exact h
  · intro hd
    rcases hd.2.1 (by decide +kernel) hlim with hd | ⟨_, hd⟩
    · exact absurd hd.1.1 (by omega)
    · omega

/-! ## C95 -/

/-- **C95** What the tables hold after the marginal costs have been computed in place of the travel times: for every
loading and every interval the marginal travel time, by the travel times before; capacities are multiplied by
`unit`. -/
theorem C95_as_computed {T T' : ℕ} {unit σ : ℚ} {ins outs : List (ℕ × ℕ)} {f : ℕ} {l : DLink V} {tt cost : List ℚ}
    {τ : ℕ → ℚ} (h : Ready T T' unit σ ins outs f l tt τ) (hc : T ≤ cost.length) :
    ∃ s, marginal T unit σ l (marks f tt) tt cost = .ok s ∧ ∀ i < T, ∃ m, s.tt[i]? = some m ∧ s.cost[i]? = some m ∧
      MarginalTime T τ f (AtLimit unit σ l.link outs f) (HasRoom unit σ l.link ins) i m := by
  obtain ⟨s, h1, h2, _⟩ := marginal_loop h T 0 ⟨fun _ => 0, tt, cost⟩ (by omega) (fun k _ hk => h.table k hk) hc
  refine ⟨s, ?_, fun i hi => h2 i (by omega) hi⟩
  unfold marginal
  rw [h.fftt, Res.bind_ok', List.range_eq_range', h1]

/-- **C95** (partial: the unit time is one second, or the link is a point queue).  The tables hold the marginal travel
times. -/
theorem C95_marginal_partial {T T' : ℕ} {unit σ : ℚ} {ins outs : List (ℕ × ℕ)} {f : ℕ} {l : DLink V}
    {tt cost : List ℚ} {τ : ℕ → ℚ} (h : Ready T T' unit σ ins outs f l tt τ) (hc : T ≤ cost.length)
    (hu : unit = 1 ∨ ∃ q, l.link = .pq q) :
    ∃ s, marginal T unit σ l (marks f tt) tt cost = .ok s ∧ ∀ i < T, ∃ m, s.tt[i]? = some m ∧ s.cost[i]? = some m ∧
      MarginalTime T τ f (AtLimit 1 σ l.link outs f) (HasRoom 1 σ l.link ins) i m := by
  obtain ⟨s, h1, h2⟩ := C95_as_computed h hc
  refine ⟨s, h1, fun i hi => ?_⟩
  have e1 : AtLimit unit σ l.link outs f = AtLimit 1 σ l.link outs f := by
    rcases hu with rfl | ⟨q, hq⟩
    · rfl
    · funext t
      unfold AtLimit LastCap
      rw [hq, eq_iff_iff]
      constructor <;> rintro ⟨_, _, e, _⟩ <;> cases e
  have e2 : HasRoom unit σ l.link ins = HasRoom 1 σ l.link ins := by
    rcases hu with rfl | ⟨q, hq⟩
    · rfl
    · funext t
      unfold HasRoom
      rw [hq, eq_iff_iff]
      constructor <;> intro _ <;> exact Or.inl ⟨q, rfl⟩
  rw [← e1, ← e2]
  exact h2 i hi

/-- **C95** For every loading, link and unit time: a marginal travel time is never less than the free-flow time, and,
unless it is longer than the whole period, never less than the travel time that is reported for the interval in which
the additional vehicle enters. -/
theorem C95_at_least {T T' : ℕ} {unit σ : ℚ} {ins outs : List (ℕ × ℕ)} {f : ℕ} {l : DLink V} {tt cost : List ℚ}
    {τ : ℕ → ℚ} (h : Ready T T' unit σ ins outs f l tt τ) (hc : T ≤ cost.length) :
    ∃ s, marginal T unit σ l (marks f tt) tt cost = .ok s ∧ ∀ i < T, ∃ m, s.tt[i]? = some m ∧ (f : ℚ) ≤ m ∧
      ((T : ℚ) + f ≤ m ∨
        ∃ j, IsLeast {k | i ≤ k ∧ k < T ∧ HasRoom unit σ l.link ins k} j ∧ τ j ≤ m) := by
  obtain ⟨s, h1, h2⟩ := C95_as_computed h hc
  refine ⟨s, h1, fun i hi => ?_⟩
  obtain ⟨m, m1, _, m2⟩ := h2 i hi
  refine ⟨m, m1, ?_⟩
  have hf : (0 : ℚ) ≤ f := by positivity
  have hT0 : (0 : ℚ) ≤ T := by positivity
  rcases m2 with ⟨j, d, hj, hd, rfl⟩ | ⟨_, rfl⟩
  · have hjT : j < T := hj.1.2.1
    have hjq : (j : ℚ) ≤ T := by exact_mod_cast hjT.le
    -- a queue that ends does so after the vehicle that is asked about has left
    have ends : ∀ k, j < k → k < T → τ k ≤ f → τ j ≤ (k : ℚ) - j + f := by
      intro k k1 k2 k3
      have := linkTime_fifo (by omega) (h.times j hjT) (h.times k k2)
      push_cast at this
      linarith
    have late : d = 2 * T → (T : ℚ) + f ≤ (d : ℚ) - j + f := by
      rintro rfl
      push_cast
      linarith
    have goal : (f : ℚ) ≤ (d : ℚ) - j + f ∧ ((T : ℚ) + f ≤ (d : ℚ) - j + f ∨ τ j ≤ (d : ℚ) - j + f) := by
      by_cases hcong : (f : ℚ) < τ j
      · rcases hd.1 hcong with hd | ⟨_, hd⟩
        · have : (j : ℚ) < d := by exact_mod_cast hd.1.1
          exact ⟨by linarith, Or.inr (ends d hd.1.1 hd.1.2.1 hd.1.2.2)⟩
        · have := late hd
          exact ⟨by linarith, Or.inl this⟩
      · have hle := not_lt.1 hcong
        by_cases hlim : AtLimit unit σ l.link outs f j
        · rcases hd.2.1 hle hlim with hd | ⟨_, hd⟩
          · have : (j : ℚ) < d := by exact_mod_cast hd.1.1
            exact ⟨by linarith, Or.inr (ends d hd.1.1 hd.1.2.1 hd.1.2.2.2)⟩
          · have := late hd
            exact ⟨by linarith, Or.inl this⟩
        · rw [hd.2.2 hle hlim]
          exact ⟨by linarith, Or.inr (by linarith)⟩
    exact ⟨goal.1, goal.2.imp id fun g => ⟨j, hj, g⟩⟩
  · exact ⟨by linarith, Or.inl (le_refl _)⟩

/-- **C95** With a unit time of 5 seconds the full claim is false for the same reason: the link of the example takes in
its capacity, 2 vehicles, in the intervals 0 to 2, and an additional vehicle of interval 0 could only enter in
interval 3.  The queue dissipates in interval 5.  The marginal travel time is 4, but 7 is stored. -/
theorem C95_room_missed : ∃ (l : DLink ℕ) (ins outs : List (ℕ × ℕ)) (tt : List ℚ) (τ : ℕ → ℚ) (s : Row),
    Lnk.mkLink .ctm ⟨1 / 10, 2 / 5, 1, 100, 10, 5, 1⟩ = .ok l.link ∧ Ready 10 10 5 1 ins outs 2 l tt τ ∧
    marginal 10 5 1 l (marks 2 tt) tt tt = .ok s ∧ s.tt[0]? = some 7 ∧
    MarginalTime 10 τ 2 (AtLimit 1 1 l.link outs 2) (HasRoom 1 1 l.link ins) 0 4 ∧
    ¬ MarginalTime 10 τ 2 (AtLimit 1 1 l.link outs 2) (HasRoom 1 1 l.link ins) 0 7 := by
  obtain ⟨k, e, hk, hf, hl⟩ := exLink
  have hR := exReady (ins := [(1, 2), (2, 2), (3, 2)]) (outs := [(3, 1), (4, 1), (5, 1), (6, 1), (7, 1), (8, 1)])
    (cin := [(0, 0), (1, 2), (2, 4), (3, 6)]) (cout := [(0, 0), (3, 1), (4, 2), (5, 3), (6, 4), (7, 5), (8, 6)])
    (tt := [3, 4, 5, 4, 3, 2, 2, 2, 2, 2]) (by unfold History; decide) (by unfold History; decide) (by decide)
    (by decide) (by decide +kernel) (by decide +kernel) (by decide +kernel) hk hf hl
  obtain ⟨s, h1, h2⟩ := C95_as_computed (cost := [3, 4, 5, 4, 3, 2, 2, 2, 2, 2]) hR (by decide)
  obtain ⟨c, f1, f2⟩ := hf
  have room : ∀ u t, HasRoom u 1 (Lnk.Link.ctm k) [(1, 2), (2, 2), (3, 2)] t ↔
      (during [(1, 2), (2, 2), (3, 2)] t : ℤ) < ⌊2 * u * 1⌋ := by
    intro u t
    constructor
    · rintro (⟨q, hq⟩ | ⟨n, ⟨k', c', e1, e2, e3⟩, hlt⟩)
      · cases hq
      · cases e1
        rw [f1] at e2
        cases e2
        rw [f2] at e3
        rw [← e3]; exact hlt
    · intro h
      exact Or.inr ⟨_, ⟨k, c, rfl, f1, by rw [f2]⟩, h⟩
  have free : ∀ {d : ℕ} {j : ℕ} {late : ℕ}, j < 5 → FirstFree 10 (fun t => ([3, 4, 5, 4, 3, 2, 2, 2, 2, 2] : List ℚ).getD t 0) 2
      late j d → d = 5 := by
    intro d j late hj hd
    rcases hd with hd | ⟨hd, _⟩
    · have h5 : d ≤ 5 := hd.2 ⟨by omega, by norm_num, by decide +kernel⟩
      have hbad : ∀ y < 5, ¬ (([3, 4, 5, 4, 3, 2, 2, 2, 2, 2] : List ℚ).getD y 0 ≤ 2) := by decide +kernel
      rcases Nat.lt_or_ge d 5 with h | h
      · exact absurd hd.1.2.2 (hbad d h)
      · omega
    · exact absurd (hd 5 (by omega) (by norm_num)) (by decide +kernel)
  have three : IsLeast {t | 0 ≤ t ∧ t < 10 ∧ HasRoom 1 1 (Lnk.Link.ctm k) [(1, 2), (2, 2), (3, 2)] t} 3 := by
    refine ⟨⟨by norm_num, by norm_num, (room 1 3).2 (by decide +kernel)⟩, fun y hy => ?_⟩
    have hbad : ∀ y < 3, ¬ ((during [(1, 2), (2, 2), (3, 2)] y : ℤ) < ⌊(2 : ℚ) * 1 * 1⌋) := by decide +kernel
    rcases Nat.lt_or_ge y 3 with h | h
    · exact absurd ((room 1 y).1 hy.2.2) (hbad y h)
    · exact h
  have cong : ∀ y < 5, (2 : ℚ) < ([3, 4, 5, 4, 3, 2, 2, 2, 2, 2] : List ℚ).getD y 0 := by decide +kernel
  refine ⟨_, _, _, _, _, s, e, hR, h1, ?_, ?_, ?_⟩
  · obtain ⟨m, m1, _, m2⟩ := h2 0 (by norm_num)
    rw [m1]
    rcases m2 with ⟨j, d, hj, hd, rfl⟩ | ⟨hno, _⟩
    · have : j = 0 := by
        have := hj.2 (show (0 : ℕ) ∈ _ from ⟨le_refl _, by norm_num, (room 5 0).2 (by decide +kernel)⟩)
        omega
      subst this
      rw [free (by norm_num) (hd.1 (cong 0 (by norm_num)))]
      norm_num
    · exact absurd ((room 5 0).2 (by decide +kernel)) (hno 0 (le_refl _) (by norm_num))
  · refine Or.inl ⟨3, 5, three, ⟨fun _ => Or.inl ⟨⟨by norm_num, by norm_num, by decide +kernel⟩, fun y hy => ?_⟩,
      fun h => absurd h (not_le.2 (cong 3 (by norm_num))), fun h => absurd h (not_le.2 (cong 3 (by norm_num)))⟩, by norm_num⟩
    rcases Nat.lt_or_ge y 5 with h | h
    · exact absurd hy.2.2 (not_le.2 (cong y h))
    · exact h
  · rintro (⟨j, d, hj, hd, hm⟩ | ⟨hno, _⟩)
    · have := hj.unique three
      subst this
      rw [free (by norm_num) (hd.1 (cong 3 (by norm_num)))] at hm
      norm_num at hm
    · exact hno 3 (by norm_num) (by norm_num) ((room 1 3).2 (by decide +kernel))

end Verif

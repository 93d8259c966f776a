import Verif.Lemmas.LtgTables

/-!
# Queue dissipation and travel time gradients of cars and trucks (C101, C102)

`Ready`, `GoodPaths`, `ValidUntil`, `AtLimit`, `Says` and `Data.records` are in `Verif.Spec.Ltg`; `LinkTime` is in
`Verif.Spec.TravelTime`, `Dissipates` in `Verif.Spec.Marginal`.
-/

namespace Verif
open Ltg Curve Tt Marg MQuery

variable {V : Type}

/-! ## C101 -/

/-- **C101** After every loading, the travel times with congestion marks, and then the dissipation times, can be computed
for all links.  For each class and each interval, the mark says whether the travel time of the class exceeds its
free-flow time, and the dissipation time is that of the class: the next interval without congestion if there is
congestion, the end of the next congestion if the link discharges at the capacity for the class, and otherwise the
interval itself. -/
theorem C101_dissipated {e : Ltg.Env V} {ins outs : Bool → ℤ → List (ℕ × ℕ)} {f : Bool → ℤ → ℕ} {k : ℤ → MLnk.Link V}
    {q : ℤ → MQuery.Link} {s : Ltg.State} (h : Ltg.Ready e ins outs f k q s) :
    ∃ s1 s2, Ltg.build e s = .ok s1 ∧ Ltg.dissipated e s1 = .ok s2 ∧ ∀ b, ∀ l ∈ e.q.ids, ∃ (τ : ℕ → ℚ) (marks : List Bool)
      (ds : List ℕ), s2.cong b l = some marks ∧ s2.diss b l = some ds ∧ ∀ t < e.q.T,
        LinkTime e.q.T (ins b l) (outs b l) (f b l) (t + 1) (τ t) ∧ marks[t]? = some (decide ((f b l : ℚ) < τ t)) ∧
        ∃ d, ds[t]? = some d ∧
          Dissipates e.q.T τ (f b l) e.q.T (Ltg.AtLimit e.q.unit e.scalar b (k l) (outs b l) (f b l)) t d := by
  obtain ⟨s1, h1, h2, h3⟩ := build_done h
  obtain ⟨s2, h4, h5, h6, h7⟩ := dissipated_done h h2 h3
  refine ⟨s1, s2, h1, h4, fun b l hl => ?_⟩
  obtain ⟨xs, cs, t1, t2, t3⟩ := (h2 l hl).tab b
  obtain ⟨xs', ds, t4, t5, t6⟩ := h7 l hl b
  rw [h5, t1] at t4
  cases t4
  refine ⟨fun t => xs.getD t 0, cs, ds, by rw [h6]; exact t2, t5, fun t ht => ?_⟩
  obtain ⟨r, r1, r2, r3⟩ := t3 t ht
  have : xs.getD t 0 = r := by simp [List.getD, r1]
  simp only [this]
  exact ⟨r2, r3, t6 t ht⟩

/-- **C101** A link-queue link is refused as soon as an interval without congestion is met for cars. -/
theorem C101_other_types {e : Ltg.Env V} {s : Ltg.State} {l : ℤ} {q : MQuery.Link} {m : MLnk.Lq V} {f : ℤ}
    {t0 t1 : List ℚ} {c0 c1 : List Bool} (hT : 0 < e.q.T) (hq : s.q.net l = some q) (hk : e.kind l = some (.lq m))
    (hf : Ltg.ffttLoading false (MLnk.Link.lq m) = .ok f) (h1 : s.q.tt false l = some t0) (h2 : s.q.tt true l = some t1)
    (h3 : s.cong false l = some c0) (h4 : s.cong true l = some c1) (h5 : c0[0]? = some false)
    (h6 : t0[0]? = some (f : ℚ)) :
    Ltg.dissLink e s l = .throw "Mcdta::get_link_queue_dissipated_time, Link type not implemented" := by
  obtain ⟨n, hn⟩ : ∃ n, e.q.T = n + 1 := ⟨e.q.T - 1, by omega⟩
  have key : Ltg.dissOne e.q.T e.q.unit e.scalar false (.lq m) (q.cc false).nOut (byClass false c0 c1) (byClass false t0 t1) 0 =
      .throw "Mcdta::get_link_queue_dissipated_time, Link type not implemented" := by
    have r1 : rd c0 0 = .ok false := by unfold rd; rw [h5]
    have r2 : rd t0 0 = .ok (f : ℚ) := by unfold rd; rw [h6]
    unfold Ltg.dissOne
    simp only [byClass, Bool.false_eq_true, if_false]
    rw [r1, Res.bind_ok', if_neg (by decide), hf, Res.bind_ok', r2, Res.bind_ok', if_pos (approxEq_self _)]
  unfold Ltg.dissLink MQuery.State.link Ltg.Env.link rowIn
  rw [hq, hk, h1, h2, h3, h4]
  simp only [Res.bind_ok']
  rw [hn, List.range_succ_eq_map, dissRows]
  rw [hn] at key
  rw [key]
  rfl

/-- **C101** The free-flow times of cars on cell-transmission links and point queues of length `x` are the whole intervals
they need for it at their speed, at least one; those of trucks on cell-transmission links are not more than trucks need
for it (or for the distance cars go in an interval, if it is longer), and less than they need by at most the time for
what cars go in an interval. On point queues trucks have the free-flow time of cars. -/
theorem C101_free_flow {a : MLnk.Args} {l : MLnk.Link V} :
    (MLnk.mkLink .ctm a = .ok l → Ltg.ffttLoading false l = .ok (max 1 ⌊a.length / (a.ffsCar * a.unit)⌋) ∧
      ∀ n, Ltg.ffttLoading true l = .ok n → n * (a.ffsTruck * a.unit) ≤ max a.length (a.ffsCar * a.unit) ∧
        a.length - a.ffsCar * a.unit < (n + 1) * (a.ffsTruck * a.unit)) ∧
    (MLnk.mkLink .pq a = .ok l → ∀ b, Ltg.ffttLoading b l = .ok (max 1 ⌊a.length / (a.ffsCar * a.unit)⌋)) := by
  constructor
  · intro h
    change (MLnk.Ctm.mk' a).bind _ = _ at h
    obtain ⟨m, h1, h2⟩ := Res.bind_eq_ok'.1 h
    cases h2
    unfold MLnk.Ctm.mk' at h1
    obtain ⟨_, hb, h1⟩ := Res.bind_eq_ok'.1 h1
    unfold Lnk.checkBase at hb
    split at hb
    · cases hb
    split at hb
    · cases hb
    split at hb
    · cases hb
    rename_i b1 b2 b3
    obtain ⟨a', hc, h1⟩ := Res.bind_eq_ok'.1 h1
    unfold MLnk.checkAttrs at hc
    split at hc
    · cases hc
    split at hc
    · cases hc
    split at hc
    · cases hc
    rename_i c1 c2 c3
    have hc := Res.ok.inj hc
    split at h1
    · cases h1
    split at h1
    · cases h1
    split at h1
    · cases h1
    rename_i d1 d2 d3
    obtain ⟨r, hd, h1⟩ := Res.bind_eq_ok'.1 h1
    have h1 := Res.ok.inj h1
    subst h1
    subst hc
    simp only at d1 d2 d3
    unfold MLnk.derive at hd
    simp only at hd
    split at hd
    · cases hd
    rename_i e1
    obtain ⟨n0, he, hd⟩ := Res.bind_eq_ok'.1 hd
    split at hd
    · cases hd
    split at hd
    · cases hd
    rename_i e2 e3
    have hd := Res.ok.inj hd
    have hfc : 0 < a.ffsCar := lt_of_le_of_ne (not_lt.1 b1) (Ne.symm e1)
    have hu : 0 < a.unit := not_le.1 d3
    have hft : 0 < a.ffsTruck := lt_of_le_of_ne (not_lt.1 fun h => c3 (Or.inr h)) (fun h => e3 (Or.inl h.symm))
    have hlen : 0 ≤ a.length := not_lt.1 b3
    have hstd : 0 < a.ffsCar * a.unit := mul_pos hfc hu
    have hn0 : n0 = ⌊a.length / (a.ffsCar * a.unit)⌋ := by
      unfold Ults.toInt at he
      split at he
      · rw [Ults.trunc_int] at he
        exact (Res.ok.inj he).symm
      · cases he
    have hn0' : 0 ≤ n0 := by rw [hn0]; positivity
    have hnum : r.num = max 1 ⌊a.length / (a.ffsCar * a.unit)⌋ := by
      rw [← hd, ← hn0]
      simp only
      split <;> omega
    have hargs : r.args.ffsCar = a.ffsCar ∧ r.args.ffsTruck = a.ffsTruck := by rw [← hd]; exact ⟨rfl, rfl⟩
    refine ⟨?_, fun n hn => ?_⟩
    · show Res.ok r.num = _
      rw [hnum]
    · replace hn : Ults.toInt (r.num * r.args.ffsCar / r.args.ffsTruck) = .ok n := hn
      rw [hargs.1, hargs.2] at hn
      have hx : (0 : ℚ) ≤ r.num * a.ffsCar / a.ffsTruck := by
        have : (1 : ℤ) ≤ r.num := by rw [hnum]; exact le_max_left _ _
        have : (0 : ℚ) ≤ r.num := by exact_mod_cast (by omega : (0 : ℤ) ≤ r.num)
        positivity
      unfold Ults.toInt at hn
      split at hn
      swap
      · cases hn
      rw [Ults.trunc_nonneg hx] at hn
      have hn := Res.ok.inj hn
      have f1 := Int.floor_le (r.num * a.ffsCar / a.ffsTruck)
      have f2 := Int.lt_floor_add_one (r.num * a.ffsCar / a.ffsTruck)
      rw [hn] at f1 f2
      rw [le_div_iff₀ hft] at f1
      rw [div_lt_iff₀ hft] at f2
      have g1 := Int.floor_le (a.length / (a.ffsCar * a.unit))
      have g2 := Int.lt_floor_add_one (a.length / (a.ffsCar * a.unit))
      rw [← hn0] at g1 g2
      rw [le_div_iff₀ hstd] at g1
      rw [div_lt_iff₀ hstd] at g2
      have q1 : (n0 : ℚ) ≤ r.num := by exact_mod_cast (by rw [hnum, ← hn0]; exact le_max_right _ _ : n0 ≤ r.num)
      have q2 : (r.num : ℚ) * (a.ffsCar * a.unit) ≤ max a.length (a.ffsCar * a.unit) := by
        rw [hnum, ← hn0]
        rcases le_total n0 1 with c | c
        · rw [max_eq_left c]
          push_cast
          rw [one_mul]
          exact le_max_right _ _
        · rw [max_eq_right c]
          exact le_trans g1 (le_max_left _ _)
      constructor
      · calc (n : ℚ) * (a.ffsTruck * a.unit) = n * a.ffsTruck * a.unit := by ring
          _ ≤ r.num * a.ffsCar * a.unit := mul_le_mul_of_nonneg_right f1 hu.le
          _ = r.num * (a.ffsCar * a.unit) := by ring
          _ ≤ _ := q2
      · calc a.length - a.ffsCar * a.unit < n0 * (a.ffsCar * a.unit) := by linarith
          _ ≤ r.num * (a.ffsCar * a.unit) := mul_le_mul_of_nonneg_right q1 hstd.le
          _ = r.num * a.ffsCar * a.unit := by ring
          _ ≤ (n + 1) * a.ffsTruck * a.unit := mul_le_mul_of_nonneg_right f2.le hu.le
          _ = _ := by ring
  · intro h b
    change (MLnk.Pq.mk' a).bind _ = _ at h
    obtain ⟨m, h1, h2⟩ := Res.bind_eq_ok'.1 h
    cases h2
    unfold MLnk.Pq.mk' at h1
    obtain ⟨_, _, h1⟩ := Res.bind_eq_ok'.1 h1
    split at h1
    · cases h1
    obtain ⟨n, h3, h4⟩ := Res.bind_eq_ok'.1 h1
    cases h4
    show Res.ok n = _
    unfold Ults.roundDownTime at h3
    split at h3
    · rename_i c
      rw [max_eq_left (by have := Int.floor_lt.2 (by exact_mod_cast c : a.length / (a.ffsCar * a.unit) < ((1 : ℤ) : ℚ)); omega)]
      exact h3.symm
    · rename_i c
      have h0 : 0 ≤ a.length / (a.ffsCar * a.unit) := by linarith [not_lt.1 c]
      unfold Ults.toInt at h3
      split at h3
      swap
      · cases h3
      rw [Ults.trunc_nonneg h0] at h3
      rw [max_eq_right (Int.le_floor.2 (by exact_mod_cast not_lt.1 c))]
      exact h3.symm

/-- The links of the example below are created, and trucks need four intervals where cars need two. -/
example : (match (MLnk.mkLink .ctm ⟨1, 100, 1 / 10, 1 / 20, 2 / 5, 1 / 5, 10, 5, 5, 2, 1⟩ : Res (MLnk.Link ℕ)) with
    | .ok l => [Ltg.ffttLoading false l, Ltg.ffttLoading true l]
    | _ => []) = [.ok 2, .ok 4] := by decide +kernel

/-- **C101** The free-flow times of link queues are in seconds, unlike those of the other links, which are in intervals:
in intervals of five seconds, a link of 100 metres takes cars at 10 metres per second 10, instead of 2. -/
theorem C101_link_queue_seconds : ∃ l : MLnk.Link ℕ,
    MLnk.mkLink .lq ⟨1, 100, 1 / 10, 1 / 20, 2 / 5, 1 / 5, 10, 5, 5, 2, 1⟩ = .ok l ∧ Ltg.ffttLoading false l = .ok 10 := by
  have h : (match (MLnk.mkLink .lq ⟨1, 100, 1 / 10, 1 / 20, 2 / 5, 1 / 5, 10, 5, 5, 2, 1⟩ : Res (MLnk.Link ℕ)) with
      | .ok l => some (Ltg.ffttLoading false l)
      | _ => none) = some (.ok 10) := by decide +kernel
  revert h
  cases hm : (MLnk.mkLink .lq ⟨1, 100, 1 / 10, 1 / 20, 2 / 5, 1 / 5, 10, 5, 5, 2, 1⟩ : Res (MLnk.Link ℕ)) with
  | ok l => intro h; exact ⟨l, rfl, Option.some.inj h⟩
  | _ => intro h; cases h

/-! ## C102 -/

/-- **C102** Cars: after every loading, computing travel times, dissipation times and gradients succeeds for all
starts in the loading and every threshold, and the gradients are the records of `Data.records`, for the travel times,
dissipation times, departures and last valid times of cars. -/
theorem C102_cars {e : Ltg.Env V} {ins outs : Bool → ℤ → List (ℕ × ℕ)} {f : Bool → ℤ → ℕ} {k : ℤ → MLnk.Link V}
    {q : ℤ → MQuery.Link} {s : Ltg.State} (h : Ltg.Ready e ins outs f k q s) (hT : e.q.T < 10000) (hσ : 0 < e.scalar)
    (hp : GoodPaths e k) (thr : ℤ) {starts : List ℕ} (hs : ∀ x ∈ starts, x < e.q.T) :
    ∃ s1 s2 D, Ltg.build e s = .ok s1 ∧ Ltg.dissipated e s1 = .ok s2 ∧
      (∀ l ∈ e.q.ids, Says e.q.T e.q.unit e.scalar false D (k l) (ins false l) l ∧ D.f l = f false l ∧
        D.outs l = outs false l ∧ ValidUntil e.q.T (ins false l) (outs false l) (D.L l)) ∧
      ltg e s2 false thr (starts.map fun x : ℕ => (x : ℤ)) =
        .ok (D.records e.q.T e.q.unit e.scalar thr e.q.reg e.paths starts) := by
  obtain ⟨s1, s2, h1, h2, h3⟩ := tables_done h
  refine ⟨s1, s2, dataOf k f outs s2 false, h1, h2, fun l hl => ?_, ?_⟩
  · obtain ⟨a1, a2, _⟩ := h3 false l hl
    exact ⟨a1, rfl, rfl, a2⟩
  · refine ltg_eq (insOf := ins false) h.steps hT hσ h.scale thr starts hs fun p hpp => ?_
    obtain ⟨p1, p2, p3⟩ := hp p hpp
    refine ⟨fun l hl => ?_, fun l hl => ?_, p2⟩
    · obtain ⟨_, a2, a3⟩ := h3 false l (p1 l hl)
      obtain ⟨q', a4⟩ := a3 (validUntil_le a2).1 (validUntil_le a2).2
      exact ⟨_, q', a4⟩
    · obtain ⟨a1, _⟩ := h3 false l (p1 l (List.mem_of_mem_head? hl))
      exact a1.pq.2 (p3 l hl)

/-- **C102** Trucks (partial: the last valid times of cars are those of trucks on every link, since the code uses the last
valid times of cars for trucks, too).  As for cars. -/
theorem C102_trucks_partial {e : Ltg.Env V} {ins outs : Bool → ℤ → List (ℕ × ℕ)} {f : Bool → ℤ → ℕ}
    {k : ℤ → MLnk.Link V} {q : ℤ → MQuery.Link} {s : Ltg.State} (h : Ltg.Ready e ins outs f k q s) (hT : e.q.T < 10000)
    (hσ : 0 < e.scalar) (hp : GoodPaths e k) (thr : ℤ) {starts : List ℕ} (hs : ∀ x ∈ starts, x < e.q.T)
    (hv : ∀ l ∈ e.q.ids, ∀ L, ValidUntil e.q.T (ins false l) (outs false l) L → ValidUntil e.q.T (ins true l) (outs true l) L) :
    ∃ s1 s2 D, Ltg.build e s = .ok s1 ∧ Ltg.dissipated e s1 = .ok s2 ∧
      (∀ l ∈ e.q.ids, Says e.q.T e.q.unit e.scalar true D (k l) (ins true l) l ∧ D.f l = f true l ∧
        D.outs l = outs true l ∧ ValidUntil e.q.T (ins true l) (outs true l) (D.L l)) ∧
      ltg e s2 true thr (starts.map fun x : ℕ => (x : ℤ)) =
        .ok (D.records e.q.T e.q.unit e.scalar thr e.q.reg e.paths starts) := by
  obtain ⟨s1, s2, h1, h2, h3⟩ := tables_done h
  refine ⟨s1, s2, dataOf k f outs s2 true, h1, h2, fun l hl => ?_, ?_⟩
  · obtain ⟨a1, a2, _⟩ := h3 true l hl
    exact ⟨a1, rfl, rfl, hv l hl _ a2⟩
  · refine ltg_eq (insOf := ins true) h.steps hT hσ h.scale thr starts hs fun p hpp => ?_
    obtain ⟨p1, p2, p3⟩ := hp p hpp
    refine ⟨fun l hl => ?_, fun l hl => ?_, p2⟩
    · obtain ⟨_, a2, a3⟩ := h3 true l (p1 l hl)
      have a5 := validUntil_le (hv l (p1 l hl) _ a2)
      obtain ⟨q', a4⟩ := a3 a5.1 a5.2
      exact ⟨_, q', a4⟩
    · obtain ⟨a1, _⟩ := h3 true l (p1 l (List.mem_of_mem_head? hl))
      exact a1.pq.2 (p3 l hl)

/-- **C102** What every gradient for cars means: it is for a registered link on the path, and for an interval at or after
the start in which the travel time on the link exceeds the free-flow time; it is positive, and it is the time per
vehicle in which cars leave the link in some consecutive intervals of the loading: times their mean flow, it is the
length of an interval. -/
theorem C102_sound {e : Ltg.Env V} {ins outs : Bool → ℤ → List (ℕ × ℕ)} {f : Bool → ℤ → ℕ} {k : ℤ → MLnk.Link V}
    {q : ℤ → MQuery.Link} {s s1 s2 : Ltg.State} {starts : List ℕ} {recs : List Rec} {thr : ℤ}
    (h : Ltg.Ready e ins outs f k q s) (hT : e.q.T < 10000) (hσ : 0 < e.scalar) (hu : 0 < e.q.unit) (hp : GoodPaths e k)
    (hs : ∀ x ∈ starts, x < e.q.T) (h1 : Ltg.build e s = .ok s1) (h2 : Ltg.dissipated e s1 = .ok s2)
    (h3 : ltg e s2 false thr (starts.map fun x : ℕ => (x : ℤ)) = .ok recs) {r : Rec} (hr : r ∈ recs) :
    r.link ∈ e.q.reg ∧ (∃ p ∈ e.paths, p.1 = r.path ∧ r.link ∈ p.2) ∧
      (∃ x ∈ starts, r.start = x ∧ ∃ t : ℕ, r.time = t ∧ x ≤ t ∧ t < e.q.T ∧ ∃ τ,
        LinkTime e.q.T (ins false r.link) (outs false r.link) (f false r.link) (t + 1) τ ∧ (f false r.link : ℚ) < τ) ∧
      0 < r.gradient ∧ ∃ a z : ℕ, a < z ∧ z < e.q.T ∧
        r.gradient * (((upTo (outs false r.link) (z + 1) : ℚ) - upTo (outs false r.link) a) / e.scalar / (z + 1 - a)) =
          e.q.unit := by
  obtain ⟨s1', s2', D, g1, g2, g3, g4⟩ := C102_cars h hT hσ hp thr hs
  rw [h1] at g1; cases g1
  rw [h2] at g2; cases g2
  rw [h3] at g4
  have g4 := Res.ok.inj g4
  subst g4
  have hok : ∀ l ∈ e.q.ids, ∃ limit, LinkOk e.q.T D (ins false l) limit l := fun l hl => by
    obtain ⟨a1, a2, a3, a4⟩ := g3 l hl
    have := validUntil_le a4
    rw [← a3] at this
    exact ⟨_, a1.times, a1.diss, this⟩
  -- the visits are of links of the path, at or after the start
  have vis : ∀ (ls : List ℤ) (x t u : ℕ) (v : ℤ × ℕ), (∀ l ∈ ls, l ∈ e.q.ids) → x ≤ t →
      ((∀ l, ls.head? = some l → D.pq l = true) ∨ x ≤ u) → v ∈ D.visits e.q.T thr t u ls →
      v.1 ∈ ls ∧ x ≤ v.2 ∧ v.2 < D.L v.1 := by
    intro ls
    induction ls with
    | nil => intro x t u v _ _ _ hv; simp [Data.visits] at hv
    | cons l ls ih =>
      intro x t u v hl ht hu hv
      unfold Data.visits at hv
      set a := if D.pq l = true then t else u with ha
      have hxa : x ≤ a := by
        rw [ha]
        split
        · exact ht
        · rename_i c
          rcases hu with hu | hu
          · exact absurd (hu l (by simp)) c
          · exact hu
      simp only at hv
      split at hv
      · rename_i c
        rcases List.mem_cons.1 hv with rfl | hv
        · exact ⟨by simp, hxa, c.1⟩
        · obtain ⟨limit, ok⟩ := hok l (hl l (by simp))
          have haT : a < e.q.T := lt_of_lt_of_le c.1 ok.valid.1
          obtain ⟨b1, b2, b3⟩ := ih x _ _ v (fun y hy => hl y (by simp [hy])) (le_trans ht (by unfold Data.leave; omega))
            (Or.inr (by have := (ok.diss_ge haT).1; omega)) hv
          exact ⟨by simp [b1], b2, b3⟩
      · simp at hv
  unfold Data.records at hr
  rw [List.mem_flatMap] at hr
  obtain ⟨p, hpp, hr⟩ := hr
  split at hr
  swap
  · simp at hr
  rw [List.mem_flatMap] at hr
  obtain ⟨x, hx, hr⟩ := hr
  rw [List.mem_flatMap] at hr
  obtain ⟨v, hv, hr⟩ := hr
  obtain ⟨p1, p2, p3⟩ := hp p hpp
  obtain ⟨v1, v2, v3⟩ := vis p.2 x x 0 v p1 (le_refl _) (Or.inl fun l hl => (g3 l (p1 l (List.mem_of_mem_head? hl))).1.pq.2
    (p3 l hl)) hv
  obtain ⟨a1, a2, a3, a4⟩ := g3 v.1 (p1 _ v1)
  obtain ⟨limit, ok⟩ := hok v.1 (p1 _ v1)
  unfold Data.recsAt at hr
  split at hr
  swap
  · simp at hr
  rename_i c
  obtain ⟨c1, c2, c3, c4⟩ := c
  rw [List.mem_map] at hr
  obtain ⟨t, ht, rfl⟩ := hr
  rw [List.mem_range'_1] at ht
  have hvT : v.2 < e.q.T := lt_of_lt_of_le v3 ok.valid.1
  obtain ⟨d1, d2, _⟩ := ok.diss_cong hvT c2
  have htd : t < D.d v.1 v.2 ∧ t < D.L v.1 := by
    have := min_le_left (D.d v.1 v.2) (D.L v.1)
    have := min_le_right (D.d v.1 v.2) (D.L v.1)
    omega
  have htT : t < e.q.T := lt_of_lt_of_le htd.2 ok.valid.1
  have hcg := d2 t ht.1 htd.1 htT
  have hz : D.lastOut e.q.T v.1 v.2 ≤ e.q.T - 1 := by unfold Data.lastOut; exact min_le_left _ _
  have hleft : upTo (D.outs v.1) (D.leave e.q.T v.1 v.2) ≤ upTo (D.outs v.1) (D.lastOut e.q.T v.1 v.2 + 1) := by
    unfold Data.left at c4
    omega
  have hden : (0 : ℚ) < (D.lastOut e.q.T v.1 v.2 : ℚ) + 1 - D.leave e.q.T v.1 v.2 := by
    have : (D.leave e.q.T v.1 v.2 : ℚ) < D.lastOut e.q.T v.1 v.2 := by exact_mod_cast c3
    linarith
  have hrate : 0 < D.rate e.scalar v.1 (D.leave e.q.T v.1 v.2) (D.lastOut e.q.T v.1 v.2) := by
    unfold Data.rate
    have : (0 : ℚ) < D.left v.1 (D.leave e.q.T v.1 v.2) (D.lastOut e.q.T v.1 v.2) := by exact_mod_cast c4
    positivity
  refine ⟨c1, ⟨p, hpp, rfl, v1⟩, ⟨x, hx, rfl, t, rfl, le_trans v2 ht.1, htT, D.τ v.1 t, ?_, ?_⟩, by positivity,
    D.leave e.q.T v.1 v.2, D.lastOut e.q.T v.1 v.2, c3, by omega, ?_⟩
  · have := a1.times t htT
    rw [a2, a3] at this
    exact this
  · rw [← a2]; exact hcg
  · rw [← a3]
    have e1 : ((upTo (D.outs v.1) (D.lastOut e.q.T v.1 v.2 + 1) : ℚ) - upTo (D.outs v.1) (D.leave e.q.T v.1 v.2)) /
        e.scalar / (D.lastOut e.q.T v.1 v.2 + 1 - D.leave e.q.T v.1 v.2) =
        D.rate e.scalar v.1 (D.leave e.q.T v.1 v.2) (D.lastOut e.q.T v.1 v.2) := by
      unfold Data.rate Data.left
      rw [Nat.cast_sub hleft]
    rw [e1]
    exact div_mul_cancel₀ _ (ne_of_gt hrate)

/-- **C102** Cars: a start at or after the end of the loading is refused, if a path has a registered link. -/
theorem C102_late {e : Ltg.Env V} {ins outs : Bool → ℤ → List (ℕ × ℕ)} {f : Bool → ℤ → ℕ} {k : ℤ → MLnk.Link V}
    {q : ℤ → MQuery.Link} {s s1 s2 : Ltg.State} {starts : List ℕ} {thr : ℤ}
    (h : Ltg.Ready e ins outs f k q s) (hT : e.q.T < 10000) (hσ : 0 < e.scalar) (hp : GoodPaths e k)
    (hs : ∃ x ∈ starts, e.q.T ≤ x) (hreg : ∃ p ∈ e.paths, ∃ l ∈ e.q.reg, l ∈ p.2) (h1 : Ltg.build e s = .ok s1)
    (h2 : Ltg.dissipated e s1 = .ok s2) :
    ltg e s2 false thr (starts.map fun x : ℕ => (x : ℤ)) = .throw
      "Error, Mcdta::get_car_ltg_matrix_driving, input start intervals exceeds the total loading intervals - 1" :=
  collect_late (em' := recsFor) (fun _ _ _ _ _ _ => rfl) _ h hT hσ hp hs hreg h1 h2

/-! ## Examples -/

/-- The links of the examples, in intervals of 5 seconds: a point queue that takes one interval, and a cell-transmission
link of two cells that takes cars two intervals and trucks four. -/
def gxKind (l : ℤ) : Option (MLnk.Link ℕ) :=
  match (if l = 1 then MLnk.mkLink .pq ⟨1, 50, 1 / 10, 1 / 20, 2 / 5, 1 / 5, 10, 5, 5, 2, 1⟩
    else MLnk.mkLink .ctm ⟨1, 100, 1 / 10, 1 / 20, 2 / 5, 1 / 5, 10, 5, 5, 2, 1⟩) with
  | .ok k => some k
  | _ => none

/-- Their free-flow times. -/
def gxF (b : Bool) (l : ℤ) : ℕ := if l = 1 then 1 else if b then 4 else 2

/-- Twelve intervals; both links are registered, and there is one path. -/
def gxEnv : Ltg.Env ℕ := ⟨⟨12, 5, 1, [1, 2], [[1, 2]], [1, 2]⟩, 1, gxKind, [(7, [1, 2])]⟩

/-- The curve for a history. -/
def gxCurve (h : List (ℕ × ℕ)) : Curve :=
  match Res.foldlM addIncrement install (flows 1 h) with
  | .ok c => c
  | _ => []

/-- The links after a loading with the given histories. -/
def gxLink (ins outs : Bool → ℤ → List (ℕ × ℕ)) (l : ℤ) : MQuery.Link :=
  ⟨fun b => ⟨gxCurve (ins b l), gxCurve (outs b l), -1, gxF b l⟩, 100, fun b => byClass b 10 5, fun _ => 0⟩

/-- The state after a loading with the given histories. -/
def gxState (ins outs : Bool → ℤ → List (ℕ × ℕ)) : Ltg.State :=
  ⟨⟨fun l => if l = 1 ∨ l = 2 then some (gxLink ins outs l) else none, fun _ _ => none, fun _ _ => none⟩,
    fun _ _ => none, fun _ _ => none⟩

theorem gxPq : ∃ m : MLnk.Pq ℕ, gxKind 1 = some (.pq m) ∧ m.maxStamp = 1 := by
  have h : (match gxKind 1 with
      | some (.pq m) => some m.maxStamp
      | _ => none) = some 1 := by decide +kernel
  revert h
  cases hm : gxKind 1 with
  | some l =>
    cases l with
    | pq m => intro h; exact ⟨m, rfl, Option.some.inj h⟩
    | _ => intro h; cases h
  | _ => intro h; cases h

theorem gxCtm : ∃ m : MLnk.Ctm ℕ, gxKind 2 = some (.ctm m) ∧ m.numCells = 2 ∧ m.args.ffsCar = 10 ∧ m.args.ffsTruck = 5 ∧
    ∃ c, m.cells.getLast? = some c ∧ c.dia.capCar = 2 / 5 ∧ c.dia.capTruck = 1 / 5 := by
  have h : (match gxKind 2 with
      | some (.ctm m) => some (m.numCells, m.args.ffsCar, m.args.ffsTruck,
          m.cells.getLast?.map fun c : MLnk.Cell ℕ => (c.dia.capCar, c.dia.capTruck))
      | _ => none) = some (2, 10, 5, some (2 / 5, 1 / 5)) := by decide +kernel
  revert h
  cases hm : gxKind 2 with
  | some l =>
    cases l with
    | ctm m =>
      intro h
      have h := Option.some.inj h
      simp only [Prod.mk.injEq, Option.map_eq_some_iff] at h
      obtain ⟨h1, h2, h3, c, h4, h5⟩ := h
      exact ⟨m, rfl, h1, h2, h3, c, h4, h5⟩
    | _ => intro h; cases h
  | _ => intro h; cases h

/-- The links of the examples, once they are known to exist. -/
def gxK (m1 : MLnk.Pq ℕ) (m2 : MLnk.Ctm ℕ) (l : ℤ) : MLnk.Link ℕ := if l = 1 then .pq m1 else .ctm m2

/-- Every pair of histories meets the hypotheses. -/
theorem gxReady {ins outs : Bool → ℤ → List (ℕ × ℕ)} (h : ∀ b, ∀ l ∈ ([1, 2] : List ℤ), History 12 (ins b l) ∧
    History 12 (outs b l) ∧ upTo (outs b l) 12 ≤ upTo (ins b l) 12 ∧ upTo (ins b l) 12 < 10000) :
    ∃ m1 m2, Ltg.Ready gxEnv ins outs gxF (gxK m1 m2) (gxLink ins outs) (gxState ins outs) ∧ GoodPaths gxEnv (gxK m1 m2) := by
  obtain ⟨m1, a1, a2⟩ := gxPq
  obtain ⟨m2, b1, b2, b3, b4, c, b5, b6, b7⟩ := gxCtm
  have hc : ∀ hh, History 12 hh → Res.foldlM addIncrement install (flows 1 hh) = .ok (gxCurve hh) := by
    intro hh hH
    obtain ⟨cc, h1, _⟩ := run_holds (σ := 1) (by norm_num) (T := 12) (by norm_num) hH
    unfold gxCurve
    rw [h1]
  refine ⟨m1, m2, ⟨by decide, fun l hl => ?_, fun b l => ⟨rfl, rfl⟩, fun _ _ => rfl, fun _ _ => rfl, by decide,
    fun l hl => ?_, fun l hl b => ?_, by norm_num [gxEnv]⟩, fun p hp => ?_⟩
  · have hl' : l = 1 ∨ l = 2 := by simpa [gxEnv] using hl
    refine ⟨by simp [gxState, hl'], fun b => ?_⟩
    obtain ⟨h1, h2, h3, h4⟩ := h b l (by simpa using hl')
    exact ⟨by norm_num [gxEnv], by norm_num [gxEnv], h1, h2, h3, h4, hc _ h1, hc _ h2, rfl, by simp [gxLink]⟩
  · have hl' : l = 1 ∨ l = 2 := by simpa [gxEnv] using hl
    rcases hl' with rfl | rfl
    · exact ⟨a1, fun b => Or.inl ⟨m1, rfl⟩⟩
    · refine ⟨b1, fun b => Or.inr ⟨m2, c, rfl, b5, ?_⟩⟩
      cases b <;> rw [b6, b7] <;> norm_num [gxEnv]
  · have hl' : l = 1 ∨ l = 2 := by simpa [gxEnv] using hl
    rcases hl' with rfl | rfl
    · refine ⟨?_, rfl, by norm_num [gxF]⟩
      show Res.ok m1.maxStamp = _
      rw [a2]; rfl
    · refine ⟨?_, rfl, by cases b <;> norm_num [gxF]⟩
      cases b
      · show Res.ok m2.numCells = _
        rw [b2]; rfl
      · show Ults.toInt (m2.numCells * m2.args.ffsCar / m2.args.ffsTruck) = _
        rw [b2, b3, b4]
        decide +kernel
  · have : p = (7, [1, 2]) := by simpa [gxEnv] using hp
    subst this
    refine ⟨by simp [gxEnv], by norm_num, fun l hl => ?_⟩
    have : l = 1 := by simpa using hl.symm
    subst this
    exact ⟨m1, rfl⟩

/-- Four cars use both links and a fifth the second one; both are congested; two trucks use the point queue, and only one leaves it. -/
def gxIns (b : Bool) (l : ℤ) : List (ℕ × ℕ) :=
  if b then (if l = 1 then [(1, 1), (2, 1)] else []) else if l = 1 then [(1, 2), (2, 2)]
    else [(2, 1), (3, 1), (4, 1), (5, 1), (6, 1)]

def gxOuts (b : Bool) (l : ℤ) : List (ℕ × ℕ) :=
  if b then (if l = 1 then [(9, 1)] else []) else if l = 1 then [(2, 1), (3, 1), (4, 1), (5, 1)]
    else [(4, 1), (6, 1), (8, 1), (10, 1), (11, 1)]

/-- The gradients of the example. -/
def gxRun (ins outs : Bool → ℤ → List (ℕ × ℕ)) (b : Bool) (starts : List ℤ) : Res (List Rec) :=
  (Ltg.build gxEnv (gxState ins outs)).bind fun s1 => (Ltg.dissipated gxEnv s1).bind fun s2 => ltg gxEnv s2 b 1000 starts

/-- The example meets the hypotheses. -/
theorem gxExample : ∃ m1 m2, Ltg.Ready gxEnv gxIns gxOuts gxF (gxK m1 m2) (gxLink gxIns gxOuts) (gxState gxIns gxOuts) ∧
    GoodPaths gxEnv (gxK m1 m2) := by
  refine gxReady fun b l hl => ?_
  simp only [List.mem_cons, List.not_mem_nil, or_false] at hl
  unfold History
  rcases hl with rfl | rfl <;> cases b <;> decide

/-- A car that starts in interval 0 delays those that enter the point queue until interval 3, and those that enter the
other link in the intervals 4 to 7, by 5 seconds each; one that starts in interval 1 only the latter. -/
example : gxRun gxIns gxOuts false [0, 1] = .ok ([(0, 1, 0), (0, 1, 1), (0, 1, 2), (0, 2, 4), (0, 2, 5), (0, 2, 6), (0, 2, 7),
    (1, 2, 4), (1, 2, 5), (1, 2, 6), (1, 2, 7)].map fun x : ℤ × ℤ × ℤ => ⟨7, x.1, x.2.1, x.2.2, 5⟩) := by
  decide +kernel

/-- If trucks have the histories of cars, the hypotheses for trucks are met, and there is something to report. -/
example : (∃ m1 m2, Ltg.Ready gxEnv (fun _ => gxIns false) (fun _ => gxOuts false) gxF (gxK m1 m2)
      (gxLink (fun _ => gxIns false) fun _ => gxOuts false) (gxState (fun _ => gxIns false) fun _ => gxOuts false) ∧
    GoodPaths gxEnv (gxK m1 m2)) ∧
    gxRun (fun _ => gxIns false) (fun _ => gxOuts false) true [0] = .ok [⟨7, 0, 1, 0, 5⟩, ⟨7, 0, 1, 1, 5⟩, ⟨7, 0, 1, 2, 5⟩,
      ⟨7, 0, 2, 4, 5⟩, ⟨7, 0, 2, 5, 5⟩] := by
  refine ⟨gxReady fun b l hl => ?_, by decide +kernel⟩
  simp only [List.mem_cons, List.not_mem_nil, or_false] at hl
  unfold History
  rcases hl with rfl | rfl <;> decide

/-- **C102** For trucks the full claim is false: in the example no truck is known to leave the point queue that enters
after the first interval, so that there is nothing to report for a start in interval 9; the code goes on, since the cars
have all left, and gives up with an exception. -/
theorem C102_trucks_invalid_state : ∃ m1 m2,
    Ltg.Ready gxEnv gxIns gxOuts gxF (gxK m1 m2) (gxLink gxIns gxOuts) (gxState gxIns gxOuts) ∧
    GoodPaths gxEnv (gxK m1 m2) ∧ gxRun gxIns gxOuts true [9] = .throw "invalid state" ∧
    ∀ D, (∀ l ∈ gxEnv.q.ids, Says 12 5 1 true D (gxK m1 m2 l) (gxIns true l) l ∧ D.f l = gxF true l ∧
        D.outs l = gxOuts true l ∧ ValidUntil 12 (gxIns true l) (gxOuts true l) (D.L l)) →
      D.records 12 5 1 1000 gxEnv.q.reg gxEnv.paths [9] = [] := by
  obtain ⟨m1, m2, h1, h2⟩ := gxExample
  refine ⟨m1, m2, h1, h2, by decide +kernel, fun D hD => ?_⟩
  obtain ⟨a1, _, _, a4⟩ := hD 1 (by decide)
  have hpq : D.pq 1 = true := a1.pq.2 ⟨m1, rfl⟩
  have hL : D.L 1 ≤ 1 := by
    rcases a4 with ⟨h, _⟩ | ⟨_, h⟩
    · exact absurd h (by decide)
    · obtain ⟨⟨h3, h4⟩, _⟩ := h
      by_contra hc
      have key : ∀ L ≤ 12, ¬ L ≤ 1 → ¬ upTo (gxIns true 1) L ≤ upTo (gxOuts true 1) 12 := by decide
      exact key _ h3 hc h4
  have hv : D.visits 12 1000 9 0 [1, 2] = [] := by
    unfold Data.visits
    rw [hpq]
    simp only [if_true]
    rw [if_neg (by omega)]
  show Data.records D 12 5 1 1000 [1, 2] [(7, [1, 2])] [9] = []
  unfold Data.records
  simp [hv]

end Verif

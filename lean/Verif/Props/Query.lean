import Verif.Lemmas.Query
import Verif.Props.ShortestPath

/-!
# Queries after a loading (C90–C92)

`tripTime`, `tripCost` and `Table` are in `Verif.Spec.Query`, `LinkTime` and `Loaded` in `Verif.Spec.TravelTime`.
-/

namespace Verif

open Curve Tt Query

/-! ## C90 -/

/-- **C90** `get_path_tt`: for every table of travel times and costs, every sequence of known links and all departure
intervals within the loading, the first row of the result holds the duration of the trip, each link taking the time
of the interval in which it is entered, and the second row its cost. -/
theorem C90_get_path_tt {known : ℤ → Bool} {tt cost : Tabs} {T : ℕ} {unit : ℚ} {links : List ℤ} {starts : List ℕ}
    {τ w : ℤ → ℕ → ℚ} (hk : ∀ l ∈ links, known l = true) (htt : Table tt T links τ) (hcost : Table cost T links w)
    (hs : ∀ s ∈ starts, s < T) (hr : ∀ l ∈ links, ∀ t < T, τ l t ≤ 2147483646)
    (hb : ∀ s ∈ starts, s + tripTime T τ s links ≤ 2147483647) :
    ∃ a, getPathTt known tt cost T unit links (starts.map fun s : ℕ => (s : ℤ)) = .ok a ∧
      ∀ m (hm : m < starts.length),
        a m = some ((tripTime T τ starts[m] links * unit : ℚ) : WithTop ℚ) ∧
        a (starts.length + m) = some ((tripCost T τ w starts[m] links : ℚ) : WithTop ℚ) := by
  obtain ⟨a, h1, h2, _, _⟩ := pathTtLoop_eq (unit := unit) starts.length
    (fun s hs => checkStart_ok (name := "get_path_tt") hs) htt hcost hr starts 0 (fun _ => none)
    (by omega) hs hb
  refine ⟨a, ?_, fun m hm => by simpa using h2 m hm⟩
  unfold getPathTt
  rw [if_pos (List.all_eq_true.2 hk), List.length_map, h1]

/-- **C90** `get_registered_path_tt`: row by row, the durations of the trips along the registered paths. -/
theorem C90_registered_path_tt {tt : Tabs} {T : ℕ} {unit : ℚ} {paths : List (List ℤ)} {starts : List ℕ}
    {τ : ℤ → ℕ → ℚ} (htt : ∀ p ∈ paths, Table tt T p τ) (hs : ∀ s ∈ starts, s < T)
    (hr : ∀ p ∈ paths, ∀ l ∈ p, ∀ t < T, τ l t ≤ 2147483646)
    (hb : ∀ p ∈ paths, ∀ s ∈ starts, s + tripTime T τ s p ≤ 2147483647) :
    ∃ a ps, getRegisteredPathTt tt T unit (starts.map fun s : ℕ => (s : ℤ)) paths = .ok (a, ps) ∧
      ∀ m (hm : m < starts.length), ∀ k (hk : k < paths.length),
        a (k * starts.length + m) = some ((tripTime T τ starts[m] paths[k] * unit : ℚ) : WithTop ℚ) := by
  obtain ⟨a, ps, h1, _, h3, _⟩ := fillLoop_eq (check := checkStart "get_registered_path_tt" (T : ℤ))
    (f := regOne tt T unit) (l := (starts.map fun s : ℕ => (s : ℤ)).length) (R := fun a b => a = b)
    (V := fun s k v => ∀ hk : k < paths.length, v = ((tripTime T τ s.toNat paths[k] * unit : ℚ) : WithTop ℚ)) paths
    (fun a b c h h' => h.trans h') (starts.map fun s : ℕ => (s : ℤ)) 0 paths (fun _ => none) (by simp)
    (List.forall₂_same.2 fun _ _ => rfl) (fun s hs' => by
      obtain ⟨n, hn, rfl⟩ := List.mem_map.1 hs'
      exact checkStart_ok (hs n hn)) (fun s hs' qs hqs k hk => by
      obtain ⟨n, hn, rfl⟩ := List.mem_map.1 hs'
      have e : paths = qs := List.forall₂_eq_eq_eq ▸ hqs
      subst e
      have hp : paths[k] ∈ paths := List.getElem_mem hk
      refine ⟨((tripTime T τ n paths[k] * unit : ℚ) : WithTop ℚ), paths[k], ?_, rfl, fun _ => by simp⟩
      unfold regOne
      rw [pathTime_eq (by have := hs n hn; omega) (htt _ hp) (hr _ hp) (hb _ hp n hn), Res.bind_ok']
      simp)
  refine ⟨a, ps, h1, fun m hm k hk => ?_⟩
  obtain ⟨v, e1, e2⟩ := h3 m (by simpa using hm) k hk
  rw [List.length_map, Nat.zero_add] at e1
  rw [e1, e2 hk]
  simp

/-- **C90** The tables that the durations are taken from: after a loading of `T` intervals `build_link_cost_map` fills
them, for every link and every interval `t < T`, with the travel time reported for entering in that interval (C89),
which in the curves is number `t + 1`, and with its cost. -/
theorem C90_tables {σ vot : ℚ} {T : ℕ} {ins outs : ℤ → List (ℕ × ℕ)} {q : ℤ → QLink} {ids : List ℤ} {s : Built}
    (hnd : ids.Nodup) (hL : ∀ l ∈ ids, Loaded σ T (ins l) (outs l) (q l).cc) (hn : ∀ l ∈ ids, s.net l = some (q l))
    (htt : ∀ l ∈ ids, ∀ xs, s.tt l = some xs → T ≤ xs.length)
    (hcost : ∀ l ∈ ids, ∀ xs, s.cost l = some xs → T ≤ xs.length) :
    ∃ s' τ, build T vot s ids = .ok s' ∧ Table s'.tt T ids τ ∧
      Table s'.cost T ids (fun l t => vot * τ l t + (q l).toll) ∧
      ∀ l ∈ ids, ∀ t < T, LinkTime T (ins l) (outs l) (q l).cc.fftt (t + 1) (τ l t) := by
  obtain ⟨s', h1, h2, _⟩ := build_eq (vot := vot) (q0 := q) ids s hnd hL
    (fun l hl => ⟨q l, hn l hl, Same.refl (hL l hl), rfl⟩) htt hcost
  have key : ∀ l, ∃ f : ℕ → ℚ, l ∈ ids → ∃ xs ys, s'.tt l = some xs ∧ s'.cost l = some ys ∧
      ∀ t < T, xs[t]? = some (f t) ∧ LinkTime T (ins l) (outs l) (q l).cc.fftt (t + 1) (f t) ∧
        ys[t]? = some (vot * f t + (q l).toll) := by
    intro l
    by_cases hl : l ∈ ids
    · obtain ⟨xs, ys, e1, e2, e3⟩ := h2 l hl
      refine ⟨fun t => (xs[t]?).getD 0, fun _ => ⟨xs, ys, e1, e2, fun t ht => ?_⟩⟩
      obtain ⟨r, f1, f2, f3⟩ := e3 t ht
      simp only [f1, Option.getD_some]
      exact ⟨trivial, f2, f3⟩
    · exact ⟨fun _ => 0, fun h => absurd h hl⟩
  choose τ hτ using key
  refine ⟨s', τ, h1, fun l hl => ?_, fun l hl => ?_, fun l hl t ht => ?_⟩
  · obtain ⟨xs, ys, e1, e2, e3⟩ := hτ l hl
    exact ⟨xs, e1, fun t ht => (e3 t ht).1⟩
  · obtain ⟨xs, ys, e1, e2, e3⟩ := hτ l hl
    exact ⟨ys, e2, fun t ht => (e3 t ht).2.2⟩
  · obtain ⟨xs, ys, e1, e2, e3⟩ := hτ l hl
    exact (e3 t ht).2.1

/-- **C90** The function that reads the curves instead of the tables gives the same duration. -/
theorem C90_tables_and_curves_agree {σ : ℚ} {T : ℕ} (hT : 0 < T) {ins outs : ℤ → List (ℕ × ℕ)} {c : ℤ → LinkCc}
    {τ : ℤ → ℕ → ℚ} {tt : Tabs} {links : List ℤ} {start : ℕ}
    (hL : ∀ l ∈ links, Loaded σ T (ins l) (outs l) (c l))
    (hτ : ∀ l ∈ links, ∀ t < T, LinkTime T (ins l) (outs l) (c l).fftt (t + 1) (τ l t) ∧ τ l t ≤ 2147483646)
    (htt : Table tt T links τ) (hb : start + tripTime T τ start links ≤ 2147483647) :
    ∃ x net', pathTime tt T start links = .ok x ∧ pathTimeCc T (fun l => some (c l)) start links = .ok (x, net') := by
  obtain ⟨net', h⟩ := pathTimeCc_eq hT (c0 := c) links (fun l => some (c l)) start hL
    (fun l hl => ⟨c l, rfl, Same.refl (hL l hl)⟩) hτ hb
  refine ⟨tripTime T τ start links, net', pathTime_eq hT htt (fun l hl t ht => (hτ l hl t ht).2) hb, ?_⟩
  unfold pathTimeCc
  rw [h, Res.bind_ok']
  congr 2
  push_cast; ring

/-- **C90** Trips can be put together: the duration of a path is that of its first part plus that of the rest, when
one departs on the rest at the time the first part ends. -/
theorem C90_join {tt : Tabs} {T : ℕ} (hT : 0 < T) {τ : ℤ → ℕ → ℚ} {p q : List ℤ} {start : ℕ}
    (htt : Table tt T (p ++ q) τ) (hr : ∀ l ∈ p ++ q, ∀ t < T, τ l t ≤ 2147483646)
    (hb : start + tripTime T τ start (p ++ q) ≤ 2147483647) :
    ∃ x y : ℕ, pathTime tt T start p = .ok x ∧ pathTime tt T (start + x : ℕ) q = .ok y ∧
      pathTime tt T start (p ++ q) = .ok ((x + y : ℕ) : ℤ) := by
  rw [tripTime_append] at hb
  refine ⟨tripTime T τ start p, tripTime T τ (start + tripTime T τ start p) q, ?_, ?_, ?_⟩
  · exact pathTime_eq hT (fun l hl => htt l (by simp [hl])) (fun l hl => hr l (by simp [hl])) (by omega)
  · exact pathTime_eq hT (fun l hl => htt l (by simp [hl])) (fun l hl => hr l (by simp [hl])) (by omega)
  · rw [← tripTime_append]
    exact pathTime_eq hT htt hr (by rw [tripTime_append]; omega)

/-- **C90** No path is reported to take less than the sum of the free-flow times `f` of its links, nor less than one
interval per link. -/
theorem C90_not_below_free_flow {tt : Tabs} {T : ℕ} (hT : 0 < T) {τ : ℤ → ℕ → ℚ} {links : List ℤ} {f : ℤ → ℕ}
    {start : ℕ} (htt : Table tt T links τ) (hr : ∀ l ∈ links, ∀ t < T, τ l t ≤ 2147483646)
    (hb : start + tripTime T τ start links ≤ 2147483647) (hf : ∀ l ∈ links, ∀ t < T, (f l : ℚ) ≤ τ l t) :
    ∃ x : ℕ, pathTime tt T start links = .ok x ∧ (links.map f).sum ≤ x ∧ links.length ≤ x := by
  exact ⟨_, pathTime_eq hT htt hr hb, tripTime_ge T τ f hT links start hf, length_le_tripTime T τ links start⟩

/-- **C90** Departures after the loading are refused. -/
theorem C90_late_departure {known : ℤ → Bool} {tt cost : Tabs} {T : ℕ} {unit : ℚ} {links : List ℤ} {starts : List ℕ}
    {τ w : ℤ → ℕ → ℚ} (hk : ∀ l ∈ links, known l = true) (htt : Table tt T links τ) (hcost : Table cost T links w)
    (hr : ∀ l ∈ links, ∀ t < T, τ l t ≤ 2147483646)
    (hb : ∀ s ∈ starts, s + tripTime T τ s links ≤ 2147483647) (hs : ∃ s ∈ starts, T ≤ s) :
    getPathTt known tt cost T unit links (starts.map fun s : ℕ => (s : ℤ)) =
      .throw "Error, Dta::get_path_tt, input start intervals exceeds the total loading intervals - 1" := by
  obtain ⟨pre, s, post, e, h1, h2⟩ := exists_first (fun s => T ≤ s) starts hs
  unfold getPathTt
  rw [if_pos (List.all_eq_true.2 hk), e, List.map_append, List.map_cons]
  rcases Nat.eq_zero_or_pos T with hT | hT
  · have hp : pre = [] := by
      rcases pre with _ | ⟨y, pre⟩
      · rfl
      · exact absurd (by omega) (h2 y (by simp))
    rw [hp, List.map_nil, List.nil_append, pathTtLoop]
    unfold checkStart
    rw [if_pos (by omega)]; rfl
  · exact pathTtLoop_late hT _ htt hcost hr h1 _ pre 0 _ (fun y hy => by have := h2 y hy; omega)
      (fun y hy => hb y (by rw [e]; simp [hy]))

/-- **C90** Outside of this range nothing is checked: a negative departure, and a query before the tables have been
built, are undefined for every path with a link. -/
theorem C90_unchecked (tt : Tabs) (T s : ℤ) (l : ℤ) (ls : List ℤ) :
    (s < 0 → s < T → pathTime tt T s (l :: ls) = .ub) ∧ pathTime (fun _ => none) T s (l :: ls) = .ub := by
  constructor
  · intro h1 h2
    have : readAt tt l (slot T s) = .ub := by
      unfold readAt slot
      rw [if_pos h2]
      cases tt l with
      | none => rfl
      | some xs => simp only [h1, if_true]
    unfold pathTime
    rw [Res.foldlM_cons]
    unfold timeStep
    rw [this]; rfl
  · rfl

/-- **C90** Building the tables again after a longer loading writes past the end of the arrays of the first time. -/
theorem C90_rebuild_overflow {σ vot : ℚ} {T : ℕ} {ins outs : List (ℕ × ℕ)} {q : QLink} {l : ℤ} {ids : List ℤ}
    {s : Built} {xs : List ℚ} (hL : Loaded σ T ins outs q.cc) (hn : s.net l = some q) (hx : s.tt l = some xs)
    (hlen : xs.length < T) : build T vot s (l :: ids) = .ub := by
  obtain ⟨row, cc', a1, a2, a3, a4⟩ := ttRow_range hL (Same.refl hL)
  have : buildOne T vot s l = .ub := by
    unfold buildOne
    rw [hn]
    show (ttRow T q.cc (List.range T)).bind _ = _
    rw [a1, Res.bind_ok']
    have : store s.tt l row = .ub := by
      unfold store
      rw [hx]
      show (if row.length ≤ xs.length then _ else Res.ub) = _
      rw [if_neg (by omega)]
    rw [this]; rfl
  unfold build
  rw [Res.foldlM_cons, this]; rfl

/-- **C90** The value of time in these costs: by the routing type, it is the money for an hour of 3600 seconds, or for a
second, for the `unit` seconds of each interval; other routing types are refused. -/
theorem C90_value_of_time (due hybrid unit x : ℚ) :
    (∃ v, votOf "Due" due hybrid unit = .ok v ∧ 3600 * (v * x) = due * (x * unit)) ∧
    (∃ v, votOf "Hybrid" due hybrid unit = .ok v ∧ v * x = hybrid * (x * unit)) ∧
    ∀ r, r ≠ "Due" → r ≠ "Hybrid" → votOf r due hybrid unit = .throw "unsupported routing type" := by
  refine ⟨⟨_, rfl, by ring⟩, ⟨hybrid * unit, by unfold votOf; rw [if_neg (by decide), if_pos rfl], by ring⟩, fun r h1 h2 => ?_⟩
  unfold votOf
  rw [if_neg h1, if_neg h2]

/-- The tables of the example: two links, four intervals. -/
def qTt : Tabs := fun l => if l = 1 then some [1, 2, 1, 1] else if l = 2 then some [3, 3, 5 / 2, 1] else none

/-- Costs of the example. -/
def qCost : Tabs := fun l => if l = 1 then some [1, 4, 1, 1] else if l = 2 then some [3, 3, 7, 9] else none

example : Table qTt 4 [1, 2] (fun l t => ((qTt l).getD []).getD t 0) := by
  intro l hl
  rcases List.mem_cons.1 hl with rfl | hl
  · exact ⟨_, rfl, by decide +kernel⟩
  · rw [List.mem_singleton.1 hl]
    exact ⟨_, rfl, by decide +kernel⟩

/-- Departures in the intervals 0, 1 and 3: the second link is entered in the intervals 1, 3 and 4, the latter
counted as 3. -/
example : ((getPathTt (fun _ => true) qTt qCost 4 5 [1, 2] [0, 1, 3]).bind fun a =>
    .ok ((List.range 6).map a)) =
    .ok [some ((20 : ℚ) : WithTop ℚ), some ((15 : ℚ) : WithTop ℚ), some ((10 : ℚ) : WithTop ℚ), some ((4 : ℚ) : WithTop ℚ),
      some ((13 : ℚ) : WithTop ℚ), some ((10 : ℚ) : WithTop ℚ)] := by
  decide +kernel

/-- Hypotheses of the theorems about loadings are met by a loading of 10 intervals. -/
theorem qLoaded : ∃ cc, Loaded 2 10 [(1, 2), (3, 1)] [(4, 1), (6, 1), (9, 1)] cc ∧ cc.fftt = 2 := by
  obtain ⟨cin, h1, _⟩ := run_holds (σ := 2) (by norm_num) (T := 10) (by norm_num)
    (h := [(1, 2), (3, 1)]) (by unfold History; decide)
  obtain ⟨cout, h2, _⟩ := run_holds (σ := 2) (by norm_num) (T := 10) (by norm_num)
    (h := [(4, 1), (6, 1), (9, 1)]) (by unfold History; decide)
  exact ⟨⟨cin, cout, -1, 2⟩, ⟨by norm_num, by norm_num, by unfold History; decide, by unfold History; decide,
    by decide, by decide, h1, h2, rfl, by norm_num⟩, rfl⟩

/-- The table built for that link: the first vehicles enter in interval 0. -/
example : (do
    let cin ← Res.foldlM addIncrement install (flows 2 [(1, 2), (3, 1)])
    let cout ← Res.foldlM addIncrement install (flows 2 [(4, 1), (6, 1), (9, 1)])
    let b ← build 10 3 ⟨fun _ => none, fun _ => none, fun _ => some ⟨⟨cin, cout, -1, 2⟩, 1, 1, 1⟩⟩ [7]
    return (b.tt 7, b.cost 8) : Res (Option (List ℚ) × Option (List ℚ))) =
    .ok (some [5, 4, 6, 5, 4, 3, 2, 2, 2, 2], none) := by
  decide +kernel

/-! ## C91 -/

/-- **C91** `get_link_tt`: for every set of loaded links and all start intervals within the loading, the result has a
row per link and a column per start; the entry is the travel time reported for entering in that interval (C89) in
seconds, cut off at twenty times the free-flow time of the link (or replaced by infinity, if that is asked for). -/
theorem C91_link_tt {σ unit : ℚ} {T : ℕ} {inf : Bool} {links : List QLink} {ins outs : ℕ → List (ℕ × ℕ)}
    {starts : List ℕ} (hL : ∀ k (hk : k < links.length), Loaded σ T (ins k) (outs k) links[k].cc)
    (hs : ∀ s ∈ starts, s < T) :
    ∃ a links', getLinkTt T unit inf (starts.map fun s : ℕ => (s : ℤ)) links = .ok (a, links') ∧
      ∀ m (hm : m < starts.length), ∀ k (hk : k < links.length), ∃ r,
        LinkTime T (ins k) (outs k) links[k].cc.fftt (starts[m] + 1) r ∧
        a (k * starts.length + m) = some
          (if r * unit ≤ 20 * (links[k].length / links[k].ffs) then ((r * unit : ℚ) : WithTop ℚ)
           else if inf then ⊤ else ((20 * (links[k].length / links[k].ffs) : ℚ) : WithTop ℚ)) := by
  obtain ⟨a, ps, h1, _, h3, _⟩ := fillLoop_eq (check := checkStart "get_link_tt" (T : ℤ))
    (f := linkTtOne T unit inf) (l := (starts.map fun s : ℕ => (s : ℤ)).length) (R := QStep T)
    (V := fun s k v => ∀ hk : k < links.length, ∃ r, LinkTime T (ins k) (outs k) links[k].cc.fftt (s.toNat + 1) r ∧
      v = if r * unit ≤ 20 * (links[k].length / links[k].ffs) then ((r * unit : ℚ) : WithTop ℚ)
           else if inf then ⊤ else ((20 * (links[k].length / links[k].ffs) : ℚ) : WithTop ℚ)) links
    (fun a b c h h' => h.trans h') (starts.map fun s : ℕ => (s : ℤ)) 0 links (fun _ => none) (by simp)
    (List.forall₂_same.2 fun _ _ => ⟨rfl, rfl, fun _ h => h⟩) (fun s hs' => by
      obtain ⟨n, hn, rfl⟩ := List.mem_map.1 hs'
      exact checkStart_ok (hs n hn)) (fun s hs' qs hqs k hk => by
      obtain ⟨n, hn, rfl⟩ := List.mem_map.1 hs'
      obtain ⟨v, q', b1, b2, b3⟩ := linkTtOne_eq (unit := unit) (inf := inf) hL hqs n k hk
        (by rw [hqs.length_eq]; exact hk)
      exact ⟨v, q', b1, b2, fun _ => b3⟩)
  refine ⟨a, ps, h1, fun m hm k hk => ?_⟩
  obtain ⟨v, e1, e2⟩ := h3 m (by simpa using hm) k hk
  rw [List.length_map, Nat.zero_add] at e1
  obtain ⟨r, e3, e4⟩ := e2 hk
  refine ⟨r, by simpa using e3, ?_⟩
  rw [e1, e4]

/-- **C91** A start after the loading is refused. -/
theorem C91_link_tt_late {σ unit : ℚ} {T : ℕ} {inf : Bool} {links : List QLink} {ins outs : ℕ → List (ℕ × ℕ)}
    {starts : List ℕ} (hL : ∀ k (hk : k < links.length), Loaded σ T (ins k) (outs k) links[k].cc)
    (hs : ∃ s ∈ starts, T ≤ s) :
    getLinkTt T unit inf (starts.map fun s : ℕ => (s : ℤ)) links =
      .throw "Error, Dta::get_link_tt, input start intervals exceeds the total loading intervals - 1" := by
  obtain ⟨pre, s, post, e, h1, h2⟩ := exists_first (fun s => T ≤ s) starts hs
  unfold getLinkTt Query.fill
  rw [e, List.map_append, List.map_cons]
  refine fillLoop_throw (R := QStep T) links (fun a b c h h' => h.trans h') ?_ _ _ _ _
    (List.forall₂_same.2 fun _ _ => ⟨rfl, rfl, fun _ h => h⟩) ?_ ?_
  · unfold checkStart
    rw [if_pos (by omega)]; rfl
  · intro x hx
    obtain ⟨n, hn, rfl⟩ := List.mem_map.1 hx
    exact checkStart_ok (by have := h2 n hn; omega)
  · intro x hx qs hqs k hk
    obtain ⟨n, hn, rfl⟩ := List.mem_map.1 hx
    obtain ⟨v, q', b1, b2, _⟩ := linkTtOne_eq (unit := unit) (inf := inf) hL hqs n k hk
        (by rw [hqs.length_eq]; exact hk)
    exact ⟨v, q', b1, b2⟩

/-- **C96** `get_link_tt_robust` (partial: the number of samples divides the period into whole intervals, which is the
case if it is at least the length of the period): the entry for a link and a period is the mean of the travel times
reported for `n` evenly spaced intervals of the period, starting with its first, in seconds, and cut off like the
others. -/
theorem C96_average_partial {σ unit : ℚ} {T trials : ℕ} {inf : Bool} {links : List QLink}
    {ins outs : ℕ → List (ℕ × ℕ)} {periods : List (ℕ × ℕ)}
    (hL : ∀ k (hk : k < links.length), Loaded σ T (ins k) (outs k) links[k].cc) (htr : 0 < trials)
    (hs : ∀ p ∈ periods, p.1 < p.2 ∧ p.2 ≤ T) (hd : ∀ p ∈ periods, min trials (p.2 - p.1) ∣ p.2 - p.1) :
    ∃ a links', getLinkTtRobust T unit trials inf (periods.map fun p : ℕ × ℕ => ((p.1 : ℚ), (p.2 : ℚ))) links =
        .ok (a, links') ∧
      ∀ m (hm : m < periods.length), ∀ k (hk : k < links.length), ∃ n step rs,
        n = min trials (periods[m].2 - periods[m].1) ∧ n * step = periods[m].2 - periods[m].1 ∧
        List.Forall₂ (fun i r => LinkTime T (ins k) (outs k) links[k].cc.fftt (periods[m].1 + i * step + 1) r)
          (List.range n) rs ∧
        a (k * periods.length + m) = some (some
          (if rs.sum / n * unit ≤ 20 * (links[k].length / links[k].ffs) then ((rs.sum / n * unit : ℚ) : WithTop ℚ)
           else if inf then ⊤ else ((20 * (links[k].length / links[k].ffs) : ℚ) : WithTop ℚ))) := by
  obtain ⟨a, ps, h1, _, h3, _⟩ := fillLoop_eq (check := checkPeriod "get_link_tt_robust" (T : ℤ))
    (f := robustOne T unit trials inf) (l := (periods.map fun p : ℕ × ℕ => ((p.1 : ℚ), (p.2 : ℚ))).length) (R := QStep T)
    (V := fun p k v => ∀ hk : k < links.length, ∀ q : ℕ × ℕ, p = ((q.1 : ℚ), (q.2 : ℚ)) → ∃ n step rs,
      n = min trials (q.2 - q.1) ∧ n * step = q.2 - q.1 ∧
      List.Forall₂ (fun i r => LinkTime T (ins k) (outs k) links[k].cc.fftt (q.1 + 1 + i * step) r)
          (List.range n) rs ∧
      v = some (if rs.sum / n * unit ≤ 20 * (links[k].length / links[k].ffs) then ((rs.sum / n * unit : ℚ) : WithTop ℚ)
           else if inf then ⊤ else ((20 * (links[k].length / links[k].ffs) : ℚ) : WithTop ℚ))) links
    (fun a b c h h' => h.trans h') (periods.map fun p : ℕ × ℕ => ((p.1 : ℚ), (p.2 : ℚ))) 0 links (fun _ => none)
    (by simp) (List.forall₂_same.2 fun _ _ => ⟨rfl, rfl, fun _ h => h⟩) (fun s hs' => by
      obtain ⟨n, hn, rfl⟩ := List.mem_map.1 hs'
      exact checkPeriod_ok (hs n hn)) (fun s hs' qs hqs k hk => by
      obtain ⟨p, hp, rfl⟩ := List.mem_map.1 hs'
      obtain ⟨step, hst⟩ := hd p hp
      have hp1 := hs p hp
      have hk' : k < links.length := by rw [hqs.length_eq]; exact hk
      have hTi : T < 2147483648 := by have := (hL k hk').time; omega
      obtain ⟨v, q', b1, b2, rs, b3, b4⟩ := robustOne_eq (unit := unit) (inf := inf) (trials := trials) hTi hL hqs
        (n := min trials (p.2 - p.1)) (δ := step) (by omega) hp1 (by omega) rfl k hk hk'
      refine ⟨some v, q', b1, b2, fun _ q hq => ?_⟩
      have q1 : p.1 = q.1 := by exact_mod_cast (Prod.mk.inj hq).1
      have q2 : p.2 = q.2 := by exact_mod_cast (Prod.mk.inj hq).2
      rw [← q1, ← q2]
      exact ⟨_, step, rs, rfl, hst.symm, b3, by rw [b4]⟩)
  refine ⟨a, ps, h1, fun m hm k hk => ?_⟩
  obtain ⟨v, e1, e2⟩ := h3 m (by simpa using hm) k hk
  rw [List.length_map, Nat.zero_add] at e1
  obtain ⟨n, step, rs, c1, c2, c3, c4⟩ := e2 hk periods[m] (by simp)
  refine ⟨n, step, rs, c1, c2, ?_, by rw [e1, c4]⟩
  refine c3.imp fun i r h => ?_
  rw [show periods[m].1 + i * step + 1 = periods[m].1 + 1 + i * step by omega]
  exact h

/-- The travel times of the link of `qLoaded` at 20 queries between 0 and 4: 5, 4, 6, 5 intervals of 3 seconds. -/
example : (do
    let cin ← Res.foldlM addIncrement install (flows 2 [(1, 2), (3, 1)])
    let cout ← Res.foldlM addIncrement install (flows 2 [(4, 1), (6, 1), (9, 1)])
    let b ← getLinkTtRobust 10 3 20 false [(0, 4), (0, 2)] [⟨⟨cin, cout, -1, 2⟩, 10, 5, 1⟩]
    return (b.1 0, b.1 1) : Res (Option (Option (WithTop ℚ)) × Option (Option (WithTop ℚ)))) =
    .ok (some (some ((15 : ℚ) : WithTop ℚ)), some (some ((27 / 2 : ℚ) : WithTop ℚ))) := by
  decide +kernel

/-- **C91** `get_link_inflow`: the entry for a link and a period is the number of vehicles that entered the link after
the start and up to the end of the period, divided by the flow scalar. -/
theorem C91_link_inflow {σ : ℚ} (hσ : 0 < σ) {T : ℕ} (hT : T < 10000) {links : List Curve} {ins : ℕ → List (ℕ × ℕ)}
    {periods : List (ℕ × ℕ)} (hi : ∀ k < links.length, History T (ins k))
    (hL : ∀ k (hk : k < links.length), Res.foldlM addIncrement install (flows σ (ins k)) = .ok links[k])
    (hs : ∀ p ∈ periods, p.1 < p.2 ∧ p.2 ≤ T) :
    ∃ a links', getLinkInflow T (periods.map fun p : ℕ × ℕ => ((p.1 : ℚ), (p.2 : ℚ))) links = .ok (a, links') ∧
      ∀ m (hm : m < periods.length), ∀ k (hk : k < links.length),
        a (k * periods.length + m) =
          some (((upTo (ins k) periods[m].2 - upTo (ins k) periods[m].1) / σ : ℚ) : WithTop ℚ) := by
  obtain ⟨a, ps, h1, _, h3, _⟩ := fillLoop_eq (check := checkPeriod "get_link_inflow" (T : ℤ))
    (f := inflowOne) (l := (periods.map fun p : ℕ × ℕ => ((p.1 : ℚ), (p.2 : ℚ))).length) (R := fun a b => a = b)
    (V := fun p k v => ∀ q : ℕ × ℕ, p = ((q.1 : ℚ), (q.2 : ℚ)) → v =
      (((upTo (ins k) q.2 - upTo (ins k) q.1) / σ : ℚ) : WithTop ℚ)) links
    (fun a b c h h' => h.trans h') (periods.map fun p : ℕ × ℕ => ((p.1 : ℚ), (p.2 : ℚ))) 0 links (fun _ => none)
    (by simp) (List.forall₂_same.2 fun _ _ => rfl) (fun s hs' => by
      obtain ⟨n, hn, rfl⟩ := List.mem_map.1 hs'
      exact checkPeriod_ok (hs n hn)) (fun s hs' qs hqs k hk => by
      obtain ⟨n, hn, rfl⟩ := List.mem_map.1 hs'
      have e : links = qs := List.forall₂_eq_eq_eq ▸ hqs
      subst e
      refine ⟨_, _, inflowOne_eq hσ hT hi hL n (hs n hn) k hk, rfl, fun q hq => ?_⟩
      have q1 : n.1 = q.1 := by exact_mod_cast (Prod.mk.inj hq).1
      have q2 : n.2 = q.2 := by exact_mod_cast (Prod.mk.inj hq).2
      rw [q1, q2])
  refine ⟨a, ps, h1, fun m hm k hk => ?_⟩
  obtain ⟨v, e1, e2⟩ := h3 m (by simpa using hm) k hk
  rw [List.length_map, Nat.zero_add] at e1
  rw [e1, e2 periods[m] (by simp)]

/-- **C91** A period that is empty or not within the loading is refused. -/
theorem C91_link_inflow_checked {σ : ℚ} (hσ : 0 < σ) {T : ℕ} (hT : T < 10000) {links : List Curve}
    {ins : ℕ → List (ℕ × ℕ)} {periods : List (ℕ × ℕ)} (hi : ∀ k < links.length, History T (ins k))
    (hL : ∀ k (hk : k < links.length), Res.foldlM addIncrement install (flows σ (ins k)) = .ok links[k])
    (hs : ∃ p ∈ periods, ¬ (p.1 < p.2 ∧ p.2 ≤ T)) :
    ∃ m, getLinkInflow T (periods.map fun p : ℕ × ℕ => ((p.1 : ℚ), (p.2 : ℚ))) links = .throw m := by
  obtain ⟨pre, p, post, e, h1, h2⟩ := exists_first (fun p : ℕ × ℕ => ¬ (p.1 < p.2 ∧ p.2 ≤ T)) periods hs
  have hbad : ∃ m, checkPeriod "get_link_inflow" (T : ℤ) ((p.1 : ℚ), (p.2 : ℚ)) = .throw m := by
    unfold checkPeriod
    simp only [Int.cast_natCast]
    by_cases a1 : (p.2 : ℚ) ≤ p.1
    · rw [if_pos a1]; exact ⟨_, rfl⟩
    · rw [if_neg a1]
      by_cases a2 : (p.1 : ℚ) ≥ T
      · rw [if_pos a2]; exact ⟨_, rfl⟩
      · rw [if_neg a2]
        by_cases a3 : (p.2 : ℚ) > T
        · rw [if_pos a3]; exact ⟨_, rfl⟩
        · exfalso
          apply h1
          constructor
          · exact_mod_cast not_le.1 a1
          · exact_mod_cast not_lt.1 a3
  obtain ⟨m, hm⟩ := hbad
  refine ⟨m, ?_⟩
  unfold getLinkInflow Query.fill
  rw [e, List.map_append, List.map_cons]
  refine fillLoop_throw (R := fun a b => a = b) links (fun a b c h h' => h.trans h') hm _ _ _ _
    (List.forall₂_same.2 fun _ _ => rfl) ?_ ?_
  · intro x hx
    obtain ⟨n, hn, rfl⟩ := List.mem_map.1 hx
    exact checkPeriod_ok (not_not.1 (h2 n hn))
  · intro x hx qs hqs k hk
    obtain ⟨n, hn, rfl⟩ := List.mem_map.1 hx
    have e : links = qs := List.forall₂_eq_eq_eq ▸ hqs
    subst e
    exact ⟨_, _, inflowOne_eq hσ hT hi hL n (not_not.1 (h2 n hn)) k hk, rfl⟩

/-- Hypotheses of the C91 theorems are met by the links of `qLoaded`; the values for entering in the intervals 0, 1 and
2, in units of 10 seconds, with free-flow times of 20 and 2 seconds: the second link is cut off at 40 seconds. -/
example : (do
    let cin ← Res.foldlM addIncrement install (flows 2 [(1, 2), (3, 1)])
    let cout ← Res.foldlM addIncrement install (flows 2 [(4, 1), (6, 1), (9, 1)])
    let a ← getLinkTt 10 10 false [0, 1, 2] [⟨⟨cin, cout, -1, 2⟩, 20, 1, 0⟩, ⟨⟨cin, cout, -1, 2⟩, 2, 1, 0⟩]
    let b ← getLinkTt 10 10 true [0, 1, 2] [⟨⟨cin, cout, -1, 2⟩, 2, 1, 0⟩]
    let c ← getLinkInflow 10 [(0, 1), (1, 5), (5, 10)] [cin, cout]
    return ((List.range 6).map a.1, (List.range 3).map b.1, (List.range 6).map c.1) :
      Res (List (Option (WithTop ℚ)) × List (Option (WithTop ℚ)) × List (Option (WithTop ℚ)))) =
    .ok ([50, 40, 60, 40, 40, 40].map (fun x : ℚ => some (x : WithTop ℚ)),
      [some ⊤, some ((40 : ℚ) : WithTop ℚ), some ⊤],
      [1, 1 / 2, 0, 0, 1 / 2, 1].map (fun x : ℚ => some (x : WithTop ℚ))) := by
  decide +kernel

/-! ## C92 -/

/-- **C92** (partial: the tree must cover as many intervals as the tables).  For every graph, destination, tables of
travel times and (non-negative) costs of `M` intervals, origin and departure: the path found by the tree of cheapest
paths leads from the origin to the destination, and no other walk has a smaller cost according to
`get_path_travel_cost`; there is a path whenever there is a walk. -/
theorem C92_lowest_cost_partial (ops : List Graph.Op) (dest : ℤ) (hd : dest ∈ Graph.nodeIds (Graph.run Graph.empty ops))
    (M : ℕ) (hM : 0 < M) (hM' : M ≤ 2147483647) (tt cost : Tabs) (τ w : ℤ → ℕ → ℚ)
    (htt : Table tt M (Graph.linkIds (Graph.run Graph.empty ops)) τ)
    (hcost : Table cost M (Graph.linkIds (Graph.run Graph.empty ops)) w)
    (hw : ∀ l ∈ Graph.linkIds (Graph.run Graph.empty ops), ∀ t < M, 0 ≤ w l t)
    (hr : ∀ l ∈ Graph.linkIds (Graph.run Graph.empty ops), ∀ t < M, τ l t + M ≤ 2147483646)
    (hno : -1 ∉ Graph.linkIds (Graph.run Graph.empty ops))
    (links : List ℤ) (hl : links.Perm (Graph.linkIds (Graph.run Graph.empty ops)))
    (orig : ℤ) (ho : orig ∈ Graph.nodeIds (Graph.run Graph.empty ops)) (start : ℕ)
    (other : List ℤ) (hother : Sp.Walk (Graph.run Graph.empty ops) orig other dest) :
    ∃ n0 s n1 ls x, (∀ fuel, n0 ≤ fuel → tdspTree fuel links M (Graph.run Graph.empty ops) dest tt cost = .ok s) ∧
      (∀ fuel, n1 ≤ fuel → lowestCostPath fuel M (Graph.run Graph.empty ops) dest s tt orig start =
        .ok (Sp.walkNodes (Graph.run Graph.empty ops) orig ls, ls, some x)) ∧
      Sp.Walk (Graph.run Graph.empty ops) orig ls dest ∧
      (start + tripTime M τ start ls ≤ 2147483647 → start + tripTime M τ start other ≤ 2147483647 →
        ∃ c c', pathCost tt cost M start ls = .ok c ∧ pathCost tt cost M start other = .ok c' ∧ c ≤ c') := by
  -- the values that are stored
  have key : ∀ (tab : Tabs) (f : ℤ → ℕ → ℚ), Table tab M (Graph.linkIds (Graph.run Graph.empty ops)) f →
      ∀ l ∈ Graph.linkIds (Graph.run Graph.empty ops),
        tab l = some ((tab l).getD []) ∧ ∀ t < M, f l t = ((tab l).getD []).getD t 0 := by
    intro tab f h l hl
    obtain ⟨xs, h1, h2⟩ := h l hl
    refine ⟨by rw [h1]; rfl, fun t ht => ?_⟩
    rw [h1, Option.getD_some, List.getD_eq_getElem?_getD, h2 t ht, Option.getD_some]
  have k1 := key tt τ htt
  have k2 := key cost w hcost
  have hT : Sp.Tables (Graph.run Graph.empty ops) M (asCost cost) (asTime tt)
      (fun l t => ((((cost l).getD []).getD t 0 : ℚ) : WithTop ℚ)) (fun l t => ((tt l).getD []).getD t 0) := by
    refine ⟨?_, ?_, ?_, ?_, hno⟩
    · intro l hl
      unfold asCost
      rw [(k2 l hl).1]; rfl
    · intro l hl
      unfold asTime
      rw [(k1 l hl).1]; rfl
    · intro l hl t ht
      rw [← (k2 l hl).2 t ht]
      exact_mod_cast hw l hl t ht
    · intro l hl t ht
      rw [← (k1 l hl).2 t ht]
      exact hr l hl t ht
  obtain ⟨n0, s, hs, hopt⟩ := C40_tdsp_optimal ops dest hd M hM hM' _ _ _ _ hT links hl
  obtain ⟨m0, s', n1, hs', hpath, _⟩ := C41_extracted_tdsp ops dest hd M hM hM' _ _ _ _ hT links hl orig ho start
  have hss : s' = s := by
    have a := hs (max n0 m0) (le_max_left _ _)
    rw [hs' (max n0 m0) (le_max_right _ _)] at a
    exact Res.ok.inj a
  subst hss
  have ht : min start (M - 1) < M := by omega
  obtain ⟨⟨hlow, _⟩, _, _⟩ := hopt orig ho _ ht
  have h1 := hlow other hother
  rw [tdCost_trip] at h1
  obtain ⟨ls, a1, a2, a3, a4⟩ := hpath (fun e => by rw [e] at h1; exact absurd h1 (by simp))
  rw [← a4, tdCost_trip] at h1
  have h2 : ∀ l ∈ ls, l ∈ Graph.linkIds (Graph.run Graph.empty ops) := walk_links ls orig a2
  have h3 : ∀ l ∈ other, l ∈ Graph.linkIds (Graph.run Graph.empty ops) := walk_links other orig hother
  refine ⟨n0, s', n1, ls, _, hs, a1, a2, fun b1 b2 => ⟨tripCost M τ w start ls, tripCost M τ w start other, ?_, ?_, ?_⟩⟩
  · exact pathCost_eq hM (fun l hl => htt l (h2 l hl)) (fun l hl => hcost l (h2 l hl))
      (fun l hl t ht => by have := hr l (h2 l hl) t ht; have : (0 : ℚ) ≤ M := by positivity
                           linarith) b1
  · exact pathCost_eq hM (fun l hl => htt l (h3 l hl)) (fun l hl => hcost l (h3 l hl))
      (fun l hl t ht => by have := hr l (h3 l hl) t ht; have : (0 : ℚ) ≤ M := by positivity
                           linarith) b2
  · rw [(trip_congr hM ls start fun l hl t ht => ⟨(k1 l (h2 l hl)).2 t ht, (k2 l (h2 l hl)).2 t ht⟩).2,
      (trip_congr hM other start fun l hl t ht => ⟨(k1 l (h3 l hl)).2 t ht, (k2 l (h3 l hl)).2 t ht⟩).2]
    exact_mod_cast h1

/-- **C92** refuted in full: two links from node 2 to node 3, one of which becomes dear after interval 0; the tables
cover two intervals, the tree one.  The path that is found costs 6, the other one 3. -/
theorem C92_not_lowest :
    ∃ (tt cost : Tabs) (s : Sp.Tree),
      tdspTree 9 [10, 11, 12] 1
        (Graph.run Graph.empty [.addNode 1, .addNode 2, .addNode 3, .addLink 1 2 10, .addLink 2 3 11, .addLink 2 3 12]) 3
        tt cost = .ok s ∧
      lowestCostPath 9 1
        (Graph.run Graph.empty [.addNode 1, .addNode 2, .addNode 3, .addLink 1 2 10, .addLink 2 3 11, .addLink 2 3 12]) 3
        s tt 1 0 = .ok ([1, 2, 3], [10, 11], some 2) ∧
      pathCost tt cost 2 0 [10, 11] = .ok 6 ∧ pathCost tt cost 2 0 [10, 12] = .ok 3 := by
  refine ⟨fun l => if l = 10 ∨ l = 11 ∨ l = 12 then some [1, 1] else none,
    fun l => if l = 10 then some [1, 1] else if l = 11 then some [1, 5] else if l = 12 then some [2, 2] else none, ?_⟩
  have h : ((tdspTree 9 [10, 11, 12] 1
        (Graph.run Graph.empty [.addNode 1, .addNode 2, .addNode 3, .addLink 1 2 10, .addLink 2 3 11, .addLink 2 3 12]) 3
        (fun l => if l = 10 ∨ l = 11 ∨ l = 12 then some [1, 1] else none)
        (fun l => if l = 10 then some [1, 1] else if l = 11 then some [1, 5] else if l = 12 then some [2, 2] else none)).bind
      fun s => lowestCostPath 9 1
        (Graph.run Graph.empty [.addNode 1, .addNode 2, .addNode 3, .addLink 1 2 10, .addLink 2 3 11, .addLink 2 3 12]) 3
        s (fun l => if l = 10 ∨ l = 11 ∨ l = 12 then some [1, 1] else none) 1 0) = .ok ([1, 2, 3], [10, 11], some 2) := by
    decide +kernel
  rw [Res.bind_eq_ok'] at h
  obtain ⟨s, h1, h2⟩ := h
  exact ⟨s, h1, h2, by decide +kernel, by decide +kernel⟩

/-- Hypotheses of `C92_lowest_cost_partial` are met; with a tree of two intervals the cheaper path is found. -/
example :
    ((tdspTree 9 [10, 11, 12] 2
        (Graph.run Graph.empty [.addNode 1, .addNode 2, .addNode 3, .addLink 1 2 10, .addLink 2 3 11, .addLink 2 3 12]) 3
        (fun l => if l = 10 ∨ l = 11 ∨ l = 12 then some [1, 1] else none)
        (fun l => if l = 10 then some [1, 1] else if l = 11 then some [1, 5] else if l = 12 then some [2, 2] else none)).bind
      fun s => lowestCostPath 9 2
        (Graph.run Graph.empty [.addNode 1, .addNode 2, .addNode 3, .addLink 1 2 10, .addLink 2 3 11, .addLink 2 3 12]) 3
        s (fun l => if l = 10 ∨ l = 11 ∨ l = 12 then some [1, 1] else none) 1 0) = .ok ([1, 2, 3], [10, 12], some 2) ∧
    -1 ∉ Graph.linkIds
      (Graph.run Graph.empty [.addNode 1, .addNode 2, .addNode 3, .addLink 1 2 10, .addLink 2 3 11, .addLink 2 3 12]) ∧
    Table (fun l => if l = 10 then some [1, 1] else if l = 11 then some [1, 5] else if l = 12 then some [2, 2] else none) 2
      [10, 11, 12] (fun l t => if l = 10 then 1 else if l = 11 then (if t = 0 then 1 else 5) else 2) := by
  refine ⟨by decide +kernel, by decide +kernel, fun l hl => ?_⟩
  rcases List.mem_cons.1 hl with rfl | hl
  · exact ⟨_, rfl, by decide +kernel⟩
  rcases List.mem_cons.1 hl with rfl | hl
  · exact ⟨_, rfl, by decide +kernel⟩
  rw [List.mem_singleton.1 hl]
  exact ⟨_, rfl, by decide +kernel⟩

end Verif

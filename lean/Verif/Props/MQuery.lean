import Verif.Lemmas.MQuery
import Verif.Props.Query

/-!
# C100: Queries of networks with cars and trucks
-/

namespace Verif
open MQuery Curve Tt

/-- **C100** Queries do not interfere, neither with each other nor between the classes: after any calls, a query about
the vehicles of a class that is answered from the curves gives what it would have given on any network that agrees with
the original one on this class (for instance, on the original network before any call). -/
theorem C100_no_interference {e : Env} {s s' t : MQuery.State} {asks : List Ask} {q : Ask} {b : Bool}
    (hs : MQuery.session e asks s = .ok s') (hst : SameFor b s t) (hq : q.direct = some b) :
    ((answer e q s').bind fun r => .ok r.1) = (answer e q t).bind fun r => .ok r.1 := by
  have h1 : SimOn e.T (fun c => c = b) s t := by
    intro l
    rcases hst l with h | ⟨p, q, a1, a2, a3, a4, a5, a6⟩
    · exact Or.inl h
    · exact Or.inr ⟨p, q, a1, a2, ⟨fun c hc => by subst hc; rw [a3]; exact CcSim.refl _ _, a4,
        fun c hc => by subst hc; exact a5, fun c hc => by subst hc; exact a6⟩⟩
  exact (answer_blind e q (B := fun c => c = b) rfl hq).val s' t ((session_keep asks s s' hs).on.symm.trans h1)

/-- **C100** `get_car_link_tt`, `get_truck_link_tt`, after any calls: the entry for a link and a start is the travel time
of the vehicles of the class on the link, in seconds, cut off at 20 times the free-flow time of the class. -/
theorem C100_link_tt {σ : ℚ} {e : Env} {ins outs : Bool → ℤ → List (ℕ × ℕ)} {s s' : MQuery.State} {q : ℤ → MQuery.Link}
    {asks : List Ask} (hL : LoadedNet σ e.T ins outs s e.reg q) (hs : MQuery.session e asks s = .ok s') (b inf : Bool)
    {starts : List ℕ} (hst : ∀ x ∈ starts, x < e.T) :
    ∃ a s'', answer e (.linkTt b inf (starts.map fun x : ℕ => (x : ℚ))) s' = .ok (a, s'') ∧
      ∀ m (hm : m < starts.length), ∀ k (hk : k < e.reg.length), ∃ r,
        LinkTime e.T (ins b e.reg[k]) (outs b e.reg[k]) ((q e.reg[k]).cc b).fftt (starts[m] + 1) r ∧
        a (k * starts.length + m) = some (some
          (if r * e.unit ≤ 20 * ((q e.reg[k]).length / (q e.reg[k]).ffs b) then ((r * e.unit : ℚ) : WithTop ℚ)
           else if inf then ⊤ else ((20 * ((q e.reg[k]).length / (q e.reg[k]).ffs b) : ℚ) : WithTop ℚ))) := by
  obtain ⟨w, s'', h1, _, h3⟩ := grid_eq (I := Sim e.T s) (rs := e.reg) (xs := starts.map fun x : ℕ => (x : ℚ))
    (check := MQuery.checkStart (byClass b "get_car_link_tt" "get_truck_link_tt") e.T) (f := MQuery.linkTtOne e b inf)
    (V := fun x l v => ∀ n : ℕ, x = n → ∃ r, LinkTime e.T (ins b l) (outs b l) ((q l).cc b).fftt (n + 1) r ∧
      v = some (if r * e.unit ≤ 20 * ((q l).length / (q l).ffs b) then ((r * e.unit : ℚ) : WithTop ℚ)
           else if inf then ⊤ else ((20 * ((q l).length / (q l).ffs b) : ℚ) : WithTop ℚ)))
    (session_keep asks s s' hs) (fun x hx => by
      obtain ⟨n, hn, rfl⟩ := List.mem_map.1 hx
      exact MQuery.checkStart_ok (hst n hn)) (fun x hx l hl t ht => by
      obtain ⟨n, hn, rfl⟩ := List.mem_map.1 hx
      obtain ⟨v, t', a1, a2, a3⟩ := MQuery.linkTtOne_eq hL ht hl b inf n
      refine ⟨v, t', a1, a2, fun n' hn' => ?_⟩
      have : n = n' := by exact_mod_cast hn'
      subst this; exact a3)
  refine ⟨w, s'', h1, fun m hm k hk => ?_⟩
  obtain ⟨v, b1, b2⟩ := h3 m (by simpa using hm) k hk
  obtain ⟨r, b3, b4⟩ := b2 starts[m] (by simp)
  rw [List.length_map] at b1
  exact ⟨r, b3, by rw [b1, b4]⟩

/-- **C100** `get_car_link_speed`, `get_truck_link_speed`, after any calls: the entry is the length of the link divided by
the travel time of the vehicles of the class, converted from metres per second with 1600 metres per mile. -/
theorem C100_link_speed {σ : ℚ} {e : Env} {ins outs : Bool → ℤ → List (ℕ × ℕ)} {s s' : MQuery.State}
    {q : ℤ → MQuery.Link} {asks : List Ask} (hL : LoadedNet σ e.T ins outs s e.reg q)
    (hs : MQuery.session e asks s = .ok s') (b : Bool) {starts : List ℕ} (hst : ∀ x ∈ starts, x < e.T) :
    ∃ a s'', answer e (.speed b (starts.map fun x : ℕ => (x : ℚ))) s' = .ok (a, s'') ∧
      ∀ m (hm : m < starts.length), ∀ k (hk : k < e.reg.length), ∃ r,
        LinkTime e.T (ins b e.reg[k]) (outs b e.reg[k]) ((q e.reg[k]).cc b).fftt (starts[m] + 1) r ∧
        (r * e.unit ≠ 0 → a (k * starts.length + m) = some (some
          (((q e.reg[k]).length / (r * e.unit) * (3600 / 1600) : ℚ) : WithTop ℚ))) := by
  obtain ⟨w, s'', h1, _, h3⟩ := grid_eq (I := Sim e.T s) (rs := e.reg) (xs := starts.map fun x : ℕ => (x : ℚ))
    (check := MQuery.checkStart (byClass b "get_car_link_speed" "get_truck_link_speed") e.T) (f := MQuery.speedOne e b)
    (V := fun x l v => ∀ n : ℕ, x = n → ∃ r, LinkTime e.T (ins b l) (outs b l) ((q l).cc b).fftt (n + 1) r ∧
      (r * e.unit ≠ 0 → v = some (((q l).length / (r * e.unit) * (3600 / 1600) : ℚ) : WithTop ℚ)))
    (session_keep asks s s' hs) (fun x hx => by
      obtain ⟨n, hn, rfl⟩ := List.mem_map.1 hx
      exact MQuery.checkStart_ok (hst n hn)) (fun x hx l hl t ht => by
      obtain ⟨n, hn, rfl⟩ := List.mem_map.1 hx
      obtain ⟨v, t', a1, a2, a3⟩ := MQuery.speedOne_eq hL ht hl b n
      refine ⟨v, t', a1, a2, fun n' hn' => ?_⟩
      have : n = n' := by exact_mod_cast hn'
      subst this; exact a3)
  refine ⟨w, s'', h1, fun m hm k hk => ?_⟩
  obtain ⟨v, b1, b2⟩ := h3 m (by simpa using hm) k hk
  obtain ⟨r, b3, b4⟩ := b2 starts[m] (by simp)
  rw [List.length_map] at b1
  exact ⟨r, b3, fun h => by rw [b1, b4 h]⟩

/-- **C100** `get_link_car_inflow`, `get_link_truck_inflow`, after any calls: the entry for a link and a period is the
number of vehicles of the class that entered the link after the start and up to the end of the period, divided by the
flow scalar. -/
theorem C100_link_inflow {σ : ℚ} {e : Env} {ins outs : Bool → ℤ → List (ℕ × ℕ)} {s s' : MQuery.State}
    {q : ℤ → MQuery.Link} {asks : List Ask} (hL : LoadedNet σ e.T ins outs s e.reg q)
    (hs : MQuery.session e asks s = .ok s') (b : Bool) {periods : List (ℕ × ℕ)}
    (hp : ∀ p ∈ periods, p.1 < p.2 ∧ p.2 ≤ e.T) :
    ∃ a s'', answer e (.inflow b (periods.map fun p : ℕ × ℕ => ((p.1 : ℚ), (p.2 : ℚ)))) s' = .ok (a, s'') ∧
      ∀ m (hm : m < periods.length), ∀ k (hk : k < e.reg.length),
        a (k * periods.length + m) = some (some
          (((upTo (ins b e.reg[k]) periods[m].2 - upTo (ins b e.reg[k]) periods[m].1) / σ : ℚ) : WithTop ℚ)) := by
  obtain ⟨w, s'', h1, _, h3⟩ := grid_eq (I := Sim e.T s) (rs := e.reg)
    (xs := periods.map fun p : ℕ × ℕ => ((p.1 : ℚ), (p.2 : ℚ)))
    (check := MQuery.checkPeriod (byClass b "get_link_car_inflow" "get_link_truck_inflow") e.T)
    (f := MQuery.inflowOne b)
    (V := fun x l v => ∀ p : ℕ × ℕ, x = ((p.1 : ℚ), (p.2 : ℚ)) →
      v = some (((upTo (ins b l) p.2 - upTo (ins b l) p.1) / σ : ℚ) : WithTop ℚ))
    (session_keep asks s s' hs) (fun x hx => by
      obtain ⟨n, hn, rfl⟩ := List.mem_map.1 hx
      exact MQuery.checkPeriod_ok (hp n hn)) (fun x hx l hl t ht => by
      obtain ⟨n, hn, rfl⟩ := List.mem_map.1 hx
      refine ⟨_, t, MQuery.inflowOne_eq hL ht hl b (hp n hn), ht, fun p hp' => ?_⟩
      have q1 : n.1 = p.1 := by exact_mod_cast (Prod.mk.inj hp').1
      have q2 : n.2 = p.2 := by exact_mod_cast (Prod.mk.inj hp').2
      rw [q1, q2])
  refine ⟨w, s'', h1, fun m hm k hk => ?_⟩
  obtain ⟨v, b1, b2⟩ := h3 m (by simpa using hm) k hk
  rw [List.length_map] at b1
  rw [b1, b2 periods[m] (by simp)]

/-- **C100** `get_avg_link_on_path_tt_car`, `get_avg_link_on_path_tt_truck`, after any calls: the entry of a link is the
mean over the starts of the travel times of the vehicles of the class in seconds, each cut off at 20 times the free-flow
time. -/
theorem C100_link_average {σ : ℚ} {e : Env} {ins outs : Bool → ℤ → List (ℕ × ℕ)} {s s' : MQuery.State}
    {q : ℤ → MQuery.Link} {asks : List Ask} {links : List ℤ} (hL : LoadedNet σ e.T ins outs s links q)
    (hs : MQuery.session e asks s = .ok s') (b : Bool) {starts : List ℕ} (hne : starts ≠ [])
    (hst : ∀ x ∈ starts, x < e.T) :
    ∃ a s'', answer e (.avg b links (starts.map fun x : ℕ => (x : ℚ))) s' = .ok (a, s'') ∧
      ∀ k (hk : k < links.length), ∃ rs,
        List.Forall₂ (fun x r => LinkTime e.T (ins b links[k]) (outs b links[k]) ((q links[k]).cc b).fftt (x + 1) r)
          starts rs ∧
        a k = some (some (((rs.map fun r => min (r * e.unit)
          (20 * ((q links[k]).length / (q links[k]).ffs b))).sum / starts.length : ℚ) : WithTop ℚ)) := by
  obtain ⟨w, s'', h1, _, _, h4⟩ := avgLoop_eq hL b hne hst links 0 (fun _ => none) s' (session_keep asks s s' hs)
    (fun l hl => hl)
  exact ⟨w, s'', h1, fun k hk => by simpa using h4 k hk⟩

/-- **C100** Tables: once `build_link_cost_map` has been called, the tables for each class hold, whatever is called before
and after it, the travel times of the vehicles of the class, and as costs the value of time times the travel time in
seconds plus the toll of the class. -/
theorem C100_tables {σ : ℚ} {e : Env} {ins outs : Bool → ℤ → List (ℕ × ℕ)} {s s' : MQuery.State} {q : ℤ → MQuery.Link}
    {asks : List Ask} (hL : LoadedNet σ e.T ins outs s e.ids q) (h0 : NoTables s)
    (hs : MQuery.session e asks s = .ok s') (hb : .build ∈ asks) :
    ∃ τ : Bool → ℤ → ℕ → ℚ, ∀ b, Query.Table (s'.tt b) e.T e.ids (τ b) ∧
      Query.Table (s'.cost b) e.T e.ids (fun l t => e.vot * (τ b l t * e.unit) + (q l).toll b) ∧
      ∀ l ∈ e.ids, ∀ t < e.T, LinkTime e.T (ins b l) (outs b l) ((q l).cc b).fftt (t + 1) (τ b l t) := by
  have hh := session_held hL asks s s' (Sim.refl _ s) (fun b l xs => by simp [(h0 b l).1, (h0 b l).2]) (Or.inr hb) hs
  have key : ∀ b l, ∃ f : ℕ → ℚ, l ∈ e.ids → ∃ xs ys, s'.tt b l = some xs ∧ s'.cost b l = some ys ∧
      ∀ t < e.T, xs[t]? = some (f t) ∧ LinkTime e.T (ins b l) (outs b l) ((q l).cc b).fftt (t + 1) (f t) ∧
        ys[t]? = some (e.vot * e.unit * f t + (q l).toll b) := by
    intro b l
    by_cases hl : l ∈ e.ids
    · obtain ⟨xs, ys, a1, a2, a3⟩ := hh l hl b
      refine ⟨fun t => xs.getD t 0, fun _ => ⟨xs, ys, a1, a2, fun t ht => ?_⟩⟩
      obtain ⟨r, b1, b2, b3⟩ := a3 t ht
      have : xs.getD t 0 = r := by rw [List.getD_eq_getElem?_getD, b1]; rfl
      simp only [this]
      exact ⟨b1, b2, b3⟩
    · exact ⟨fun _ => 0, fun h => absurd h hl⟩
  choose τ hτ using key
  refine ⟨τ, fun b => ⟨fun l hl => ?_, fun l hl => ?_, fun l hl t ht => ?_⟩⟩
  · obtain ⟨xs, ys, a1, a2, a3⟩ := hτ b l hl
    exact ⟨xs, a1, fun t ht => (a3 t ht).1⟩
  · obtain ⟨xs, ys, a1, a2, a3⟩ := hτ b l hl
    exact ⟨ys, a2, fun t ht => by rw [(a3 t ht).2.2]; congr 1; ring⟩
  · obtain ⟨xs, ys, a1, a2, a3⟩ := hτ b l hl
    exact (a3 t ht).2.1

/-- **C100** `get_path_tt_car`, `get_path_tt_truck`: the entry for a start is the time of the trip along the links that
starts then, in seconds, and its cost, according to the tables of the class. -/
theorem C100_path_tt {e : Env} {s : MQuery.State} {b : Bool} {links : List ℤ} {starts : List ℕ} {τ w : ℤ → ℕ → ℚ}
    (hk : ∀ l ∈ links, (s.net l).isSome = true) (htt : Query.Table (s.tt b) e.T links τ)
    (hcost : Query.Table (s.cost b) e.T links w) (hs : ∀ x ∈ starts, x < e.T)
    (hr : ∀ l ∈ links, ∀ t < e.T, τ l t ≤ 2147483646)
    (hb : ∀ x ∈ starts, x + Query.tripTime e.T τ x links ≤ 2147483647) :
    ∃ a, answer e (.pathTt b links (starts.map fun x : ℕ => (x : ℤ))) s = .ok (a, s) ∧
      ∀ m (hm : m < starts.length),
        a m = some (some ((Query.tripTime e.T τ starts[m] links * e.unit : ℚ) : WithTop ℚ)) ∧
        a (starts.length + m) = some (some ((Query.tripCost e.T τ w starts[m] links : ℚ) : WithTop ℚ)) := by
  obtain ⟨a, h1, h2, _, _⟩ := Query.pathTtLoop_eq (unit := e.unit)
    (check := fun x : ℤ => MQuery.checkStart (byClass b "get_path_tt_car" "get_path_tt_truck") e.T x) starts.length
    (fun x hx => by
      have := MQuery.checkStart_ok (name := byClass b "get_path_tt_car" "get_path_tt_truck") hx
      simpa using this) htt hcost hr starts 0 (fun _ => none) (by omega) hs hb
  refine ⟨fun i => (a i).map some, ?_, fun m hm => ?_⟩
  · simp only [answer, MQuery.pathTt]
    rw [if_pos (List.all_eq_true.2 hk), List.length_map, h1, Res.bind_ok']
  · have := h2 m hm
    simp only [Nat.zero_add] at this
    simp only [this.1, this.2, Option.map_some, and_self]

/-- **C100** `get_registered_path_tt_car`, `get_registered_path_tt_truck`: likewise for the registered paths. -/
theorem C100_registered_path_tt {e : Env} {s : MQuery.State} {b : Bool} {starts : List ℕ} {τ : ℤ → ℕ → ℚ}
    (htt : ∀ p ∈ e.paths, Query.Table (s.tt b) e.T p τ) (hs : ∀ x ∈ starts, x < e.T)
    (hr : ∀ p ∈ e.paths, ∀ l ∈ p, ∀ t < e.T, τ l t ≤ 2147483646)
    (hb : ∀ p ∈ e.paths, ∀ x ∈ starts, x + Query.tripTime e.T τ x p ≤ 2147483647) :
    ∃ a, answer e (.regPathTt b (starts.map fun x : ℕ => (x : ℤ))) s = .ok (a, s) ∧
      ∀ m (hm : m < starts.length), ∀ k (hk : k < e.paths.length),
        a (k * starts.length + m) = some (some ((Query.tripTime e.T τ starts[m] e.paths[k] * e.unit : ℚ) : WithTop ℚ)) := by
  obtain ⟨w, s'', h1, h2, h3⟩ := grid_eq (I := fun t => t = s) (rs := e.paths) (xs := starts.map fun x : ℕ => (x : ℤ))
    (check := fun x : ℤ => MQuery.checkStart (byClass b "get_registered_path_tt_car" "get_registered_path_tt_truck") e.T x)
    (f := MQuery.regOne e b) (s := s)
    (V := fun x p v => ∀ n : ℕ, x = n → v = some ((Query.tripTime e.T τ n p * e.unit : ℚ) : WithTop ℚ))
    rfl (fun x hx => by
      obtain ⟨n, hn, rfl⟩ := List.mem_map.1 hx
      have := MQuery.checkStart_ok (name := byClass b "get_registered_path_tt_car" "get_registered_path_tt_truck") (hs n hn)
      simpa using this) (fun x hx p hp t ht => by
      obtain ⟨n, hn, rfl⟩ := List.mem_map.1 hx
      subst ht
      refine ⟨some ((Query.tripTime e.T τ n p * e.unit : ℚ) : WithTop ℚ), t, ?_, rfl, ?_⟩
      · unfold MQuery.regOne
        rw [Query.pathTime_eq (by have := hs n hn; omega) (htt p hp) (hr p hp) (hb p hp n hn), Res.bind_ok']
        push_cast; rfl
      · intro n' hn'
        have : n = n' := by exact_mod_cast hn'
        rw [this])
  subst h2
  refine ⟨w, h1, fun m hm k hk => ?_⟩
  obtain ⟨v, b1, b2⟩ := h3 m (by simpa using hm) k hk
  rw [List.length_map] at b1
  rw [b1, b2 starts[m] (by simp)]

/-- **C100** A start at or after the end of the loading is refused, whatever has been called before. -/
theorem C100_late {σ : ℚ} {e : Env} {ins outs : Bool → ℤ → List (ℕ × ℕ)} {s s' : MQuery.State} {q : ℤ → MQuery.Link}
    {asks : List Ask} (hL : LoadedNet σ e.T ins outs s e.reg q) (hs : MQuery.session e asks s = .ok s') (b inf : Bool)
    {starts : List ℕ} (hst : ∃ x ∈ starts, e.T ≤ x) :
    answer e (.linkTt b inf (starts.map fun x : ℕ => (x : ℚ))) s' = .throw ("Error, Mcdta::" ++
      byClass b "get_car_link_tt" "get_truck_link_tt" ++
      ", input start intervals exceeds the total loading intervals - 1") := by
  obtain ⟨pre, x, post, h0, h1, h2⟩ := Query.exists_first (fun x => e.T ≤ x) starts hst
  simp only [answer, grid]
  rw [h0, List.map_append, List.map_cons]
  refine gridLoop_throw (I := Sim e.T s) ?_ _ _ _ _ (session_keep asks s s' hs) ?_ ?_
  · unfold MQuery.checkStart
    rw [if_pos (by exact_mod_cast h1)]
  · intro y hy
    obtain ⟨n, hn, rfl⟩ := List.mem_map.1 hy
    exact MQuery.checkStart_ok (by have := h2 n hn; omega)
  · intro y hy l hl t ht
    obtain ⟨n, hn, rfl⟩ := List.mem_map.1 hy
    obtain ⟨v, t', a1, a2, _⟩ := MQuery.linkTtOne_eq hL ht hl b inf n
    exact ⟨v, t', a1, a2⟩

/-- The example: one link of which cars and trucks have different histories. -/
def mqState (cin cout tin tout : Curve) : MQuery.State :=
  ⟨fun l => if l = 1 then some ⟨fun b => byClass b ⟨cin, cout, -1, 2⟩ ⟨tin, tout, -1, 3⟩, 10, fun b => byClass b 5 4,
    fun b => byClass b 1 7⟩ else none, fun _ _ => none, fun _ _ => none⟩

/-- Ten intervals of 3 seconds, one registered link and one registered path. -/
def mqEnv : Env := ⟨10, 3, 2, [1], [[1]], [1]⟩

/-- Three cars and two trucks use the link. -/
theorem mqLoaded : ∃ s, LoadedNet 2 10 (fun b _ => byClass b [(1, 2), (3, 1)] [(1, 1), (4, 1)])
    (fun b _ => byClass b [(4, 1), (6, 1), (9, 1)] [(8, 1), (10, 1)]) s [1]
    (fun l => ((s.net l).getD ⟨fun _ => ⟨[], [], 0, 0⟩, 0, fun _ => 0, fun _ => 0⟩)) ∧ NoTables s := by
  obtain ⟨cin, h1, _⟩ := Tt.run_holds (σ := 2) (by norm_num) (T := 10) (by norm_num)
    (h := [(1, 2), (3, 1)]) (by unfold History; decide)
  obtain ⟨cout, h2, _⟩ := Tt.run_holds (σ := 2) (by norm_num) (T := 10) (by norm_num)
    (h := [(4, 1), (6, 1), (9, 1)]) (by unfold History; decide)
  obtain ⟨tin, h3, _⟩ := Tt.run_holds (σ := 2) (by norm_num) (T := 10) (by norm_num)
    (h := [(1, 1), (4, 1)]) (by unfold History; decide)
  obtain ⟨tout, h4, _⟩ := Tt.run_holds (σ := 2) (by norm_num) (T := 10) (by norm_num)
    (h := [(8, 1), (10, 1)]) (by unfold History; decide)
  refine ⟨mqState cin cout tin tout, ?_, fun b l => ⟨rfl, rfl⟩⟩
  intro l hl
  rw [List.mem_singleton] at hl
  subst hl
  refine ⟨rfl, fun b => ?_⟩
  cases b
  · exact ⟨by norm_num, by norm_num, by unfold History; decide, by unfold History; decide,
      by decide, by decide, h1, h2, rfl, by norm_num [mqState, byClass]⟩
  · exact ⟨by norm_num, by norm_num, by unfold History; decide, by unfold History; decide,
      by decide, by decide, h3, h4, rfl, by norm_num [mqState, byClass]⟩

/-- What is asked in the example, and some of the answers. -/
def mqAnswers : Res (List (Option Val)) := do
  let cin ← Res.foldlM addIncrement install (flows 2 [(1, 2), (3, 1)])
  let cout ← Res.foldlM addIncrement install (flows 2 [(4, 1), (6, 1), (9, 1)])
  let tin ← Res.foldlM addIncrement install (flows 2 [(1, 1), (4, 1)])
  let tout ← Res.foldlM addIncrement install (flows 2 [(8, 1), (10, 1)])
  let s ← MQuery.session mqEnv [.linkTt true false [3], .build, .speed false [0], .inflow false [(0, 4)], .linkTt false true [5]]
    (mqState cin cout tin tout)
  let a ← answer mqEnv (.linkTt false false [0, 2]) s
  let b ← answer mqEnv (.linkTt true false [0, 3]) a.2
  let c ← answer mqEnv (.pathTt true [1] [0]) b.2
  let d ← answer mqEnv (.inflow true [(0, 4)]) c.2
  return [a.1 0, a.1 1, b.1 0, b.1 1, c.1 0, c.1 1, d.1 0]

/-- After queries for both classes and building the tables, cars are reported to need 5 and 6 intervals, trucks 7 and 6;
the path takes a truck 7 intervals and costs 2 for each of the 21 seconds and the toll of 7; two trucks enter, which is a flow of 1. -/
example : mqAnswers = .ok ([15, 18, 21, 18, 21, 49, 1].map fun x : ℚ => some (some (x : WithTop ℚ))) := by
  decide +kernel

end Verif

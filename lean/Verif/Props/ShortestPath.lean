import Verif.Lemmas.SpExtra
import Verif.Lemmas.Tdsp

/-!
# Shortest paths (C36–C41, C63)

A graph is whatever a history `ops` of `add_node`/`add_link` calls builds.  `Walk`, `walkCost`,
`Least`, `Costs` and their time-dependent versions are in `Verif.Spec.ShortestPath`.
-/

namespace Verif
open Sp Graph

/-! ## The example graph: 1 → 2 → 3, a dear link 1 → 3, and node 4, which leads nowhere -/

/-- A history that builds the example graph. -/
def spOps : List Op :=
  [.addNode 1, .addNode 2, .addNode 3, .addNode 4, .addLink 1 2 10, .addLink 2 3 11, .addLink 1 3 12,
    .addLink 3 4 13]

/-- Costs of the example. -/
def spCost (l : ℤ) : Cost := if l = 12 then 5 else 1

theorem spCosts : Costs (run empty spOps) (fun l => some (spCost l)) spCost :=
  ⟨fun _ _ => rfl, by decide +kernel, by decide +kernel⟩

/-! ## C37 -/

/-- **C37.**  For every graph, destination in it and non-negative costs there is a single result
that the queue-based shortest path returns whenever it is given enough iterations: each node's
distance is the least cost over all walks to the destination; the next link of a node that reaches
the destination leaves the node and the distance is that link's cost plus the distance of the node
it leads to; a node that does not has next link -1. -/
theorem C37_fifo_shortest_paths (ops : List Op) (dest : ℤ) (hd : dest ∈ nodeIds (run empty ops))
    (cost : ℤ → Option Cost) (w : ℤ → Cost) (h : Costs (run empty ops) cost w) (out : ℤ → Option ℤ) :
    ∃ n0 s, (∀ fuel, n0 ≤ fuel → fifo fuel (run empty ops) dest cost out = .ok s) ∧
      ∀ v ∈ nodeIds (run empty ops), ∃ d, s.dist v = some d ∧ Least (run empty ops) w v dest d ∧
        (v ≠ dest → d = ⊤ → s.out v = some (-1)) ∧
        (v ≠ dest → d ≠ ⊤ → ∃ l t dt, s.out v = some l ∧ getEndpoints (run empty ops) l = .ok (v, t) ∧
          s.dist t = some dt ∧ d = w l + dt) := by
  have hc := ctx_of_run ops h
  obtain ⟨n0, s, p, h1, h2, h3⟩ := fifo_spec hc hd out
  refine ⟨n0, s, h1, fun v hv => ?_⟩
  have key : ∀ v ∈ nodeIds (run empty ops), s.dist v = some (lab s.dist v) := by
    intro v hv
    obtain ⟨x, hx⟩ := Option.isSome_iff_exists.1 (h2.dist v hv)
    simp [lab, hx]
  refine ⟨_, key v hv, h3.least v, ?_, ?_⟩
  · intro hvd htop
    rw [h3.untouched v (Or.inr htop)]
    simp [labInit, hvd, hv]
  · intro hvd hn
    obtain ⟨l, t, e1, e2, hle⟩ := h3.next v hvd hn
    refine ⟨l, t, _, e1, e2, key t (hc.ends l v t e2).2.1, ?_⟩
    rw [add_comm]
    exact le_antisymm ((h3.tight l v t e2).resolve_left id) hle

/-- The premises hold for the example, and the call gives the distances 2, 1, 0, ∞. -/
example : (3 : ℤ) ∈ nodeIds (run empty spOps) ∧
    (fifo 9 (run empty spOps) 3 (fun l => some (spCost l)) fun _ => none).bind
      (fun s => .ok ([1, 2, 3, 4].map s.dist, [1, 2, 3, 4].map s.out)) =
      .ok ([some 2, some 1, some 0, some ⊤], [some 10, some 11, none, some (-1)]) := by
  decide +kernel

/-- **C37.**  A destination that is not in the graph is refused. -/
theorem C37_unknown_destination (ops : List Op) (dest : ℤ) (hd : dest ∉ nodeIds (run empty ops))
    (cost : ℤ → Option Cost) (out : ℤ → Option ℤ) (fuel : ℕ) :
    fifo (fuel + 1) (run empty ops) dest cost out = .throw "out_of_range" := by
  have h := (C02_directed_connections ops dest .inc _ (Nat.lt_succ_self _)).2 hd
  have hq : (labInit (run empty ops) dest out).q = [dest] := rfl
  unfold fifo
  simp only [fifoLoop, hq]
  rw [show incoming (run empty ops) dest = .throw "out_of_range" from h]
  rfl

example : (7 : ℤ) ∉ nodeIds (run empty spOps) := by decide +kernel

/-! ## C38 -/

/-- **C38.**  Dijkstra's algorithm, for every graph, non-negative costs and every way `pick` in
which the priority queue chooses among its entries: the distances are least costs and the next links
attain them.  (The next link of a node that cannot reach the destination is the entry the caller's
map had for it, and -1 if it had none.) -/
theorem C38_dijkstra_shortest_paths (ops : List Op) (dest : ℤ) (hd : dest ∈ nodeIds (run empty ops))
    (cost : ℤ → Option Cost) (w : ℤ → Cost) (h : Costs (run empty ops) cost w) (out : ℤ → Option ℤ) :
    ∃ n0, ∀ pick fuel, n0 ≤ fuel → ∃ s, dijkstra pick fuel (run empty ops) dest cost out = .ok s ∧
      ∀ v ∈ nodeIds (run empty ops), ∃ d, s.dist v = some d ∧ Least (run empty ops) w v dest d ∧
        (v ≠ dest → d = ⊤ → s.out v = some ((out v).getD (-1))) ∧
        (v ≠ dest → d ≠ ⊤ → ∃ l t dt, s.out v = some l ∧ getEndpoints (run empty ops) l = .ok (v, t) ∧
          s.dist t = some dt ∧ d = w l + dt) := by
  have hc := ctx_of_run ops h
  obtain ⟨n0, hn⟩ := dijkstra_spec hc hd out
  refine ⟨n0, fun pick fuel hf => ?_⟩
  obtain ⟨s, p, h1, h2, h3⟩ := hn pick fuel hf
  refine ⟨s, h1, fun v hv => ?_⟩
  have key : ∀ v ∈ nodeIds (run empty ops), s.dist v = some (lab s.dist v) := by
    intro v hv
    obtain ⟨x, hx⟩ := Option.isSome_iff_exists.1 (h2.dist v hv)
    simp [lab, hx]
  refine ⟨_, key v hv, h3.least v, ?_, ?_⟩
  · intro hvd htop
    rw [h3.untouched v (Or.inr htop)]
    cases ho : out v <;> simp [dijInit, hvd, hv, ho]
  · intro hvd hn
    obtain ⟨l, t, e1, e2, hle⟩ := h3.next v hvd hn
    refine ⟨l, t, _, e1, e2, key t (hc.ends l v t e2).2.1, ?_⟩
    rw [add_comm]
    exact le_antisymm ((h3.tight l v t e2).resolve_left id) hle

/-- The example, with the queue served last in first out. -/
example : (dijkstra (fun _ q => q.length - 1) 9 (run empty spOps) 3 (fun l => some (spCost l)) fun _ => none).bind
      (fun s => .ok ([1, 2, 3, 4].map s.dist, [1, 2, 3, 4].map s.out)) =
      .ok ([some 2, some 1, some 0, some ⊤], [some 10, some 11, none, some (-1)]) := by
  decide +kernel

/-- **C38, finding.**  When the map of next links is used again for another destination, a node that
does not reach the new destination keeps a next link of the old one: node 3 of the example does not
reach node 1 but is given link 13. -/
theorem C38_stale_next_link :
    ((dijkstra (fun _ _ => 0) 9 (run empty spOps) 4 (fun l => some (spCost l)) fun _ => none).bind fun s =>
      (dijkstra (fun _ _ => 0) 9 (run empty spOps) 1 (fun l => some (spCost l)) s.out).bind fun s' =>
        .ok (s'.dist 3, s'.out 3)) = .ok (some ⊤, some 13) := by
  decide +kernel

/-! ## C36 -/

/-- **C36.**  Extracting a path from the next links of the queue-based shortest path: if some walk of
finite cost leads from `v` to the destination, the result is a walk from `v` to the destination with
its node sequence, of cost equal to the reported distance; otherwise the result is null. -/
theorem C36_extract_path_fifo (ops : List Op) (dest : ℤ) (hd : dest ∈ nodeIds (run empty ops))
    (cost : ℤ → Option Cost) (w : ℤ → Cost) (h : Costs (run empty ops) cost w) (out : ℤ → Option ℤ)
    (v : ℤ) (hv : v ∈ nodeIds (run empty ops)) :
    ∃ n0 s n1, (∀ fuel, n0 ≤ fuel → fifo fuel (run empty ops) dest cost out = .ok s) ∧
      ((∃ ls, Walk (run empty ops) v ls dest ∧ walkCost w ls ≠ ⊤) →
        ∃ ls, (∀ fuel, n1 ≤ fuel → extractPath (run empty ops) dest s.out fuel v =
            .ok (some (walkNodes (run empty ops) v ls, ls))) ∧
          Walk (run empty ops) v ls dest ∧ s.dist v = some (walkCost w ls)) ∧
      ((∀ ls, Walk (run empty ops) v ls dest → walkCost w ls = ⊤) →
        ∀ fuel, n1 ≤ fuel → extractPath (run empty ops) dest s.out fuel v = .ok none) := by
  have hc := ctx_of_run ops h
  obtain ⟨n0, s, p, h1, h2, h3⟩ := fifo_spec hc hd out
  have hL := h3.least v
  obtain ⟨x, hx⟩ := Option.isSome_iff_exists.1 (h2.dist v hv)
  have key : s.dist v = some (lab s.dist v) := by simp [lab, hx]
  by_cases htop : lab s.dist v = ⊤
  · refine ⟨n0, s, 1, h1, ?_, ?_⟩
    · rintro ⟨ls, hw, hn⟩
      exact absurd (top_le_iff.1 (htop ▸ hL.1 ls hw)) hn
    · intro _ fuel hf
      obtain ⟨n, rfl⟩ := Nat.exists_eq_add_of_le' hf
      refine extract_none h3 htop (Or.inr ?_) n
      have hvd : v ≠ dest := by
        rintro rfl
        rw [h3.dest0] at htop
        cases htop
      simp [labInit, hvd, hv]
  · obtain ⟨ls, a, b, c⟩ := extract_reach hc h3 (h3.reach v htop) htop
    refine ⟨n0, s, ls.length + 1, h1, ?_, ?_⟩
    · intro _
      refine ⟨ls, fun fuel hf => ?_, b, by rw [c]; exact key⟩
      obtain ⟨n, rfl⟩ := Nat.exists_eq_add_of_le hf
      exact a n
    · intro hall
      exact absurd (c ▸ hall ls b) htop

/-- **C36** for Dijkstra's algorithm started with an empty map of next links. -/
theorem C36_extract_path_dijkstra (ops : List Op) (dest : ℤ) (hd : dest ∈ nodeIds (run empty ops))
    (cost : ℤ → Option Cost) (w : ℤ → Cost) (h : Costs (run empty ops) cost w)
    (v : ℤ) (hv : v ∈ nodeIds (run empty ops)) :
    ∃ n0, ∀ pick fuel, n0 ≤ fuel → ∃ s n1,
      dijkstra pick fuel (run empty ops) dest cost (fun _ => none) = .ok s ∧
      ((∃ ls, Walk (run empty ops) v ls dest ∧ walkCost w ls ≠ ⊤) →
        ∃ ls, (∀ fuel, n1 ≤ fuel → extractPath (run empty ops) dest s.out fuel v =
            .ok (some (walkNodes (run empty ops) v ls, ls))) ∧
          Walk (run empty ops) v ls dest ∧ s.dist v = some (walkCost w ls)) ∧
      ((∀ ls, Walk (run empty ops) v ls dest → walkCost w ls = ⊤) →
        ∀ fuel, n1 ≤ fuel → extractPath (run empty ops) dest s.out fuel v = .ok none) := by
  have hc := ctx_of_run ops h
  obtain ⟨n0, hn⟩ := dijkstra_spec hc hd (fun _ => none)
  refine ⟨n0, fun pick fuel hf => ?_⟩
  obtain ⟨s, p, h1, h2, h3⟩ := hn pick fuel hf
  have hL := h3.least v
  obtain ⟨x, hx⟩ := Option.isSome_iff_exists.1 (h2.dist v hv)
  have key : s.dist v = some (lab s.dist v) := by simp [lab, hx]
  by_cases htop : lab s.dist v = ⊤
  · refine ⟨s, 1, h1, ?_, ?_⟩
    · rintro ⟨ls, hw, hn⟩
      exact absurd (top_le_iff.1 (htop ▸ hL.1 ls hw)) hn
    · intro _ fuel hf
      obtain ⟨n, rfl⟩ := Nat.exists_eq_add_of_le' hf
      refine extract_none h3 htop (Or.inr ?_) n
      have hvd : v ≠ dest := by
        rintro rfl
        rw [h3.dest0] at htop
        cases htop
      simp [dijInit, hvd, hv]
  · obtain ⟨ls, a, b, c⟩ := extract_reach hc h3 (h3.reach v htop) htop
    refine ⟨s, ls.length + 1, h1, ?_, ?_⟩
    · intro _
      refine ⟨ls, fun fuel hf => ?_, b, by rw [c]; exact key⟩
      obtain ⟨n, rfl⟩ := Nat.exists_eq_add_of_le hf
      exact a n
    · intro hall
      exact absurd (c ▸ hall ls b) htop

/-- Both cases occur in the example: 1 reaches 3, 4 does not. -/
example : ((fifo 9 (run empty spOps) 3 (fun l => some (spCost l)) fun _ => none).bind fun s =>
    (extractPath (run empty spOps) 3 s.out 9 1).bind fun a =>
      (extractPath (run empty spOps) 3 s.out 9 4).bind fun b => .ok (a, b)) =
    .ok (some ([1, 2, 3], [10, 11]), none) := by
  decide +kernel

example : Walk (run empty spOps) 1 [10, 11] 3 ∧ walkCost spCost [10, 11] = 2 :=
  ⟨⟨2, by decide +kernel, 3, by decide +kernel, rfl⟩, by decide +kernel⟩

/-! ## C39 -/

/-- **C39** (FIFO and Dijkstra; the LIFO variant is excluded because the claim is false of it, see
below).  Both give the same distances. -/
theorem C39_fifo_dijkstra_agree_partial (ops : List Op) (dest : ℤ) (hd : dest ∈ nodeIds (run empty ops))
    (cost : ℤ → Option Cost) (w : ℤ → Cost) (h : Costs (run empty ops) cost w) (out out' : ℤ → Option ℤ) :
    ∃ n0, ∀ pick fuel fuel', n0 ≤ fuel → n0 ≤ fuel' → ∃ s s',
      fifo fuel (run empty ops) dest cost out = .ok s ∧
      dijkstra pick fuel' (run empty ops) dest cost out' = .ok s' ∧
      ∀ v ∈ nodeIds (run empty ops), s.dist v = s'.dist v := by
  obtain ⟨n1, s, h1, h2⟩ := C37_fifo_shortest_paths ops dest hd cost w h out
  obtain ⟨n2, h3⟩ := C38_dijkstra_shortest_paths ops dest hd cost w h out'
  refine ⟨max n1 n2, fun pick fuel fuel' hf hf' => ?_⟩
  obtain ⟨s', h4, h5⟩ := h3 pick fuel' (le_trans (le_max_right _ _) hf')
  refine ⟨s, s', h1 fuel (le_trans (le_max_left _ _) hf), h4, fun v hv => ?_⟩
  obtain ⟨d, e, ⟨l1, l2⟩, _⟩ := h2 v hv
  obtain ⟨d', e', ⟨l1', l2'⟩, _⟩ := h5 v hv
  rw [e, e']
  congr 1
  apply le_antisymm
  · rcases l2' with h | ⟨ls, hw, rfl⟩
    · rw [h]; exact le_top
    · exact l1 ls hw
  · rcases l2 with h | ⟨ls, hw, rfl⟩
    · rw [h]; exact le_top
    · exact l1' ls hw

/-- **C39, what LIFO does.**  `all_to_one_LIFO` scans all links of the graph instead of those into the
node it has taken from the deque.  For every graph, every order of the links and every destination it
ends, and it gives each node other than the destination a cheapest link leaving that node, whether or
not the link leads to the destination; nodes without such a link of finite cost get -1. -/
theorem C39_lifo_takes_cheapest_link (ops : List Op) (dest : ℤ) (hd : dest ∈ nodeIds (run empty ops))
    (cost : ℤ → Option Cost) (w : ℤ → Cost) (h : Costs (run empty ops) cost w) (out : ℤ → Option ℤ)
    (links : List ℤ) (hl : links.Perm (linkIds (run empty ops))) :
    ∃ n0 s, (∀ fuel, n0 ≤ fuel → lifo fuel links (run empty ops) dest cost out = .ok s) ∧
      ∀ v ∈ nodeIds (run empty ops), v ≠ dest →
        (∃ l t, s.out v = some l ∧ getEndpoints (run empty ops) l = .ok (v, t) ∧ w l ≠ ⊤ ∧
          ∀ l' t', getEndpoints (run empty ops) l' = .ok (v, t') → w l ≤ w l') ∨
        (s.out v = some (-1) ∧ ∀ l' t', getEndpoints (run empty ops) l' = .ok (v, t') → w l' = ⊤) := by
  have hc := ctx_of_run ops h
  obtain ⟨n0, s, h1, h2⟩ := lifo_spec hc hd (links := links) (by
    intro l
    rw [hl.mem_iff]
    constructor
    · intro hm
      obtain ⟨f, t, e, _⟩ := (C05_endpoints_unknown ops l).2 hm
      exact ⟨f, t, e⟩
    · rintro ⟨f, t, e⟩
      exact (hc.cost l f t e).2.2.2) out
  refine ⟨n0, s, h1, fun v hv hvd => ?_⟩
  by_cases htop : lab s.dist v = ⊤
  · right
    refine ⟨h2.noNext v hvd htop hv, fun l' t' e => ?_⟩
    have := h2.tight l' v t' e trivial hvd
    rw [htop] at this
    exact top_le_iff.1 this
  · left
    obtain ⟨l, t, a, b, c⟩ := h2.next v hvd htop
    refine ⟨l, t, a, b, by rw [c]; exact htop, fun l' t' e => ?_⟩
    rw [c]
    exact h2.tight l' v t' e trivial hvd

example : (linkIds (run empty spOps)).Perm (linkIds (run empty spOps)) := List.Perm.refl _

/-- **C39 is false of LIFO.**  For destination 1 of the example, which no other node reaches, the
queue-based variant reports infinity and next link -1 for node 2, while the LIFO variant reports
distance 1 and next link 11; and for destination 4 it gives node 1 the distance 1 instead of 3. -/
theorem C39_lifo_disagrees :
    (((fifo 20 (run empty spOps) 1 (fun l => some (spCost l)) fun _ => none).bind fun s =>
      (lifo 20 (linkIds (run empty spOps)) (run empty spOps) 1 (fun l => some (spCost l)) fun _ => none).bind
        fun s' => .ok ([s.dist 2, s'.dist 2], [s.out 2, s'.out 2])) =
      .ok ([some ⊤, some 1], [some (-1), some 11])) ∧
    ((fifo 20 (run empty spOps) 4 (fun l => some (spCost l)) fun _ => none).bind fun s =>
      (lifo 20 (linkIds (run empty spOps)) (run empty spOps) 4 (fun l => some (spCost l)) fun _ => none).bind
        fun s' => .ok [s.dist 1, s'.dist 1]) = .ok [some 3, some 1] := by
  decide +kernel

/-! ## C40 -/

/-- **C40.**  For every graph, destination in it, number `M` of intervals, tables of costs (not
negative) and travel times, and every iteration order of the links: the time-dependent tree ends with
one result, whose entry for a node and a departure interval is the least cost over all walks to the
destination, each link charged at the interval in which it is entered and the last interval standing
for all later times.  The stored next link leaves the node and attains the entry; it is -1 exactly at
the destination and where the destination cannot be reached. -/
theorem C40_tdsp_optimal (ops : List Op) (dest : ℤ) (hd : dest ∈ nodeIds (run empty ops)) (M : ℕ)
    (hM : 0 < M) (hM' : M ≤ 2147483647) (cost : ℤ → Option (ℕ → Cost)) (tt : ℤ → Option (ℕ → ℚ))
    (w : ℤ → ℕ → Cost) (τ : ℤ → ℕ → ℚ) (h : Tables (run empty ops) M cost tt w τ)
    (links : List ℤ) (hl : links.Perm (linkIds (run empty ops))) :
    ∃ n0 s, (∀ fuel, n0 ≤ fuel → updateTree fuel links M (run empty ops) dest cost tt = .ok s) ∧
      ∀ v ∈ nodeIds (run empty ops), ∀ t < M,
        TdLeast (run empty ops) M w τ v dest t (s.dist v t) ∧
        (v = dest ∨ s.dist v t = ⊤ → s.tree v t = -1) ∧
        (v ≠ dest → s.dist v t ≠ ⊤ → ∃ u, getEndpoints (run empty ops) (s.tree v t) = .ok (v, u) ∧
          s.dist v t = w (s.tree v t) t + s.dist u (arrive M t (τ (s.tree v t) t))) := by
  have hc := tctx_of_run ops hM' h
  have hctx : Ctx (run empty ops) (fun l => (cost l).map fun c => c (M - 1)) (fun l => w l (M - 1)) := by
    refine ctx_of_run ops ⟨?_, ?_, h.noLink⟩
    · intro l hl; simp [h.cost l hl]
    · intro l hl; exact h.nonneg l hl _ (by omega)
  obtain ⟨n0, s, h1, h2, h3⟩ := updateTree_spec hc hctx (fun l => hl.mem_iff) hM hd
  refine ⟨n0, s, h1, fun v hv t ht => ⟨⟨?_, ?_⟩, (h2 t ht).noNext v, (h2 t ht).next v⟩⟩
  · intro ls hw
    exact row_lower h2 ls v t ht hw
  · by_cases htop : s.dist v t = ⊤
    · exact Or.inl htop
    · obtain ⟨ls, a, _, c, _⟩ := follow (fun l f u e => (hctx.ends l f u e).2.1) h2 h3 _ v t ht rfl hv htop
      exact Or.inr ⟨ls, a, c⟩

/-- Tables for the example graph over three intervals: link 12 becomes cheap in the last one. -/
def spTdCost (l : ℤ) (t : ℕ) : Cost := if l = 12 then (if t = 2 then 1 else 5) else 1

/-- Travel times. -/
def spTdTime (_ : ℤ) (_ : ℕ) : ℚ := 3 / 2

theorem spTables : Tables (run empty spOps) 3 (fun l => some (spTdCost l)) (fun l => some (spTdTime l))
    spTdCost spTdTime :=
  ⟨fun _ _ => rfl, fun _ _ => rfl, by decide +kernel, by decide +kernel, by decide +kernel⟩

example : (updateTree 9 (linkIds (run empty spOps)) 3 (run empty spOps) 3 (fun l => some (spTdCost l))
    fun l => some (spTdTime l)).bind (fun s => .ok ([0, 1, 2].map (s.dist 1), [0, 1, 2].map (s.tree 1))) =
    .ok ([2, 2, 1], [10, 10, 12]) := by
  decide +kernel

/-! ## C41 -/

/-- **C41.**  A path extracted from that tree for a departure at `time ≥ 0` (times past the horizon
count as the last interval): if the tree's entry is finite, the result is a walk from the node to the
destination with its node sequence, its links are the tree's choices at the arrival intervals, its
cost is the tree's entry, and the returned travel time is the sum of the travel times of its links at
the intervals they are entered.  If the entry is infinite, the call reports failure. -/
theorem C41_extracted_tdsp (ops : List Op) (dest : ℤ) (hd : dest ∈ nodeIds (run empty ops)) (M : ℕ)
    (hM : 0 < M) (hM' : M ≤ 2147483647) (cost : ℤ → Option (ℕ → Cost)) (tt : ℤ → Option (ℕ → ℚ))
    (w : ℤ → ℕ → Cost) (τ : ℤ → ℕ → ℚ) (h : Tables (run empty ops) M cost tt w τ)
    (links : List ℤ) (hl : links.Perm (linkIds (run empty ops)))
    (v : ℤ) (hv : v ∈ nodeIds (run empty ops)) (time : ℕ) :
    ∃ n0 s n1, (∀ fuel, n0 ≤ fuel → updateTree fuel links M (run empty ops) dest cost tt = .ok s) ∧
      (s.dist v (min time (M - 1)) ≠ ⊤ → ∃ ls,
        (∀ fuel, n1 ≤ fuel → getTdsp fuel M (run empty ops) dest s tt v time =
          .ok (walkNodes (run empty ops) v ls, ls, some (tdTime M τ (min time (M - 1)) ls))) ∧
        Walk (run empty ops) v ls dest ∧ Follows (run empty ops) M τ s.tree v (min time (M - 1)) ls ∧
        tdCost M w τ (min time (M - 1)) ls = s.dist v (min time (M - 1))) ∧
      (s.dist v (min time (M - 1)) = ⊤ → ∀ fuel, n1 ≤ fuel →
        getTdsp fuel M (run empty ops) dest s tt v time = .ok ([v], [], none)) := by
  have hc := tctx_of_run ops hM' h
  have hctx : Ctx (run empty ops) (fun l => (cost l).map fun c => c (M - 1)) (fun l => w l (M - 1)) := by
    refine ctx_of_run ops ⟨?_, ?_, h.noLink⟩
    · intro l hl; simp [h.cost l hl]
    · intro l hl; exact h.nonneg l hl _ (by omega)
  obtain ⟨n0, s, h1, h2, h3⟩ := updateTree_spec hc hctx (fun l => hl.mem_iff) hM hd
  have ht : min time (M - 1) < M := by omega
  have hloop : ∀ fuel, getTdsp fuel M (run empty ops) dest s tt v time =
      tdspLoop M (run empty ops) dest s tt fuel v (min time (M - 1)) := by
    intro fuel
    unfold getTdsp
    rw [if_neg (by omega)]
    congr 1
    by_cases hlt : (time : ℤ) < M
    · rw [if_pos hlt]; omega
    · rw [if_neg hlt]; omega
  by_cases htop : s.dist v (min time (M - 1)) = ⊤
  · refine ⟨n0, s, 1, h1, fun hn => absurd htop hn, fun _ fuel hf => ?_⟩
    obtain ⟨n, rfl⟩ := Nat.exists_eq_add_of_le' hf
    have hvd : v ≠ dest := by
      rintro rfl
      rw [(h2 _ ht).dest0] at htop
      cases htop
    rw [hloop]
    simp only [tdspLoop, if_neg hvd, (h2 _ ht).noNext v (Or.inr htop), if_true]
  · obtain ⟨ls, a, b, c, _, d⟩ :=
      follow (fun l f u e => (hctx.ends l f u e).2.1) h2 h3 _ v _ ht rfl hv htop
    refine ⟨n0, s, ls.length + 1, h1, fun _ => ⟨ls, fun fuel hf => ?_, a, b, c⟩, fun hn => absurd hn htop⟩
    obtain ⟨n, rfl⟩ := Nat.exists_eq_add_of_le hf
    rw [hloop]
    exact tdspLoop_follow hc ls v _ n ht a b d

/-- Both cases occur in the example. -/
example : ((updateTree 9 (linkIds (run empty spOps)) 3 (run empty spOps) 3 (fun l => some (spTdCost l))
      fun l => some (spTdTime l)).bind fun s =>
    (getTdsp 9 3 (run empty spOps) 3 s (fun l => some (spTdTime l)) 1 0).bind fun a =>
      (getTdsp 9 3 (run empty spOps) 3 s (fun l => some (spTdTime l)) 4 77).bind fun b => .ok (a, b)) =
    .ok (([1, 2, 3], [10, 11], some 3), ([4], [], none)) := by
  decide +kernel

/-! ## C63 -/

/-- A graph with two parallel links 11 and 12 from 2 to 3, behind link 10 from 1. -/
def turnOps : List Op :=
  [.addNode 1, .addNode 2, .addNode 3, .addLink 1 2 10, .addLink 2 3 11, .addLink 2 3 12]

/-- **C63 is false.**  With a cost 1 for links 10 and 11, 2 for link 12, and a turn cost 10 from link
10 into link 11, the walk 10, 12 costs 3, but the routine with turn costs reports 12 for node 1: it
keeps one label per node and never reconsiders the dearer link 12. -/
theorem C63_turn_costs_not_optimal :
    ((fifoTurn 20 (run empty turnOps) 3 (fun l => some (if l = 12 then 2 else 1))
      (fun a b => if a = 10 ∧ b = 11 then some 10 else none) fun _ => none).bind fun s =>
        .ok (s.dist 1, s.out 1, s.out 2)) = .ok (some 12, some 10, some 11) ∧
    turnCost (fun l => if l = 12 then 2 else 1) (fun a b => if a = 10 ∧ b = 11 then 10 else 0) [10, 12] = 3 ∧
    Walk (run empty turnOps) 1 [10, 12] 3 :=
  ⟨by decide +kernel, by decide +kernel, ⟨2, by decide +kernel, 3, by decide +kernel, rfl⟩⟩

/-- **C63** for the case that the claim does hold: without turn costs the routine with turn costs is
the plain one, whose distances are least costs. -/
theorem C63_without_turn_costs_partial (ops : List Op) (dest : ℤ) (hd : dest ∈ nodeIds (run empty ops))
    (cost : ℤ → Option Cost) (w : ℤ → Cost) (h : Costs (run empty ops) cost w) (out : ℤ → Option ℤ) :
    ∃ n0 s, (∀ fuel, n0 ≤ fuel → fifoTurn fuel (run empty ops) dest cost (fun _ _ => none) out = .ok s) ∧
      ∀ v ∈ nodeIds (run empty ops), ∃ d, s.dist v = some d ∧
        (∀ ls, Walk (run empty ops) v ls dest → d ≤ turnCost w (fun _ _ => 0) ls) ∧
        (d = ⊤ ∨ ∃ ls, Walk (run empty ops) v ls dest ∧ turnCost w (fun _ _ => 0) ls = d) := by
  obtain ⟨n0, s, h1, h2⟩ := C37_fifo_shortest_paths ops dest hd cost w h out
  have ht : ∀ ls, turnCost w (fun _ _ => 0) ls = walkCost w ls := by
    intro ls
    induction ls with
    | nil => rfl
    | cons l ls ih =>
      cases ls with
      | nil => simp [turnCost, walkCost]
      | cons l' ls => rw [turnCost, ih, walkCost_cons w l, add_zero]
  refine ⟨n0, s, fun fuel hf => ?_, fun v hv => ?_⟩
  · rw [← h1 fuel hf]
    unfold fifoTurn fifo
    refine fifoTurnLoop_none fuel _ ?_
    intro x hx
    left
    simpa [labInit] using hx
  · obtain ⟨d, e, ⟨a, b⟩, _⟩ := h2 v hv
    refine ⟨d, e, fun ls hw => ?_, ?_⟩
    · rw [ht]; exact a ls hw
    · rcases b with b | ⟨ls, hw, hc⟩
      · exact Or.inl b
      · exact Or.inr ⟨ls, hw, by rw [ht]; exact hc⟩

/-! ## C76 -/

/-- **C76.**  `is_FIFO` answers true exactly when on no link a later departure arrives earlier: for
every link and all intervals `i < j` of the horizon, leaving at the start of `i` arrives no later than
leaving at the start of `j`. -/
theorem C76_is_fifo_exact (links : List ℤ) (cost : ℤ → ℕ → ℚ) (M : ℕ) (unit : ℚ) :
    isFifo links cost M unit = true ↔
      ∀ l ∈ links, ∀ i j : ℕ, i < j → j < M → i * unit + cost l i ≤ j * unit + cost l j := by
  unfold isFifo
  simp only [List.all_eq_true, List.mem_range, Bool.not_eq_true', decide_eq_false_iff_not, gt_iff_lt,
    not_lt]
  constructor
  · intro h l hl i j hij hj
    obtain ⟨k, rfl⟩ : ∃ k, j = i + k + 1 := ⟨j - i - 1, by omega⟩
    clear hij
    induction k with
    | zero =>
      have := h l hl i (by omega)
      push_cast
      linarith
    | succ k ih =>
      have a := ih (by omega)
      have b := h l hl (i + k + 1) (by omega)
      push_cast at a ⊢
      rw [show i + (k + 1) + 1 = i + k + 1 + 1 by omega]
      linarith
  · intro h l hl i hi
    have := h l hl i (i + 1) (by omega) (by omega)
    push_cast at this
    linarith

example : isFifo [1, 2] (fun l i => if l = 1 then 3 else [5, 4, 2].getD i 0) 3 2 = true ∧
    isFifo [1, 2] (fun l i => if l = 1 then 3 else [5, 4, 2].getD i 0) 3 1 = false := by
  decide +kernel

end Verif

import Verif.Lemmas.Graph

/-!
# Properties C01–C06: the graph container

`run empty ops` is the graph after any sequence of calls (failed calls raise an exception,
which the caller catches); `Spec.empty.run ops` is the same history over plain lists.
-/

namespace Verif
open Graph

/-- C01.  In every reachable graph node identifiers and link identifiers are unique, a call
succeeds exactly when the history so far makes it legal, otherwise it throws and changes
nothing, and the containers hold exactly the accepted identifiers. -/
theorem C01_ids_unique_and_failed_calls_harmless (ops : List Op) (op : Op) :
    let g := run empty ops
    let s := Spec.empty.run ops
    (nodeIds g).Nodup ∧ (linkIds g).Nodup ∧
    nodeIds g = s.nodes ∧ linkIds g = s.linkIds.reverse ∧
    sizeNodes g = s.nodes.length ∧ sizeLinks g = s.links.length ∧
    ((exec g op).isOk = true ↔ s.accepts op = true) ∧
    (s.accepts op = false → (∃ m, exec g op = .throw m) ∧ step g op = g) := by
  intro g s
  have h : Rel g s := run_rel_empty ops
  have hx := exec_spec h op
  refine ⟨?_, ?_, h.nodeKeys, h.linkKeys, ?_, ?_, by rw [hx.1], ?_⟩
  · show g.nodes.keys.Nodup
    rw [h.nodeKeys]; exact h.nodeNodup
  · show g.links.keys.Nodup
    rw [h.linkKeys, (List.reverse_perm _).nodup_iff]; exact h.linkNodup
  · show g.nodes.length = _
    rw [← h.nodeKeys]; simp [Store.keys]
  · have := congrArg List.length h.linkKeys
    simpa [Store.keys, Spec.linkIds, sizeLinks] using this
  · intro ha
    obtain ⟨m, hm⟩ := hx.2.2 ha
    exact ⟨⟨m, hm⟩, by simp [step, hm, Res.stateOr]⟩

-- A history in which three calls fail (duplicate node, self-loop, duplicate link).
example : (Spec.empty.run [.addNode 1, .addNode 2, .addNode 1, .addLink 1 1 7, .addLink 1 2 7,
    .addLink 2 1 7]) = ⟨[1, 2], [(7, 1, 2)]⟩ := by decide
example : nodeIds (run empty [.addNode 1, .addNode 2, .addNode 1]) = [1, 2] := by decide

/-- C02.  `connections (n, d)` of a directed graph terminates without touching an invalid
pointer and lists every link that enters (`d = inc`) or leaves (`d = out`) node `n` exactly
once, newest first; for an unknown node it throws. -/
theorem C02_directed_connections (ops : List Op) (n : Int) (d : Dir) (fuel : Nat)
    (hf : sizeLinks (run empty ops) < fuel) :
    let g := run empty ops
    let s := Spec.empty.run ops
    (n ∈ nodeIds g → ∃ l, connections fuel g n d = .ok l ∧ l.Nodup ∧ l = s.incident d n ∧
      ∀ i, i ∈ l ↔ ∃ f t, getEndpoints g i = .ok (f, t) ∧ (match d with | .inc => t | .out => f) = n) ∧
    (n ∉ nodeIds g → connections fuel g n d = .throw "out_of_range") := by
  intro g s
  have h : Rel g s := run_rel_empty ops
  have hlen : s.links.length < fuel := by
    have := congrArg List.length h.linkKeys
    simp [Store.keys, Spec.linkIds] at this
    have hf' : g.links.length < fuel := hf
    omega
  constructor
  · intro hn
    have hn' : n ∈ s.nodes := h.nodeKeys ▸ hn
    refine ⟨_, connections_spec h hn' d hlen, ?_, rfl, ?_⟩
    · exact List.Nodup.sublist ((List.filter_sublist).map _) h.linkNodup
    · intro i
      simp only [Spec.incident, List.mem_map, List.mem_filter]
      constructor
      · rintro ⟨⟨a, f, t⟩, ⟨hm, ht⟩, rfl⟩
        refine ⟨f, t, getEndpoints_spec h hm, ?_⟩
        cases d <;> simpa [Spec.touches] using ht
      · rintro ⟨f, t, he, ht⟩
        by_cases hi : i ∈ s.linkIds
        · obtain ⟨f', t', hm⟩ := linkIds_mem hi
          rw [getEndpoints_spec h hm] at he
          simp at he
          obtain ⟨rfl, rfl⟩ := he
          exact ⟨_, ⟨hm, by cases d <;> simpa [Spec.touches] using ht⟩, rfl⟩
        · rw [getEndpoints_none h hi] at he; cases he
  · intro hn
    have hn' : n ∉ s.nodes := h.nodeKeys ▸ hn
    simp [connections, connectionsGen, getNode, get_node_none h hn', Res.bind]

example : connections 4 (run empty [.addNode 1, .addNode 2, .addNode 3, .addLink 1 2 7,
    .addLink 1 3 8, .addLink 3 1 9]) 1 .out = .ok [8, 7] := by decide

/-- C03.  `connections (n)` of an undirected graph terminates and lists every link incident to
`n` exactly once (first those stored as incoming, then the others). -/
theorem C03_undirected_connections (ops : List Op) (n : Int) (fuel : Nat)
    (hf : sizeLinks (run empty ops) < fuel) :
    let g := run empty ops
    (n ∈ nodeIds g → ∃ l, connectionsUn fuel g n = .ok l ∧ l.Nodup ∧
      ∀ i, i ∈ l ↔ ∃ f t, getEndpoints g i = .ok (f, t) ∧ (f = n ∨ t = n)) ∧
    (n ∉ nodeIds g → connectionsUn fuel g n = .throw "out_of_range") := by
  intro g
  have h : Rel g (Spec.empty.run ops) := run_rel_empty ops
  revert h
  generalize Spec.empty.run ops = s
  intro h
  have hlen : s.links.length < fuel := by
    have := congrArg List.length h.linkKeys
    simp [Store.keys, Spec.linkIds] at this
    have hf' : g.links.length < fuel := hf
    omega
  constructor
  · intro hn
    have hn' : n ∈ s.nodes := h.nodeKeys ▸ hn
    refine ⟨_, connectionsUn_spec h hn' hlen, ?_, ?_⟩
    · rw [List.nodup_append]
      refine ⟨List.Nodup.sublist ((List.filter_sublist).map _) h.linkNodup,
        List.Nodup.sublist ((List.filter_sublist).map _) h.linkNodup, ?_⟩
      intro a ha b hb hab
      subst hab
      simp only [Spec.incident, List.mem_map, List.mem_filter] at ha hb
      obtain ⟨⟨a1, f1, t1⟩, ⟨hm1, ht1⟩, rfl⟩ := ha
      obtain ⟨⟨a2, f2, t2⟩, ⟨hm2, ht2⟩, e2⟩ := hb
      simp only at e2
      subst e2
      have e := (getEndpoints_spec h hm1).symm.trans (getEndpoints_spec h hm2)
      simp at e
      obtain ⟨rfl, rfl⟩ := e
      simp [Spec.touches] at ht1 ht2
      exact (h.ends _ _ _ hm1).2.2.1 (ht2.trans ht1.symm)
    · intro i
      simp only [List.mem_append, Spec.incident, List.mem_map, List.mem_filter]
      constructor
      · rintro (⟨⟨a, f, t⟩, ⟨hm, ht⟩, rfl⟩ | ⟨⟨a, f, t⟩, ⟨hm, ht⟩, rfl⟩)
        · exact ⟨f, t, getEndpoints_spec h hm, Or.inr (by simpa [Spec.touches] using ht)⟩
        · exact ⟨f, t, getEndpoints_spec h hm, Or.inl (by simpa [Spec.touches] using ht)⟩
      · rintro ⟨f, t, he, ht⟩
        by_cases hi : i ∈ s.linkIds
        · obtain ⟨f', t', hm⟩ := linkIds_mem hi
          rw [getEndpoints_spec h hm] at he
          simp at he
          obtain ⟨rfl, rfl⟩ := he
          rcases ht with ht | ht
          · exact Or.inr ⟨_, ⟨hm, by simpa [Spec.touches] using ht⟩, rfl⟩
          · exact Or.inl ⟨_, ⟨hm, by simpa [Spec.touches] using ht⟩, rfl⟩
        · rw [getEndpoints_none h hi] at he; cases he
  · intro hn
    have hn' : n ∉ s.nodes := h.nodeKeys ▸ hn
    simp [connectionsUn, connectionsGen, getNode, get_node_none h hn', Res.bind]

example : connectionsUn 4 (run empty [.addNode 1, .addNode 2, .addNode 3, .addLink 1 2 7,
    .addLink 1 3 8, .addLink 3 1 9]) 1 = .ok [9, 8, 7] := by decide

/-- C04, what the code does.  `neighbors (n, d)` terminates without undefined behaviour but
yields only the far end of the *newest* link in that direction (at most one node). -/
theorem C04_neighbors_first_only (ops : List Op) (n : Int) (d : Dir) (fuel : Nat)
    (hf : sizeLinks (run empty ops) < fuel) (hn : n ∈ nodeIds (run empty ops)) :
    neighbors fuel (run empty ops) n d = .ok (((Spec.empty.run ops).farEnds d n).take 1) := by
  have h := run_rel_empty ops
  apply neighbors_spec h (h.nodeKeys ▸ hn)
  have := congrArg List.length h.linkKeys
  simp [Store.keys, Spec.linkIds] at this
  have hf' : (run empty ops).links.length < fuel := hf
  omega

/-- C04, the negation.  As soon as a node has two different neighbours in a direction,
`neighbors` omits one of them (`graph.h:263-271` marks every later link as seen). -/
theorem C04_neighbors_incomplete (ops : List Op) (n a b : Int) (d : Dir) (fuel : Nat)
    (hf : sizeLinks (run empty ops) < fuel) (hn : n ∈ nodeIds (run empty ops))
    (ha : a ∈ (Spec.empty.run ops).farEnds d n) (_hb : b ∈ (Spec.empty.run ops).farEnds d n)
    (hab : a ≠ b) :
    ∃ l, neighbors fuel (run empty ops) n d = .ok l ∧ (a ∉ l ∨ b ∉ l) := by
  refine ⟨_, C04_neighbors_first_only ops n d fuel hf hn, ?_⟩
  cases h : (Spec.empty.run ops).farEnds d n with
  | nil => rw [h] at ha; cases ha
  | cons x xs =>
    by_cases hx : a = x
    · subst hx; right; simpa using Ne.symm hab
    · left; simpa using hx

-- Concrete witness: node 1 has neighbours 2 and 3, the call returns only 3.
example : neighbors 3 (run empty [.addNode 1, .addNode 2, .addNode 3, .addLink 1 2 7,
    .addLink 1 3 8]) 1 .out = .ok [3] ∧
    (Spec.empty.run [.addNode 1, .addNode 2, .addNode 3, .addLink 1 2 7, .addLink 1 3 8]).farEnds
      .out 1 = [3, 2] := by decide

/-- C04 (partial).  The full claim is: `neighbors (n, d)` yields exactly the set of far ends of
the links of `n` in direction `d`, each once.  Missing: nodes with two or more different
neighbours, for which the claim is false (`C04_neighbors_incomplete`).  Proved: it holds
whenever all links of `n` in that direction (possibly parallel) lead to one node. -/
theorem C04_neighbors_exact_partial (ops : List Op) (n : Int) (d : Dir) (fuel : Nat)
    (hf : sizeLinks (run empty ops) < fuel) (hn : n ∈ nodeIds (run empty ops))
    (hone : ∀ a ∈ (Spec.empty.run ops).farEnds d n, ∀ b ∈ (Spec.empty.run ops).farEnds d n, a = b) :
    ∃ l, neighbors fuel (run empty ops) n d = .ok l ∧ l.Nodup ∧
      ∀ x, x ∈ l ↔ x ∈ (Spec.empty.run ops).farEnds d n := by
  refine ⟨_, C04_neighbors_first_only ops n d fuel hf hn, ?_, ?_⟩
  · cases (Spec.empty.run ops).farEnds d n <;> simp
  · intro x
    cases h : (Spec.empty.run ops).farEnds d n with
    | nil => simp
    | cons y ys =>
      rw [h] at hone
      simp only [List.take_succ_cons, List.take_zero, List.mem_cons, List.not_mem_nil, or_false]
      constructor
      · exact Or.inl
      · rintro (h | h)
        · exact h
        · exact (hone y (by simp) x (by simp [h])).symm

-- Two parallel links from 1 to 2: the hypothesis holds with two links.
example : (Spec.empty.run [.addNode 1, .addNode 2, .addLink 1 2 7, .addLink 1 2 8]).farEnds .out 1
    = [2, 2] := by decide

/-- C04, undirected graphs: the exact result, for every history: the newest outgoing far end,
then the newest incoming far end unless it is already an outgoing far end. -/
theorem C04_neighbors_undirected (ops : List Op) (n : Int) (fuel : Nat)
    (hf : sizeLinks (run empty ops) + 2 < fuel) (hn : n ∈ nodeIds (run empty ops)) :
    let s := Spec.empty.run ops
    neighborsUn fuel (run empty ops) n = .ok
      (match s.farEnds .out n, s.farEnds .inc n with
       | [], [] => []
       | [], y :: _ => [y]
       | x :: _, [] => [x]
       | x :: xs, y :: _ => if y ∈ x :: xs then [x] else [x, y]) := by
  intro s
  have h := run_rel_empty ops
  have := congrArg List.length h.linkKeys
  simp [Store.keys, Spec.linkIds] at this
  have hf' : (run empty ops).links.length + 2 < fuel := hf
  rw [neighborsUn_spec h (h.nodeKeys ▸ hn) (by omega)]
  show Res.ok (nbrUnSpec (s.farEnds .out n) (s.farEnds .inc n)) = _
  cases s.farEnds .out n with
  | nil => cases s.farEnds .inc n <;> simp [nbrUnSpec]
  | cons x xs =>
    cases s.farEnds .inc n with
    | nil => simp [nbrUnSpec]
    | cons y ys =>
      by_cases hy : y ∈ x :: xs
      · have hy' := hy
        rw [List.mem_cons] at hy'
        simp [nbrUnSpec, hy']
        exact hy'.resolve_left
      · have hy' := hy
        rw [List.mem_cons] at hy'
        simp [nbrUnSpec, hy']
        exact not_or.1 hy'

example : neighborsUn 9 (run empty [.addNode 1, .addNode 2, .addNode 3, .addNode 4, .addLink 1 2 7,
    .addLink 1 3 8, .addLink 4 1 9]) 1 = .ok [3, 4] := by decide

/-- C05.  The endpoints of a link are those given to the `add_link` call that created it, and
no later call, successful or not, changes them or removes the link. -/
theorem C05_endpoints_immutable (before after : List Op) (f t id : Int)
    (hok : (exec (run empty before) (.addLink f t id)).isOk = true) :
    getEndpoints (run empty (before ++ .addLink f t id :: after)) id = .ok (f, t) := by
  have h := run_rel_empty before
  have hx := exec_spec h (.addLink f t id)
  rw [hx.1] at hok
  have hrun := run_rel_empty (before ++ .addLink f t id :: after)
  apply getEndpoints_spec hrun
  have : Spec.empty.run (before ++ .addLink f t id :: after) =
      ((Spec.empty.run before).step (.addLink f t id)).run after := by
    simp [Spec.run]
  rw [this]
  apply links_mono
  simp [Spec.step, hok]

/-- C05, the other direction: `get_endpoints` throws exactly on links never created. -/
theorem C05_endpoints_unknown (ops : List Op) (id : Int) :
    (id ∉ linkIds (run empty ops) → getEndpoints (run empty ops) id = .throw "out_of_range") ∧
    (id ∈ linkIds (run empty ops) → ∃ f t, getEndpoints (run empty ops) id = .ok (f, t) ∧
      f ≠ t ∧ f ∈ nodeIds (run empty ops) ∧ t ∈ nodeIds (run empty ops)) := by
  have h := run_rel_empty ops
  have hk : linkIds (run empty ops) = (Spec.empty.run ops).linkIds.reverse := h.linkKeys
  have hnk : nodeIds (run empty ops) = (Spec.empty.run ops).nodes := h.nodeKeys
  rw [hk, hnk]
  simp only [List.mem_reverse]
  refine ⟨getEndpoints_none h, fun hi => ?_⟩
  obtain ⟨f, t, hm⟩ := linkIds_mem hi
  obtain ⟨a, b, c, _⟩ := h.ends id f t hm
  exact ⟨f, t, getEndpoints_spec h hm, c, a, b⟩

example : (exec (run empty [.addNode 1, .addNode 2]) (.addLink 1 2 7)).isOk = true ∧
    getEndpoints (run empty ([.addNode 1, .addNode 2] ++ .addLink 1 2 7 :: [.addLink 2 1 7])) 7
      = .ok (1, 2) := by decide

/-- C06.  For every reachable graph and every iteration order of its containers,
`reverse_graph` succeeds and returns a graph with the same nodes and the same links in which
the two endpoints of every link are exchanged, and in which the incoming links of a node are
its former outgoing links and vice versa. -/
theorem C06_reverse_graph (ops : List Op) (no lo : List Int)
    (hno : no.Perm (nodeIds (run empty ops))) (hlo : lo.Perm (linkIds (run empty ops))) :
    ∃ r, reverseGraph (run empty ops) no lo = .ok r ∧
      (nodeIds r).Perm (nodeIds (run empty ops)) ∧
      (linkIds r).Perm (linkIds (run empty ops)) ∧
      (∀ i f t, getEndpoints r i = .ok (f, t) ↔ getEndpoints (run empty ops) i = .ok (t, f)) ∧
      (∀ n d fuel l, sizeLinks (run empty ops) < fuel →
        connections fuel (run empty ops) n d = .ok l →
        ∃ l', connections fuel r n d.invert = .ok l' ∧ l'.Perm l) := by
  have h := run_rel_empty ops
  have hk : linkIds (run empty ops) = (Spec.empty.run ops).linkIds.reverse := h.linkKeys
  have hnk : nodeIds (run empty ops) = (Spec.empty.run ops).nodes := h.nodeKeys
  revert hk hnk h hno hlo
  generalize run empty ops = g
  generalize Spec.empty.run ops = s
  intro hno hlo h hk hnk
  rw [hnk] at hno
  rw [hk] at hlo
  obtain ⟨r, s', e, h', hn', hi', hl'⟩ := reverse_spec h hno (hlo.trans (List.reverse_perm _))
  have hlen : s'.links.length = s.links.length := by
    have h1 : s'.linkIds.length = lo.length := by rw [hi']; simp
    have h2 := hlo.length_eq
    simp [Spec.linkIds] at h1 h2
    omega
  refine ⟨r, e, ?_, ?_, ?_, ?_⟩
  · rw [show nodeIds r = s'.nodes from h'.nodeKeys, hn', hnk]; exact hno
  · rw [show linkIds r = s'.linkIds.reverse from h'.linkKeys, hi', hk]; simpa using hlo
  · intro i f t
    have fwd : ∀ {g : G} {s : Spec}, Rel g s → ∀ {i f t}, getEndpoints g i = .ok (f, t) →
        (i, f, t) ∈ s.links := by
      intro g s h i f t he
      by_cases hi : i ∈ s.linkIds
      · obtain ⟨f', t', hm⟩ := linkIds_mem hi
        rw [getEndpoints_spec h hm] at he
        simp at he
        obtain ⟨rfl, rfl⟩ := he
        exact hm
      · rw [getEndpoints_none h hi] at he; cases he
    constructor
    · intro he; exact getEndpoints_spec h ((hl' i f t).1 (fwd h' he))
    · intro he; exact getEndpoints_spec h' ((hl' i f t).2 (fwd h he))
  · intro n d fuel l hf hc
    by_cases hn : n ∈ s.nodes
    · have hlk := congrArg List.length hk
      have hf' : s.links.length < fuel := by
        have e1 : sizeLinks g = (linkIds g).length := by simp [sizeLinks, linkIds, Store.keys]
        rw [e1, hk] at hf
        simpa [Spec.linkIds] using hf
      rw [connections_spec h hn d hf'] at hc
      cases hc
      refine ⟨_, connections_spec h' (by rw [hn']; exact hno.mem_iff.2 hn) d.invert (by omega), ?_⟩
      have nd : ∀ {g : G} {s : Spec}, Rel g s → ∀ d, (s.incident d n).Nodup := fun h d =>
        List.Nodup.sublist ((List.filter_sublist).map _) h.linkNodup
      rw [List.perm_ext_iff_of_nodup (nd h' _) (nd h _)]
      intro i
      simp only [Spec.incident, List.mem_map, List.mem_filter]
      constructor
      · rintro ⟨⟨a, f, t⟩, ⟨hm, ht⟩, rfl⟩
        exact ⟨(a, t, f), ⟨(hl' a f t).1 hm, by cases d <;> simpa [Spec.touches, Dir.invert] using ht⟩, rfl⟩
      · rintro ⟨⟨a, f, t⟩, ⟨hm, ht⟩, rfl⟩
        exact ⟨(a, t, f), ⟨(hl' a t f).2 hm, by cases d <;> simpa [Spec.touches, Dir.invert] using ht⟩, rfl⟩
    · simp [connections, connectionsGen, getNode, get_node_none h hn, Res.bind] at hc

example : (do
    let r ← reverseGraph (run empty [.addNode 1, .addNode 2, .addNode 3, .addLink 1 2 7,
      .addLink 2 3 8]) [2, 1, 3] [8, 7]
    let a ← getEndpoints r 7
    let b ← connections 3 r 2 .out
    return (a, b)) = .ok ((2, 1), [7]) := by decide

end Verif

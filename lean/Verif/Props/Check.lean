import Verif.Props.ShortestPath
import Verif.Spec.Check

/-!
# C217: the check of the input files
-/

namespace Verif
open Graph Sp Chk

private theorem end_eq (ops : List Op) (src flag : Bool) {n : ℤ} (hn : n ∈ nodeIds (run empty ops)) :
    ∃ b : Bool, endOk (run empty ops) src flag n = .ok (flag && b) ∧
      (b = true ↔ if src then Leaves (run empty ops) n ∧ ¬ Enters (run empty ops) n
        else Enters (run empty ops) n ∧ ¬ Leaves (run empty ops) n) := by
  obtain ⟨o, e1, -, -, h1⟩ := (C02_directed_connections ops n .out _ (Nat.lt_succ_self _)).1 hn
  obtain ⟨i, e2, -, -, h2⟩ := (C02_directed_connections ops n .inc _ (Nat.lt_succ_self _)).1 hn
  have ho : Leaves (run empty ops) n ↔ o ≠ [] := by
    unfold Leaves
    constructor
    · rintro ⟨l, t, h⟩ rfl
      exact absurd ((h1 l).2 ⟨n, t, h, rfl⟩) (by simp)
    · intro h
      obtain ⟨l, r, rfl⟩ := List.exists_cons_of_ne_nil h
      obtain ⟨f, t, e, rfl⟩ := (h1 l).1 (by simp)
      exact ⟨l, t, e⟩
  have hi : Enters (run empty ops) n ↔ i ≠ [] := by
    unfold Enters
    constructor
    · rintro ⟨l, f, h⟩ rfl
      exact absurd ((h2 l).2 ⟨f, n, h, rfl⟩) (by simp)
    · intro h
      obtain ⟨l, r, rfl⟩ := List.exists_cons_of_ne_nil h
      obtain ⟨f, t, e, rfl⟩ := (h2 l).1 (by simp)
      exact ⟨l, f, e⟩
  obtain ⟨r, hr⟩ : ∃ r, getNode (run empty ops) n = .ok r := by
    unfold connections connectionsGen at e1
    obtain ⟨r, hr, _⟩ := Res.bind_eq_ok'.1 e1
    exact ⟨r, hr⟩
  refine ⟨if src then !o.isEmpty && i.isEmpty else o.isEmpty && !i.isEmpty, ?_, ?_⟩
  · unfold endOk
    rw [hr, Res.bind_ok', e1, Res.bind_ok', e2, Res.bind_ok']
  · rw [ho, hi]
    cases src <;> cases o <;> cases i <;> simp

private theorem ends_eq (ops : List Op) (src : Bool) : ∀ (ns : List ℤ) (flag : Bool), (∀ n ∈ ns, n ∈ nodeIds (run empty ops)) →
    ∃ b : Bool, Res.foldlM (endOk (run empty ops) src) flag ns = .ok b ∧
      (b = true ↔ flag = true ∧ ∀ n ∈ ns, if src then Leaves (run empty ops) n ∧ ¬ Enters (run empty ops) n
        else Enters (run empty ops) n ∧ ¬ Leaves (run empty ops) n) := by
  intro ns
  induction ns with
  | nil => intro flag _; exact ⟨flag, rfl, by simp⟩
  | cons n ns ih =>
    intro flag h
    obtain ⟨b, e, hb⟩ := end_eq ops src flag (h n (by simp))
    obtain ⟨b', e', hb'⟩ := ih (flag && b) fun x hx => h x (by simp [hx])
    refine ⟨b', ?_, ?_⟩
    · rw [Res.foldlM_cons, e, Res.ok_bind, e']
    · rw [hb', Bool.and_eq_true, hb, List.forall_mem_cons, and_assoc]

private theorem ones_finite (ls : List ℤ) : walkCost (fun _ => (1 : Cost)) ls ≠ ⊤ := by
  induction ls with
  | nil => simp [walkCost]
  | cons l ls ih =>
    simp only [walkCost, List.map_cons, List.sum_cons] at ih ⊢
    exact WithTop.add_ne_top.2 ⟨by exact WithTop.one_ne_top, ih⟩

private theorem reach_eq (out : ℤ → Option ℤ) : ∀ (os : List ℤ), (∀ o ∈ os, ∃ l, out o = some l) →
    ∃ b : Bool, reach out os = .ok b ∧ (b = true ↔ ∀ o ∈ os, out o ≠ some (-1)) := by
  intro os
  induction os with
  | nil => intro _; exact ⟨true, rfl, by simp⟩
  | cons o os ih =>
    intro h
    obtain ⟨l, hl⟩ := h o (by simp)
    obtain ⟨b, e, hb⟩ := ih fun x hx => h x (by simp [hx])
    by_cases h1 : l = -1
    · refine ⟨false, by simp [reach, hl, h1], ?_⟩
      simp [hl, h1]
    · refine ⟨b, by simp [reach, hl, h1, e], ?_⟩
      rw [hb, List.forall_mem_cons]
      simp [hl, h1]

private theorem connected_eq (ops : List Op) (links origins : List ℤ) (hno : -1 ∉ linkIds (run empty ops))
    (hl : ∀ l ∈ linkIds (run empty ops), l ∈ links) (ho : ∀ o ∈ origins, o ∈ nodeIds (run empty ops)) :
    ∀ (ds : List ℤ) (out : ℤ → Option ℤ), (∀ d ∈ ds, d ∈ nodeIds (run empty ops)) → (∀ o ∈ origins, o ∉ ds) →
    ∃ (n0 : ℕ) (b : Bool), (∀ fuel, n0 ≤ fuel →
        connected fuel (run empty ops) (fun l => if l ∈ links then some 1 else none) origins ds out = .ok b) ∧
      (b = true ↔ ∀ d ∈ ds, ∀ o ∈ origins, ∃ ls, Walk (run empty ops) o ls d) := by
  intro ds
  induction ds with
  | nil => intro out _ _; exact ⟨0, true, fun _ _ => rfl, by simp⟩
  | cons d ds ih =>
    intro out hd hne
    have hc : Costs (run empty ops) (fun l => if l ∈ links then some 1 else none) (fun _ => 1) :=
      ⟨fun l h => if_pos (hl l h), fun _ _ => zero_le_one, hno⟩
    obtain ⟨n1, s, e1, h1⟩ := C37_fifo_shortest_paths ops d (hd d (by simp)) _ _ hc out
    have key : ∀ o ∈ origins, (∃ l, s.out o = some l) ∧ (s.out o ≠ some (-1) ↔ ∃ ls, Walk (run empty ops) o ls d) := by
      intro o hoo
      have hod : o ≠ d := fun e => hne o hoo (by simp [e])
      obtain ⟨c, _, hleast, ht, hf⟩ := h1 o (ho o hoo)
      by_cases hct : c = ⊤
      · refine ⟨⟨_, ht hod hct⟩, ?_⟩
        rw [ht hod hct]
        simp only [ne_eq, not_true_eq_false, false_iff]
        rintro ⟨ls, hw⟩
        have := hleast.1 ls hw
        rw [hct, top_le_iff] at this
        exact ones_finite ls this
      · obtain ⟨l, t, dt, e, he, _⟩ := hf hod hct
        refine ⟨⟨l, e⟩, ?_⟩
        have hlne : l ≠ -1 := by
          rintro rfl
          rw [(C05_endpoints_unknown ops (-1)).1 hno] at he
          simp at he
        rw [e]
        simp only [ne_eq, Option.some.injEq, hlne, not_false_eq_true, true_iff]
        rcases hleast.2 with h | ⟨ls, hw, _⟩
        · exact absurd h hct
        · exact ⟨ls, hw⟩
    obtain ⟨b, e2, hb⟩ := reach_eq s.out origins fun o hoo => (key o hoo).1
    obtain ⟨n2, b', e3, hb'⟩ := ih s.out (fun x hx => hd x (by simp [hx])) fun o hoo h => hne o hoo (by simp [h])
    refine ⟨max n1 n2, b && b', fun fuel hfuel => ?_, ?_⟩
    · rw [connected, e1 fuel (le_trans (le_max_left _ _) hfuel), Res.bind_ok', e2, Res.bind_ok']
      cases b
      · rfl
      · rw [if_pos rfl, e3 fuel (le_trans (le_max_right _ _) hfuel)]
        simp
    · rw [Bool.and_eq_true, hb, hb', List.forall_mem_cons]
      exact and_congr ⟨fun h o hoo => (key o hoo).2.1 (h o hoo), fun h o hoo => (key o hoo).2.2 (h o hoo)⟩ Iff.rfl

/-- **C217 (the check answers whether the scenario is consistent).**  Take any graph, any numbers in the configuration, any
origins and destinations at nodes of the graph (none of them at a common node), in any order, with every link of the graph in
the factory and no link numbered -1.  The check ends without an error, and answers true exactly if the numbers are right,
links leave but do not enter the nodes of origins, enter but do not leave the nodes of destinations, and from every origin
there is a way to every destination.  Proved in part: see `C217_false_isolated` for nodes without
links and `C217_false_shared` for common nodes. -/
theorem C217_check_partial (ops : List Op) (c : Scn) (hg : c.g = run empty ops) (hno : -1 ∉ linkIds c.g)
    (hl : ∀ l ∈ linkIds c.g, l ∈ c.links) (ho : ∀ o ∈ c.origins, o ∈ nodeIds c.g) (hd : ∀ d ∈ c.dests, d ∈ nodeIds c.g)
    (hne : ∀ o ∈ c.origins, o ∉ c.dests) :
    ∃ (n0 : ℕ) (b : Bool), (∀ fuel, n0 ≤ fuel → isOk fuel c = .ok b) ∧ (b = true ↔ Consistent c) := by
  rw [hg] at hno hl ho hd
  obtain ⟨b1, e1, h1⟩ := ends_eq ops true c.origins
    (decide ((c.origins.length : ℤ) = c.numO) && decide ((c.dests.length : ℤ) = c.numD)) ho
  obtain ⟨b2, e2, h2⟩ := ends_eq ops false c.dests b1 hd
  obtain ⟨n0, b3, e3, h3⟩ := connected_eq ops c.links c.origins hno hl ho c.dests (fun _ => none) hd hne
  refine ⟨n0, (decide ((sizeNodes (run empty ops) : ℤ) = c.numNode) && decide (sizeNodes (run empty ops) = c.nodes)) &&
    (decide ((sizeLinks (run empty ops) : ℤ) = c.numLink) && decide (sizeLinks (run empty ops) = c.links.length)) && b2 && b3,
    fun fuel hf => ?_, ?_⟩
  · unfold isOk
    simp only
    rw [hg, e1, Res.bind_ok', e2, Res.bind_ok', e3 fuel hf, Res.bind_ok']
  · simp only [Bool.and_eq_true, decide_eq_true_eq, h1, h2, h3, if_true, Bool.false_eq_true, if_false, ← hg]
    constructor
    · rintro ⟨⟨⟨a, b⟩, ⟨c1, c2⟩, c3⟩, c4⟩
      exact ⟨a, b, c1, c2, c3, fun o ho d hd => c4 d hd o ho⟩
    · intro h
      exact ⟨⟨⟨h.nodes, h.links⟩, ⟨h.ends, h.origins⟩, h.dests⟩, fun d hd o ho => h.ways o ho d hd⟩

private theorem end_throw (ops : List Op) (src flag : Bool) {n : ℤ} (hn : n ∉ nodeIds (run empty ops)) :
    endOk (run empty ops) src flag n = .throw "out_of_range" := by
  have e : getNode (run empty ops) n = .throw "out_of_range" := by
    unfold getNode
    rw [(Store.get_eq_none_iff _ _).2 hn]
  unfold endOk
  rw [e]
  rfl

private theorem ends_throw (ops : List Op) (src : Bool) : ∀ (ns : List ℤ) (flag : Bool), (∃ o ∈ ns, o ∉ nodeIds (run empty ops)) →
    Res.foldlM (endOk (run empty ops) src) flag ns = .throw "out_of_range" := by
  intro ns
  induction ns with
  | nil => rintro flag ⟨o, h, _⟩; simp at h
  | cons n ns ih =>
    intro flag h
    rw [Res.foldlM_cons]
    by_cases hn : n ∈ nodeIds (run empty ops)
    · obtain ⟨b, e, _⟩ := end_eq ops src flag hn
      rw [e, Res.ok_bind]
      apply ih
      obtain ⟨o, h1, h2⟩ := h
      rcases List.mem_cons.1 h1 with rfl | h1
      · exact absurd hn h2
      · exact ⟨o, h1, h2⟩
    · rw [end_throw ops src flag hn]
      rfl

/-- **C217 (a place without links stops the check, refuted).**  If the node of some origin or destination has no link at all, so
that it is not in the graph, the check does not answer false: it ends with an exception. -/
theorem C217_false_isolated (ops : List Op) (c : Scn) (hg : c.g = run empty ops)
    (h : ∃ n, (n ∈ c.origins ∨ n ∈ c.dests) ∧ n ∉ nodeIds c.g) (fuel : ℕ) :
    isOk fuel c = .throw "out_of_range" := by
  unfold isOk
  simp only
  rw [hg] at h ⊢
  by_cases ho : ∃ o ∈ c.origins, o ∉ nodeIds (run empty ops)
  · rw [ends_throw ops true c.origins _ ho]
    rfl
  · have hd : ∃ d ∈ c.dests, d ∉ nodeIds (run empty ops) := by
      obtain ⟨n, h1 | h1, h2⟩ := h
      · exact absurd ⟨n, h1, h2⟩ ho
      · exact ⟨n, h1, h2⟩
    obtain ⟨b, e, _⟩ := ends_eq ops true c.origins
      (decide ((c.origins.length : ℤ) = c.numO) && decide ((c.dests.length : ℤ) = c.numD)) (by
        intro o h1
        by_contra h2
        exact ho ⟨o, h1, h2⟩)
    rw [e, Res.bind_ok', ends_throw ops false c.dests _ hd]
    rfl

/-- **C217 (an origin and a destination at one node, refuted).**  If the first destination that is looked at is at the node of
the first origin, the check does not answer false: the tree has no entry for that node, and what is read there is undefined. -/
theorem C217_false_shared (ops : List Op) (c : Scn) (hg : c.g = run empty ops) (hno : -1 ∉ linkIds c.g)
    (hl : ∀ l ∈ linkIds c.g, l ∈ c.links) (hn : ∀ n, n ∈ c.origins ∨ n ∈ c.dests → n ∈ nodeIds c.g)
    {n : ℤ} {os ds : List ℤ} (h1 : c.origins = n :: os) (h2 : c.dests = n :: ds) :
    ∃ n0, ∀ fuel, n0 ≤ fuel → isOk fuel c = .ub := by
  rw [hg] at hno hl hn
  obtain ⟨b1, e1, _⟩ := ends_eq ops true c.origins
    (decide ((c.origins.length : ℤ) = c.numO) && decide ((c.dests.length : ℤ) = c.numD)) fun o ho => hn o (Or.inl ho)
  obtain ⟨b2, e2, _⟩ := ends_eq ops false c.dests b1 fun d hd => hn d (Or.inr hd)
  have hc : Costs (run empty ops) (fun l => if l ∈ c.links then some 1 else none) (fun _ => 1) :=
    ⟨fun l h => if_pos (hl l h), fun _ _ => zero_le_one, hno⟩
  obtain ⟨n0, s, p, e3, _, h3⟩ := fifo_spec (ctx_of_run ops hc) (hn n (Or.inr (by simp [h2]))) fun _ => none
  have e4 : s.out n = none := by
    rw [h3.untouched n (Or.inl rfl)]
    simp [labInit]
  refine ⟨n0, fun fuel hf => ?_⟩
  unfold isOk
  simp only
  rw [hg, e1, Res.bind_ok', e2, Res.bind_ok', h2, h1, connected, e3 fuel hf, Res.bind_ok']
  simp only [reach, e4]
  rfl

/-! The hypotheses are met, with both answers: nodes 1, 2, 3 in a row are consistent; with a destination at node 4, which
only a link back to 2 leaves, they are not. -/

private def chkOps : List Op := [.addNode 1, .addNode 2, .addNode 3, .addLink 1 2 10, .addLink 2 3 11]

private def chkScn : Scn := ⟨run empty chkOps, 3, 2, 1, 1, 3, [11, 10], [1], [3]⟩

example : -1 ∉ linkIds chkScn.g ∧ (∀ l ∈ linkIds chkScn.g, l ∈ chkScn.links) ∧ (∀ o ∈ chkScn.origins, o ∈ nodeIds chkScn.g) ∧
    (∀ d ∈ chkScn.dests, d ∈ nodeIds chkScn.g) ∧ ∀ o ∈ chkScn.origins, o ∉ chkScn.dests := by decide +kernel

example : isOk 9 chkScn = .ok true ∧ isOk 9 { chkScn with dests := [2] } = .ok false ∧
    isOk 9 { chkScn with numO := 2 } = .ok false ∧ isOk 9 { chkScn with origins := [7] } = .throw "out_of_range" ∧
    isOk 9 { chkScn with dests := [1] } = .ub := by decide +kernel

example : isOk 9 ⟨run empty [.addNode 1, .addNode 2, .addNode 3, .addNode 4, .addLink 1 2 10, .addLink 4 3 11], 4, 2, 1, 1, 4,
    [11, 10], [1], [3]⟩ = .ok false := by decide +kernel

end Verif

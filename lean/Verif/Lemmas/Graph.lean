import Verif.Spec.Graph

namespace Verif.Graph

/-- Links reached by following `next[d]` from pointer `p`, with their records. -/
def Chain (ls : Store Int LinkRec) (d : Dir) : Option Int → List (Int × Int × Int) → Prop
  | p, [] => p = none
  | p, (i, f, t) :: rest => p = some i ∧ ∃ r, ls.get i = some r ∧
      r.endpoints .inc = some f ∧ r.endpoints .out = some t ∧ Chain ls d (r.next d) rest

/-- Refinement relation between the pointer graph and the specification. -/
structure Rel (g : G) (s : Spec) : Prop where
  nodeKeys : g.nodes.keys = s.nodes
  nodeNodup : s.nodes.Nodup
  linkKeys : g.links.keys = s.linkIds.reverse
  linkNodup : s.linkIds.Nodup
  ends : ∀ i f t, (i, f, t) ∈ s.links → f ∈ s.nodes ∧ t ∈ s.nodes ∧ f ≠ t ∧
    ∃ r, g.links.get i = some r ∧ r.endpoints .inc = some f ∧ r.endpoints .out = some t
  chains : ∀ n r, g.nodes.get n = some r → ∀ d,
    Chain g.links d (r.next d) (s.links.filter (Spec.touches d n))

theorem Chain.mono {ls : Store Int LinkRec} {d : Dir} {id : Int} {l : LinkRec}
    (hid : ls.get id = none) :
    ∀ (c : List (Int × Int × Int)) (p : Option Int), Chain ls d p c →
      Chain (ls ++ [(id, l)]) d p c
  | [], _, h => h
  | (i, f, t) :: rest, p, h => by
    obtain ⟨hp, r, hr, h1, h2, h3⟩ := h
    refine ⟨hp, r, ?_, h1, h2, Chain.mono hid rest _ h3⟩
    simp [Store.get_append, hr]

theorem rel_empty : Rel empty Spec.empty where
  nodeKeys := rfl
  nodeNodup := List.nodup_nil
  linkKeys := rfl
  linkNodup := List.nodup_nil
  ends := by intro i f t h; cases h
  chains := by intro n r h; simp [empty] at h

theorem has_nodes {g : G} {s : Spec} (h : Rel g s) (n : Int) :
    g.nodes.has n = decide (n ∈ s.nodes) := by
  rw [← h.nodeKeys, Bool.eq_iff_iff, Store.has_iff]; simp

theorem has_links {g : G} {s : Spec} (h : Rel g s) (n : Int) :
    g.links.has n = decide (n ∈ s.linkIds) := by
  rw [Bool.eq_iff_iff, Store.has_iff, h.linkKeys]; simp

theorem get_links_none {g : G} {s : Spec} (h : Rel g s) {n : Int} (hn : n ∉ s.linkIds) :
    g.links.get n = none := by
  rw [Store.get_eq_none_iff, h.linkKeys]; simpa using hn

theorem addNode_ok {g : G} {s : Spec} (h : Rel g s) (id : Int) (hid : id ∉ s.nodes) :
    ∃ g', addNode g id = .ok g' ∧ Rel g' { s with nodes := s.nodes ++ [id] } := by
  have hh : g.nodes.has id = false := by rw [has_nodes h]; simpa using hid
  refine ⟨_, by simp only [addNode, hh]; rfl, ?_⟩
  constructor
  · simp only [Store.insert, hh, Bool.false_eq_true, if_false]
    simp [Store.keys, ← h.nodeKeys]
  · rw [List.nodup_append]
    refine ⟨h.nodeNodup, by simp, ?_⟩
    intro a ha b hb; simp at hb; subst hb; intro e; exact hid (e ▸ ha)
  · exact h.linkKeys
  · exact h.linkNodup
  · intro i f t hm
    obtain ⟨a, b, c, d⟩ := h.ends i f t hm
    exact ⟨by simp [a], by simp [b], c, d⟩
  · intro n r hr d
    simp only [Store.insert, hh, Bool.false_eq_true, if_false, Store.get_append] at hr
    cases hg : g.nodes.get n with
    | some r' =>
      simp [hg] at hr; subst hr
      exact h.chains n r' hg d
    | none =>
      simp only [hg, Option.none_or, Store.get_cons, Store.get_nil] at hr
      split at hr
      · rename_i e; subst e
        simp at hr; subst hr
        have : s.links.filter (Spec.touches d id) = [] := by
          rw [List.filter_eq_nil_iff]
          rintro ⟨i, f, t⟩ hm
          obtain ⟨a, b, _⟩ := h.ends i f t hm
          cases d <;> simp [Spec.touches] <;> rintro rfl <;> contradiction
        rw [this]; rfl
      · simp at hr

theorem addNode_throw {g : G} {s : Spec} (h : Rel g s) (id : Int) (hid : id ∈ s.nodes) :
    addNode g id = .throw "node already in graph" := by
  have hh : g.nodes.has id = true := by rw [has_nodes h]; simpa using hid
  simp [addNode, hh]

theorem get_node_some {g : G} {s : Spec} (h : Rel g s) {n : Int} (hn : n ∈ s.nodes) :
    ∃ r, g.nodes.get n = some r := by
  have := (Store.get_isSome_iff g.nodes n).2 (h.nodeKeys ▸ hn)
  exact Option.isSome_iff_exists.1 this

theorem get_node_none {g : G} {s : Spec} (h : Rel g s) {n : Int} (hn : n ∉ s.nodes) :
    g.nodes.get n = none := by
  rw [Store.get_eq_none_iff, h.nodeKeys]; exact hn

theorem addLink_ok {g : G} {s : Spec} (h : Rel g s) (f t id : Int) (hf : f ∈ s.nodes)
    (ht : t ∈ s.nodes) (hft : f ≠ t) (hid : id ∉ s.linkIds) :
    ∃ g', addLink g f t id = .ok g' ∧ Rel g' { s with links := (id, f, t) :: s.links } := by
  obtain ⟨nf, hnf⟩ := get_node_some h hf
  obtain ⟨nt, hnt⟩ := get_node_some h ht
  have hl : g.links.has id = false := by rw [has_links h]; simpa using hid
  have hgl := get_links_none h hid
  refine ⟨_, by simp only [addLink, hnf, hnt, addLinkRef, hl, if_neg (Ne.symm hft)]; rfl, ?_⟩
  simp only [Store.insert, hl, Bool.false_eq_true, if_false]
  constructor
  · simp [Store.keys_modify, h.nodeKeys]
  · exact h.nodeNodup
  · have := h.linkKeys
    simp only [Store.keys, Spec.linkIds] at this ⊢
    simp [this]
  · simp only [Spec.linkIds, List.map_cons, List.nodup_cons]
    exact ⟨hid, h.linkNodup⟩
  · intro i f' t' hm
    rcases List.mem_cons.1 hm with hm | hm
    · cases hm
      exact ⟨hf, ht, hft, _, by simp [Store.get_append, hgl, Store.get_cons]; rfl, rfl, rfl⟩
    · obtain ⟨a, b, c, r, hr, h1, h2⟩ := h.ends i f' t' hm
      exact ⟨a, b, c, r, by simp [Store.get_append, hr], h1, h2⟩
  · intro n r hr d
    simp only [Store.get_modify] at hr
    have key : ∀ (l : LinkRec) r0, g.nodes.get n = some r0 → Chain (g.links ++ [(id, l)]) d
        (r0.next d) (s.links.filter (Spec.touches d n)) :=
      fun l r0 hr0 => Chain.mono hgl _ _ (h.chains n r0 hr0 d)
    by_cases h1 : t = n
    · subst h1
      simp only [if_true, if_neg hft, hnt, Option.map_some, Option.some.injEq] at hr
      subst hr
      cases d with
      | inc =>
        simp only [Spec.touches, List.filter_cons, beq_self_eq_true, if_true]
        refine ⟨rfl, _, by simp [Store.get_append, hgl, Store.get_cons]; rfl, rfl, rfl, ?_⟩
        exact key _ nt hnt
      | out =>
        have : (f == t) = false := by simpa using hft
        simp only [Spec.touches, List.filter_cons, this, Bool.false_eq_true, if_false]
        exact key _ nt hnt
    · by_cases h2 : f = n
      · subst h2
        simp only [if_neg h1, if_true, hnf, Option.map_some, Option.some.injEq] at hr
        subst hr
        cases d with
        | inc =>
          have : (t == f) = false := by simpa using h1
          simp only [Spec.touches, List.filter_cons, this, Bool.false_eq_true, if_false]
          exact key _ nf hnf
        | out =>
          simp only [Spec.touches, List.filter_cons, beq_self_eq_true, if_true]
          refine ⟨rfl, _, by simp [Store.get_append, hgl, Store.get_cons]; rfl, rfl, rfl, ?_⟩
          exact key _ nf hnf
      · simp only [if_neg h1, if_neg h2] at hr
        have e1 : (t == n) = false := by simpa using h1
        have e2 : (f == n) = false := by simpa using h2
        have : Spec.touches d n (id, f, t) = false := by
          cases d <;> simp [Spec.touches, e1, e2]
        simp only [List.filter_cons, this, Bool.false_eq_true, if_false]
        exact key _ r hr

theorem exec_spec {g : G} {s : Spec} (h : Rel g s) (op : Op) :
    (exec g op).isOk = s.accepts op ∧ Rel (step g op) (s.step op) ∧
      (s.accepts op = false → ∃ m, exec g op = .throw m) := by
  cases op with
  | addNode id =>
    by_cases hid : id ∈ s.nodes
    · have := addNode_throw h id hid
      simp [exec, this, Res.isOk, Spec.accepts, hid, step, Res.stateOr, Spec.step, h]
    · obtain ⟨g', e, h'⟩ := addNode_ok h id hid
      simp [exec, e, Res.isOk, Spec.accepts, hid, step, Res.stateOr, Spec.step, h']
  | addLink f t id =>
    by_cases hf : f ∈ s.nodes
    · by_cases ht : t ∈ s.nodes
      · by_cases hid : id ∈ s.linkIds
        · have e : ∃ m, addLink g f t id = .throw m := by
            obtain ⟨nf, hnf⟩ := get_node_some h hf
            obtain ⟨nt, hnt⟩ := get_node_some h ht
            have hl : g.links.has id = true := by rw [has_links h]; simpa using hid
            exact ⟨_, by simp only [addLink, hnf, hnt, addLinkRef, hl, if_true]; rfl⟩
          obtain ⟨m, e⟩ := e
          simp [exec, e, Res.isOk, Spec.accepts, hid, step, Res.stateOr, Spec.step, h]
        · by_cases hft : f = t
          · have e : ∃ m, addLink g f t id = .throw m := by
              obtain ⟨nf, hnf⟩ := get_node_some h hf
              obtain ⟨nt, hnt⟩ := get_node_some h ht
              have hl : g.links.has id = false := by rw [has_links h]; simpa using hid
              exact ⟨_, by simp only [addLink, hnf, hnt, addLinkRef, hl, hft, if_true]; rfl⟩
            obtain ⟨m, e⟩ := e
            subst hft; simp [exec, e, Res.isOk, Spec.accepts, step, Res.stateOr, Spec.step, h]
          · obtain ⟨g', e, h'⟩ := addLink_ok h f t id hf ht hft hid
            simp [exec, e, Res.isOk, Spec.accepts, hid, hf, ht, hft, step, Res.stateOr,
              Spec.step, h']
      · have e : addLink g f t id = .throw "out_of_range" := by
          obtain ⟨nf, hnf⟩ := get_node_some h hf
          simp [addLink, hnf, get_node_none h ht]
        simp [exec, e, Res.isOk, Spec.accepts, ht, step, Res.stateOr, Spec.step, h]
    · have e : addLink g f t id = .throw "out_of_range" := by
        simp [addLink, get_node_none h hf]
      simp [exec, e, Res.isOk, Spec.accepts, hf, step, Res.stateOr, Spec.step, h]

theorem run_rel (ops : List Op) : ∀ {g : G} {s : Spec}, Rel g s → Rel (run g ops) (s.run ops) := by
  induction ops with
  | nil => intro g s h; exact h
  | cons op ops ih => intro g s h; exact ih (exec_spec h op).2.1

theorem run_rel_empty (ops : List Op) : Rel (run empty ops) (Spec.empty.run ops) :=
  run_rel ops rel_empty

/-! ## Iterators -/

theorem connLoop_directed {g : G} {d : Dir} :
    ∀ (c : List (Int × Int × Int)) (p : Option Int) (fuel : Nat), Chain g.links d p c →
      c.length < fuel →
      connLoop g true d fuel ⟨p, d, none⟩ = .ok (c.map fun l => l.1)
  | [], p, fuel, h, hf => by
    cases fuel with
    | zero => simp at hf
    | succ fuel =>
      have : p = none := h
      subst this
      simp [connLoop, connIsEnd]
  | (i, f, t) :: rest, p, fuel, h, hf => by
    cases fuel with
    | zero => simp at hf
    | succ fuel =>
      obtain ⟨hp, r, hr, h1, h2, h3⟩ := h
      subst hp
      have ih := connLoop_directed rest (r.next d) fuel h3 (by simp at hf; omega)
      simp only [connLoop, connIsEnd, connStep, hr]
      cases hn : r.next d with
      | none => rw [hn] at ih; simp [Res.bind, ih]
      | some c => rw [hn] at ih; simp [Res.bind, ih]

/-- Undirected walk after the switch to the second list. -/
theorem connLoop_second {g : G} {d e : Dir} :
    ∀ (c : List (Int × Int × Int)) (p : Option Int) (fuel : Nat), Chain g.links d p c →
      c.length < fuel →
      connLoop g false e fuel ⟨p, d, none⟩ = .ok (c.map fun l => l.1)
  | [], p, fuel, h, hf => by
    cases fuel with
    | zero => simp at hf
    | succ fuel =>
      have : p = none := h
      subst this
      simp [connLoop, connIsEnd]
  | (i, f, t) :: rest, p, fuel, h, hf => by
    cases fuel with
    | zero => simp at hf
    | succ fuel =>
      obtain ⟨hp, r, hr, h1, h2, h3⟩ := h
      subst hp
      have ih := connLoop_second (e := e) rest (r.next d) fuel h3 (by simp at hf; omega)
      simp only [connLoop, connIsEnd, connStep, hr]
      cases hn : r.next d with
      | none => rw [hn] at ih; simp [Res.bind, ih]
      | some c => rw [hn] at ih; simp [Res.bind, ih]

theorem connLoop_first {g : G} {d e : Dir} {q : Option Int} {c2 : List (Int × Int × Int)}
    (hq : Chain g.links d.invert q c2) :
    ∀ (c : List (Int × Int × Int)) (p : Option Int) (fuel : Nat), Chain g.links d p c →
      c.length + c2.length < fuel → c ≠ [] →
      connLoop g false e fuel ⟨p, d, q⟩ = .ok ((c ++ c2).map fun l => l.1)
  | [], p, fuel, h, hf, hc => absurd rfl hc
  | (i, f, t) :: rest, p, fuel, h, hf, hc => by
    cases fuel with
    | zero => simp at hf
    | succ fuel =>
      obtain ⟨hp, r, hr, h1, h2, h3⟩ := h
      subst hp
      simp only [connLoop, connIsEnd, connStep, hr]
      cases rest with
      | nil =>
        have hn : r.next d = none := h3
        have ih := connLoop_second (e := e) c2 q fuel hq (by simp at hf; omega)
        cases hq' : q with
        | none =>
          rw [hq'] at ih
          have : c2 = [] := by
            cases c2 with
            | nil => rfl
            | cons a c2 => obtain ⟨ha, _⟩ := hq; simp [hq'] at ha
          subst this
          cases fuel with
          | zero => simp at hf
          | succ fuel => simp [Res.bind, hn, connLoop, connIsEnd]
        | some q' => rw [hq'] at ih; simp [Res.bind, hn, ih]
      | cons a rest =>
        have ih := connLoop_first (e := e) hq (a :: rest) (r.next d) fuel h3
          (by simp at hf ⊢; omega) (by simp)
        have hn : ∃ c, r.next d = some c := ⟨a.1, h3.1⟩
        obtain ⟨c, hn⟩ := hn
        rw [hn] at ih
        simp [Res.bind, hn, ih]

theorem Dir.invert_invert (d : Dir) : d.invert.invert = d := by cases d <;> rfl

theorem filter_length_le (s : Spec) (d : Dir) (n : Int) :
    (s.links.filter (Spec.touches d n)).length ≤ s.links.length := List.length_filter_le _ _

theorem both_length_le {g : G} {s : Spec} (h : Rel g s) (n : Int) :
    (s.links.filter (Spec.touches .inc n)).length +
      (s.links.filter (Spec.touches .out n)).length ≤ s.links.length := by
  have he := h.ends
  generalize s.links = ls at he
  induction ls with
  | nil => simp
  | cons l ls ih =>
    obtain ⟨i, f, t⟩ := l
    have ih := ih fun i f t hm => he i f t (List.mem_cons_of_mem _ hm)
    have hft := (he i f t (List.mem_cons_self)).2.2.1
    simp only [List.filter_cons, Spec.touches]
    by_cases h1 : t = n <;> by_cases h2 : f = n
    · exact absurd (h2.trans h1.symm) hft
    all_goals simp [h1, h2, Spec.touches] at ih ⊢; omega

/-- Far ends along a chain. -/
def ends (d : Dir) (c : List (Int × Int × Int)) : List Int :=
  c.map fun l => match d with | .inc => l.2.1 | .out => l.2.2

theorem chain_end {d : Dir} {r : LinkRec} {f t : Int}
    (h1 : r.endpoints .inc = some f) (h2 : r.endpoints .out = some t) :
    r.endpoints d = some (match d with | .inc => f | .out => t) := by cases d <;> assumption

/-- One call of `step` from inside a chain runs to the end of that chain. -/
theorem nbrStep_run {g : G} {d : Dir} {q : Option Int} :
    ∀ (c : List (Int × Int × Int)) (p : Option Int) (fuel : Nat) (seen : List Int),
      Chain g.links d p c →
      nbrStep g (fuel + c.length) ⟨p, d, q, seen⟩ =
        nbrStep g fuel ⟨none, d, q, (ends d c).reverse ++ seen⟩
  | [], p, fuel, seen, h => by
    have : p = none := h
    subst this
    simp [ends]
  | (i, f, t) :: rest, p, fuel, seen, h => by
    obtain ⟨hp, r, hr, h1, h2, h3⟩ := h
    subst hp
    have he := chain_end (d := d) h1 h2
    have : fuel + ((i, f, t) :: rest).length = (fuel + rest.length) + 1 := by simp; omega
    rw [this, nbrStep]
    simp only [hr, he, List.mem_cons, true_or, if_true]
    rw [nbrStep_run rest _ fuel _ h3]
    simp [ends]

end Verif.Graph

namespace Verif.Graph

theorem connections_spec {g : G} {s : Spec} (h : Rel g s) {n : Int} (hn : n ∈ s.nodes) (d : Dir)
    {fuel : Nat} (hf : s.links.length < fuel) :
    connections fuel g n d = .ok (s.incident d n) := by
  obtain ⟨r, hr⟩ := get_node_some h hn
  simp only [connections, connectionsGen, getNode, hr, Res.bind, startDir, connBegin]
  exact connLoop_directed _ _ _ (h.chains n r hr d)
    (Nat.lt_of_le_of_lt (filter_length_le s d n) hf)

theorem chain_none {ls : Store Int LinkRec} {d : Dir} {c : List (Int × Int × Int)}
    (h : Chain ls d none c) : c = [] := by
  cases c with
  | nil => rfl
  | cons a c => obtain ⟨h, _⟩ := h; cases h

theorem connectionsUn_spec {g : G} {s : Spec} (h : Rel g s) {n : Int} (hn : n ∈ s.nodes)
    {fuel : Nat} (hf : s.links.length < fuel) :
    connectionsUn fuel g n = .ok (s.incident .inc n ++ s.incident .out n) := by
  obtain ⟨r, hr⟩ := get_node_some h hn
  have hc := h.chains n r hr
  have hlen := both_length_le h n
  simp only [connectionsUn, connectionsGen, getNode, hr, Res.bind, startDir, connBegin,
    Bool.false_or]
  cases hi : r.next .inc with
  | some p =>
    have h1 := hc .inc
    have h2 := hc .out
    have hne : s.links.filter (Spec.touches .inc n) ≠ [] := by
      intro e; rw [e, hi] at h1; cases h1
    simp only [Option.isSome_some, if_true, hi]
    have := connLoop_first (e := .inc) (g := g) (d := .inc) (q := r.next .out) h2 _ _ fuel h1
      (by omega) hne
    simp only [hi] at this
    simpa [Spec.incident, Dir.invert] using this
  | none =>
    have h1 := hc .inc
    have h2 := hc .out
    rw [hi] at h1
    have e1 := chain_none h1
    have := connLoop_second (e := .out) _ _ fuel h2 (by omega)
    simp only [Option.isSome_none, Bool.false_eq_true, if_false, Dir.invert, hi]
    simpa [Spec.incident, e1] using this

theorem nbrStep_none_none {g : G} {fuel : Nat} {d : Dir} {seen : List Int} :
    nbrStep g (fuel + 1) ⟨none, d, none, seen⟩ = .ok ⟨none, d, none, seen⟩ := by
  simp [nbrStep]

theorem nbrStep_end {g : G} {d : Dir} {c : List (Int × Int × Int)} {p : Option Int}
    (h : Chain g.links d p c) {fuel : Nat} (hf : c.length < fuel) (seen : List Int) :
    nbrStep g fuel ⟨p, d, none, seen⟩ =
      .ok ⟨none, d, none, (ends d c).reverse ++ seen⟩ := by
  obtain ⟨k, rfl⟩ : ∃ k, fuel = (k + 1) + c.length := ⟨fuel - c.length - 1, by omega⟩
  rw [nbrStep_run c p (k + 1) seen h, nbrStep_none_none]

theorem neighbors_spec {g : G} {s : Spec} (h : Rel g s) {n : Int} (hn : n ∈ s.nodes) (d : Dir)
    {fuel : Nat} (hf : s.links.length < fuel) :
    neighbors fuel g n d = .ok ((s.farEnds d n).take 1) := by
  obtain ⟨r, hr⟩ := get_node_some h hn
  have hc := h.chains n r hr d
  have hlen := filter_length_le s d n
  simp only [neighbors, neighborsGen, getNode, hr, Res.bind, startDir, Bool.true_or, if_true,
    Spec.farEnds]
  revert hc hlen
  generalize s.links.filter (Spec.touches d n) = c
  intro hc hlen
  obtain ⟨k, rfl⟩ : ∃ k, fuel = k + 1 := ⟨fuel - 1, by omega⟩
  cases c with
  | nil =>
    have : r.next d = none := hc
    simp [nbrLoop, nbrIsEnd, this]
  | cons a rest =>
    obtain ⟨i, f, t⟩ := a
    have hstep := nbrStep_end hc (fuel := k + 1) (by omega) []
    obtain ⟨hp, l, hl, h1, h2, h3⟩ := hc
    have he := chain_end (d := d) h1 h2
    rw [hp] at hstep
    obtain ⟨k, rfl⟩ : ∃ k', k = k' + 1 := ⟨k - 1, by simp at hlen; omega⟩
    simp only [nbrLoop, nbrIsEnd, hp, hl, he, hstep]
    cases d <;> simp [Res.bind]

/-- What `neighbors` of an undirected graph yields, in terms of the two lists of far ends. -/
def nbrUnSpec (a b : List Int) : List Int :=
  match a with
  | [] => b.take 1
  | x :: _ => x :: (b.take 1).filter (fun y => decide (y ∉ a))

theorem nbrLoop_last {g : G} {d e : Dir} {i f t : Int} {rest : List (Int × Int × Int)}
    {seen : List Int} (h : Chain g.links d (some i) ((i, f, t) :: rest)) {fuel : Nat}
    (hf : rest.length + 1 < fuel) :
    nbrLoop g false e fuel ⟨some i, d, none, seen⟩ = .ok [match d with | .inc => f | .out => t] := by
  obtain ⟨k, rfl⟩ : ∃ k, fuel = k + 1 := ⟨fuel - 1, by omega⟩
  have hstep := nbrStep_end h (fuel := k + 1) (by simp; omega) seen
  obtain ⟨hp, l, hl, h1, h2, h3⟩ := h
  have he := chain_end (d := d) h1 h2
  obtain ⟨k, rfl⟩ : ∃ k', k = k' + 1 := ⟨k - 1, by omega⟩
  simp only [nbrLoop, nbrIsEnd, hl, he, hstep]
  cases d <;> simp [Res.bind]

theorem neighborsUn_spec {g : G} {s : Spec} (h : Rel g s) {n : Int} (hn : n ∈ s.nodes)
    {fuel : Nat} (hf : s.links.length + 2 < fuel) :
    neighborsUn fuel g n = .ok (nbrUnSpec (s.farEnds .out n) (s.farEnds .inc n)) := by
  obtain ⟨r, hr⟩ := get_node_some h hn
  have hco := h.chains n r hr .out
  have hci := h.chains n r hr .inc
  have hlen := both_length_le h n
  simp only [neighborsUn, neighborsGen, getNode, hr, Res.bind, startDir, Bool.false_or,
    Bool.false_eq_true, if_false, Spec.farEnds]
  revert hco hci hlen
  generalize s.links.filter (Spec.touches .out n) = co
  generalize s.links.filter (Spec.touches .inc n) = ci
  intro hco hci hlen
  obtain ⟨k, rfl⟩ : ∃ k, fuel = k + 1 := ⟨fuel - 1, by omega⟩
  cases co with
  | nil =>
    have ho : r.next .out = none := hco
    cases ci with
    | nil =>
      have hi : r.next .inc = none := hci
      simp [nbrLoop, nbrIsEnd, ho, hi, Dir.invert, nbrUnSpec]
    | cons a rest =>
      obtain ⟨i, f, t⟩ := a
      have hi : r.next .inc = some i := hci.1
      rw [hi] at hci
      have := nbrLoop_last (e := .inc) (seen := []) hci (fuel := k + 1) (by simp at hlen; omega)
      simpa [ho, hi, Dir.invert, nbrUnSpec] using this
  | cons a rest =>
    obtain ⟨i, f, t⟩ := a
    have ho : r.next .out = some i := hco.1
    simp only [ho, Option.isSome_some, if_true, Dir.invert]
    rw [ho] at hco
    have hrun := fun q fuel => nbrStep_run (q := q) _ _ fuel [] hco
    obtain ⟨_, l, hl, h1, h2, h3⟩ := hco
    simp only [nbrLoop, nbrIsEnd, hl, h2]
    obtain ⟨m, hm⟩ : ∃ m, k + 1 = (m + 1) + ((i, f, t) :: rest).length :=
      ⟨k - ((i, f, t) :: rest).length, by simp at hlen ⊢; omega⟩
    obtain ⟨k', rfl⟩ : ∃ k', k = k' + 1 := ⟨k - 1, by omega⟩
    rw [hm, hrun]
    cases ci with
    | nil =>
      have hi : r.next .inc = none := hci
      simp [hi, nbrStep_none_none, Res.bind, nbrLoop, nbrIsEnd, nbrUnSpec]
    | cons b rest' =>
      obtain ⟨i', f', t'⟩ := b
      have hi : r.next .inc = some i' := hci.1
      rw [hi] at hci
      have hlast := fun seen => nbrLoop_last (e := .out) (seen := seen) hci (fuel := k' + 1)
        (by simp at hlen; omega)
      obtain ⟨_, l', hl', h1', h2', h3'⟩ := hci
      simp only [hi, nbrStep, hl', Dir.invert, h1']
      have hmem : (f' ∈ (ends .out ((i, f, t) :: rest)).reverse ++ []) ↔
          f' ∈ (ends .out ((i, f, t) :: rest)) := by simp
      by_cases hin : f' ∈ ends .out ((i, f, t) :: rest)
      · rw [if_pos (hmem.2 hin)]
        have hend := nbrStep_end h3' (fuel := m)
          (by simp at hlen hm; omega) ((ends .out ((i, f, t) :: rest)).reverse ++ [])
        rw [hend]
        have hin' : f' = t ∨ ∃ a b, (a, b, f') ∈ rest := by simpa [ends] using hin
        simp [Res.bind, nbrLoop, nbrIsEnd, nbrUnSpec, hin']
      · rw [if_neg (fun hh => hin (hmem.1 hh))]
        have hin' : ¬ f' = t ∧ ∀ a b, (a, b, f') ∉ rest := by simpa [ends] using hin
        simp [Res.bind, hlast, nbrUnSpec, hin'.1, hin'.2]

theorem getEndpoints_spec {g : G} {s : Spec} (h : Rel g s) {i f t : Int}
    (hm : (i, f, t) ∈ s.links) : getEndpoints g i = .ok (f, t) := by
  obtain ⟨_, _, _, r, hr, h1, h2⟩ := h.ends i f t hm
  simp [getEndpoints, getLink, hr, h1, h2]

theorem getEndpoints_none {g : G} {s : Spec} (h : Rel g s) {i : Int}
    (hm : i ∉ s.linkIds) : getEndpoints g i = .throw "out_of_range" := by
  simp [getEndpoints, getLink, get_links_none h hm]

theorem links_mono (ops : List Op) : ∀ (s : Spec) (l : Int × Int × Int), l ∈ s.links →
    l ∈ (s.run ops).links := by
  induction ops with
  | nil => intro s l h; exact h
  | cons op ops ih =>
    intro s l h
    apply ih
    unfold Spec.step
    split
    · cases op with
      | addNode id => exact h
      | addLink f t id => exact List.mem_cons_of_mem _ h
    · exact h

theorem linkIds_mem {s : Spec} {i : Int} (h : i ∈ s.linkIds) : ∃ f t, (i, f, t) ∈ s.links := by
  simp only [Spec.linkIds, List.mem_map] at h
  obtain ⟨⟨a, b, c⟩, h, rfl⟩ := h
  exact ⟨b, c, h⟩

theorem addNodes_rel : ∀ (ns : List Int) (g : G) (s : Spec), Rel g s → (s.nodes ++ ns).Nodup →
    ∃ g', Res.foldlM (fun r n => addNode r n) g ns = .ok g' ∧
      Rel g' { s with nodes := s.nodes ++ ns }
  | [], g, s, h, _ => ⟨g, rfl, by simpa using h⟩
  | n :: ns, g, s, h, hn => by
    have hn' : n ∉ s.nodes := by
      intro hm
      rw [List.nodup_append] at hn
      exact hn.2.2 n hm n (List.mem_cons_self) rfl
    obtain ⟨g1, e1, h1⟩ := addNode_ok h n hn'
    obtain ⟨g2, e2, h2⟩ := addNodes_rel ns g1 _ h1 (by simpa using hn)
    exact ⟨g2, by rw [Res.foldlM_cons, e1]; exact e2, by simpa using h2⟩

/-- Reversed links in the order of a list of identifiers (newest first). -/
theorem addRev_rel {g : G} {s : Spec} (h : Rel g s) :
    ∀ (ls : List Int) (r : G) (sr : Spec), Rel r sr → (∀ n, n ∈ s.nodes → n ∈ sr.nodes) →
      (∀ l ∈ ls, l ∈ s.linkIds) → (∀ l ∈ ls, l ∉ sr.linkIds) → ls.Nodup →
      ∃ g' sr', Res.foldlM (fun r l => (getEndpoints g l).bind fun e => addLink r e.2 e.1 l) r ls
          = .ok g' ∧ Rel g' sr' ∧ sr'.nodes = sr.nodes ∧
        sr'.linkIds = ls.reverse ++ sr.linkIds ∧
        (∀ i f t, (i, f, t) ∈ sr'.links ↔
          (i, f, t) ∈ sr.links ∨ (i ∈ ls ∧ (i, t, f) ∈ s.links))
  | [], r, sr, hr, _, _, _, _ => ⟨r, sr, rfl, hr, rfl, by simp, by simp⟩
  | l :: ls, r, sr, hr, hnodes, hin, hout, hnd => by
    obtain ⟨f, t, hm⟩ := linkIds_mem (hin l (List.mem_cons_self))
    obtain ⟨a, b, c, _⟩ := h.ends l f t hm
    obtain ⟨r1, e1, h1⟩ := addLink_ok hr t f l (hnodes _ b) (hnodes _ a) (Ne.symm c)
      (hout l (List.mem_cons_self))
    rw [List.nodup_cons] at hnd
    obtain ⟨r2, sr2, e2, h2, hn2, hi2, hl2⟩ := addRev_rel h ls r1 _ h1 hnodes
      (fun x hx => hin x (List.mem_cons_of_mem _ hx))
      (by
        intro x hx
        simp only [Spec.linkIds, List.map_cons, List.mem_cons, not_or]
        exact ⟨fun e => hnd.1 (e ▸ hx), hout x (List.mem_cons_of_mem _ hx)⟩)
      hnd.2
    refine ⟨r2, sr2, ?_, h2, hn2, ?_, ?_⟩
    · rw [Res.foldlM_cons, getEndpoints_spec h hm]
      simp only [Res.bind, e1]
      exact e2
    · rw [hi2]; simp [Spec.linkIds]
    · intro i f' t'
      rw [hl2]
      simp only [List.mem_cons]
      constructor
      · rintro ((h | h) | h)
        · cases h; exact Or.inr ⟨Or.inl rfl, hm⟩
        · exact Or.inl h
        · exact Or.inr ⟨Or.inr h.1, h.2⟩
      · rintro (h' | ⟨h' | h', h''⟩)
        · exact Or.inl (Or.inr h')
        · subst h'
          have := getEndpoints_spec h h''
          rw [getEndpoints_spec h hm] at this
          simp at this
          obtain ⟨rfl, rfl⟩ := this
          exact Or.inl (Or.inl rfl)
        · exact Or.inr ⟨h', h''⟩

theorem reverse_spec {g : G} {s : Spec} (h : Rel g s) {no lo : List Int}
    (hno : no.Perm s.nodes) (hlo : lo.Perm s.linkIds) :
    ∃ g' s', reverseGraph g no lo = .ok g' ∧ Rel g' s' ∧ s'.nodes = no ∧
      s'.linkIds = lo.reverse ∧
      (∀ i f t, (i, f, t) ∈ s'.links ↔ (i, t, f) ∈ s.links) := by
  obtain ⟨g1, e1, h1⟩ := addNodes_rel no empty Spec.empty rel_empty
    (by simpa [Spec.empty] using hno.nodup_iff.2 h.nodeNodup)
  obtain ⟨g2, s2, e2, h2, hn2, hi2, hl2⟩ := addRev_rel h lo g1 _ h1
    (by intro n hn; simpa [Spec.empty] using hno.mem_iff.2 hn)
    (by intro l hl; exact hlo.mem_iff.1 hl)
    (by intro l hl; simp [Spec.linkIds, Spec.empty])
    (hlo.nodup_iff.2 h.linkNodup)
  refine ⟨g2, s2, ?_, h2, by simpa [Spec.empty] using hn2, by simpa [Spec.empty, Spec.linkIds] using hi2, ?_⟩
  · simp only [reverseGraph, e1, Res.bind]; exact e2
  · intro i f t
    rw [hl2]
    constructor
    · rintro (h' | h')
      · simp [Spec.empty] at h'
      · exact h'.2
    · intro h'
      refine Or.inr ⟨hlo.mem_iff.2 ?_, h'⟩
      exact List.mem_map_of_mem (f := fun l => l.1) h'

end Verif.Graph

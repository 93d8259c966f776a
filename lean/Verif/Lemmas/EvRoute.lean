import Verif.Spec.EvRoute
import Verif.Lemmas.PathGen
import Verif.Props.ShortestPath
import Verif.Lemmas.Charge

/-! # Lemmas about routing with charging stations -/

namespace Verif.EvR
open Graph Sp Path

variable {x : Inst} {ops : List Op}

theorem total_cons (c : ℤ → ℚ) (l : ℤ) (ls : List ℤ) : total c (l :: ls) = c l + total c ls := by simp [total]

theorem total_append (c : ℤ → ℚ) (a b : List ℤ) : total c (a ++ b) = total c a + total c b := by simp [total]

/-- Finite costs. -/
def fin (c : ℤ → ℚ) (l : ℤ) : Cost := ((c l : ℚ) : Cost)

theorem cost_total (c : ℤ → ℚ) : ∀ ls : List ℤ, walkCost (fin c) ls = ((total c ls : ℚ) : Cost)
  | [] => rfl
  | l :: ls => by
    rw [walkCost_cons, cost_total c ls, total_cons]
    simp only [fin]
    norm_cast

/-- What is used of a tree: it is one of cheapest ways, and ways can be extracted. -/
structure Ways (g : G) (c : ℤ → ℚ) (v : ℤ) (out : Tree) : Prop where
  tree : TreeTo g c v out
  path : ∀ u ∈ nodeIds g, Reach g u v → ∃ ls, Walk g u ls v ∧
    (∀ ls', Walk g u ls' v → total c ls ≤ total c ls') ∧
    ∃ N, ∀ n, N ≤ n → extractPath g v out n u = .ok (some (walkNodes g u ls, ls))

theorem ways {g : G} {ops : List Op} (hg : g = run empty ops) {cost : ℤ → Option Cost} {c : ℤ → ℚ}
    (hc : Costs g cost (fin c)) {v : ℤ} (hv : v ∈ nodeIds g) (out : Tree) {T : String → Prop} :
    Evt (fun n => fifo n g v cost out) (fun s => Ways g c v s.out) T := by
  subst hg
  obtain ⟨n0, s, h1, h2⟩ := C37_fifo_shortest_paths ops v hv _ _ hc out
  refine Or.inl ⟨s, ?_, n0, h1⟩
  have hctx := ctx_of_run ops hc
  have ht : TreeOk (run empty ops) (fin c) v s.out := by
    rcases fifo_tree (T := fun _ => False) hctx hv out with ⟨s', a, N, b⟩ | ⟨_, hf, -⟩
    · have e1 := b (max n0 N) (le_max_right _ _)
      have e1 : fifo (max n0 N) (run empty ops) v cost out = .ok s' := e1
      rw [h1 _ (le_max_left _ _)] at e1
      cases e1
      exact a
    · exact hf.elim
  have hfin : ∀ u ls, Walk (run empty ops) u ls v → walkCost (fin c) ls ≠ ⊤ := fun u ls _ => by
    rw [cost_total]; exact WithTop.coe_ne_top
  refine ⟨?_, ?_⟩
  · intro u hu hne
    obtain ⟨d, -, hL, a, b⟩ := h2 u hu
    constructor
    · rintro ⟨ls0, hw0⟩
      have hd : d ≠ ⊤ := by
        rintro rfl
        exact hfin u ls0 hw0 (top_le_iff.1 (hL.1 ls0 hw0))
      obtain ⟨l, t, dt, e1, e2, e5, e4⟩ := b hne hd
      obtain ⟨dt', e6, e3, -⟩ := h2 t (hctx.ends _ _ _ e2).2.1
      rw [e5] at e6
      cases e6
      refine ⟨l, e1, ?_⟩
      have hdt : dt ≠ ⊤ := by
        rintro rfl
        rw [add_top] at e4
        exact hd e4
      rcases e3.2 with h | ⟨ls, hw, hcl⟩
      · exact absurd h hdt
      · refine ⟨ls, ⟨t, e2, hw⟩, fun ls' hw' => ?_⟩
        have := hL.1 ls' hw'
        rw [e4, ← hcl, ← walkCost_cons, cost_total, cost_total] at this
        exact_mod_cast this
    · intro hn
      by_cases hd : d = ⊤
      · exact a hne hd
      · rcases hL.2 with h | ⟨ls, hw, -⟩
        · exact absurd h hd
        · exact absurd ⟨ls, hw⟩ hn
  · rintro u hu ⟨ls0, hw0⟩
    rcases ht u hu with ⟨ls, a, b, e⟩ | ⟨a, -⟩
    · refine ⟨ls, a, fun ls' hw => ?_, e⟩
      have := b.1 ls' hw
      rw [cost_total, cost_total] at this
      exact_mod_cast this
    · exact absurd (a ls0 hw0) (hfin u ls0 hw0)

/-! ## Costs of links -/

theorem estimate_spec (c : Chg.Cfg) (s : Chg.State) (h : s.pool ≠ []) :
    ∃ q ∈ s.pool, (∀ r ∈ s.pool, q.length ≤ r.length) ∧ Chg.estimate c s = .ok (q.length * c.time) := by
  have hlt := Chg.shortest_lt s.pool h
  have he := List.getElem?_eq_getElem hlt
  refine ⟨_, List.getElem_mem hlt, (Chg.shortest_spec _ _ he).1, ?_⟩
  simp [Chg.estimate, he]

theorem linkCost_spec {links : List ℤ} {dnode : ℕ → ℤ} {dests : List ℕ} {pois : List ℤ} {pairs : List Pair} {k : Kept}
    (h : Good x ops links dnode dests pois pairs k) {l : ℤ} (hl : l ∈ linkIds x.g) :
    ∃ v, linkCost x l = .ok v ∧ CostOf x l v ∧ 0 ≤ v := by
  have hex : ∃ f t, getEndpoints x.g l = .ok (f, t) := by
    obtain ⟨f, t, e, -⟩ := (C05_endpoints_unknown ops l).2 (h.graph ▸ hl)
    exact ⟨f, t, h.graph ▸ e⟩
  obtain ⟨f, t, e⟩ := hex
  have h0 : 0 ≤ x.tt l * x.vot + x.toll l := add_nonneg (mul_nonneg (h.tt l hl) h.vot) (h.toll l hl)
  unfold linkCost
  cases hp : x.pq l with
  | false => exact ⟨_, by simp, ⟨f, t, e, by simp [hp]⟩, h0⟩
  | true =>
    cases hs : x.station t with
    | none => exact ⟨_, by simp [e, hs], ⟨f, t, e, by simp [hp, hs]⟩, h0⟩
    | some s =>
      obtain ⟨a1, a2, a3, a4⟩ := h.station t s hs
      obtain ⟨q, q1, q2, q3⟩ := estimate_spec s.cfg s.state a4
      refine ⟨_, by simp [e, hs, q3]; rfl, ⟨f, t, e, ?_⟩, ?_⟩
      · simp only [hp, hs]
        refine ⟨q, q1, q2, ?_⟩
        push_cast
        ring
      · refine add_nonneg h0 (mul_nonneg (add_nonneg (mul_nonneg (mul_nonneg h.vot ?_) ?_) a3) (by norm_num))
        · have : (0 : ℤ) ≤ (q.length : ℤ) * s.cfg.time + s.cfg.time := by positivity
          exact_mod_cast this
        · exact_mod_cast a2


section
variable {links : List ℤ} {dnode : ℕ → ℤ} {dests : List ℕ} {pois : List ℤ} {pairs : List Pair} {k : Kept}

theorem linkCosts_spec (h : Good x ops links dnode dests pois pairs k) : ∀ (L : List ℤ) (old : ℤ → Option ℚ),
    (∀ l ∈ L, l ∈ linkIds x.g) → ∃ c, linkCosts x L old = .ok c ∧
      ∀ l, (l ∈ L → ∃ v, c l = some v ∧ CostOf x l v ∧ 0 ≤ v) ∧ (l ∉ L → c l = old l)
  | [], old, _ => ⟨old, rfl, fun l => ⟨by simp, fun _ => rfl⟩⟩
  | l :: L, old, hL => by
    obtain ⟨v, e, hv, h0⟩ := linkCost_spec h (hL l (by simp))
    obtain ⟨c, e', hc⟩ := linkCosts_spec h L (upd old l (some v)) fun l' hl' => hL l' (by simp [hl'])
    refine ⟨c, ?_, fun l' => ?_⟩
    · unfold linkCosts at e' ⊢
      rw [Res.foldlM_cons, e, Res.bind_ok', Res.ok_bind]
      exact e'
    · obtain ⟨c1, c2⟩ := hc l'
      by_cases hm : l' ∈ L
      · exact ⟨fun _ => c1 hm, fun hn => absurd hm (fun hm => hn (by simp [hm]))⟩
      · have := c2 hm
        by_cases hl : l' = l
        · subst hl
          rw [upd_same] at this
          exact ⟨fun _ => ⟨v, this, hv, h0⟩, fun hn => absurd (by simp) hn⟩
        · rw [upd_other _ _ _ _ hl] at this
          exact ⟨fun hn => absurd hn (by simp [hl, hm]), fun _ => this⟩

/-- The costs after an update. -/
structure CostsOk (x : Inst) (c : ℤ → Option ℚ) : Prop where
  costs : ∀ l ∈ linkIds x.g, ∃ v, c l = some v ∧ CostOf x l v ∧ 0 ≤ v
  noLink : -1 ∉ linkIds x.g

/-- Costs as numbers. -/
def num (c : ℤ → Option ℚ) (l : ℤ) : ℚ := (c l).getD 0

theorem CostsOk.costsOf {c : ℤ → Option ℚ} (h : CostsOk x c) : Costs x.g (EvR.costs c) (fin (num c)) :=
  ⟨fun l hl => by
    obtain ⟨v, e, -⟩ := h.costs l hl
    simp [EvR.costs, e, fin, num], fun l hl => by
    obtain ⟨v, e, -, h0⟩ := h.costs l hl
    simp only [fin, num, e, Option.getD_some]
    exact_mod_cast h0, h.noLink⟩

theorem snapshot_go {c : ℤ → Option ℚ} (h : CostsOk x c) : ∀ {ls : List ℤ} {u v : ℤ} (a : ℚ),
    (∀ l ∈ ls, l ∈ linkIds x.g) → Res.foldlM (fun s l =>
    match c l with
    | none => .throw "Wrong link in get_path_tt_snapshot()"
    | some v => .ok (s + v)) a ls = .ok (a + total (num c) ls)
  | [], _, _, a, _ => by simp [total]
  | l :: ls, u, v, a, hw => by
    obtain ⟨r, e, -⟩ := h.costs l (hw l (by simp))
    rw [Res.foldlM_cons]
    simp only [e, Res.ok_bind]
    rw [snapshot_go h (u := u) (v := v) _ fun l hl => hw l (by simp [hl]), total_cons]
    simp only [num, e, Option.getD_some, Res.ok.injEq]
    ring

theorem walk_links (hg : x.g = run empty ops) : ∀ {ls : List ℤ} {u v : ℤ}, Walk x.g u ls v → ∀ l ∈ ls, l ∈ linkIds x.g
  | [], _, _, _ => by simp
  | l :: ls, u, v, ⟨t, e, hw⟩ => by
    intro l' hl'
    rcases List.mem_cons.1 hl' with rfl | hl'
    · by_contra hn
      rw [hg] at e hn
      rw [(C05_endpoints_unknown ops l').1 hn] at e
      cases e
    · exact walk_links hg hw l' hl'

theorem wayCost_ok (hg : x.g = run empty ops) {c : ℤ → Option ℚ} (h : CostsOk x c) {out : Tree} {u v : ℤ}
    (hw : Ways x.g (num c) v out) (hu : u ∈ nodeIds x.g) (hr : Reach x.g u v) {T : String → Prop} :
    Evt (fun n => wayCost n x c (some out) u v) (fun a => ∃ ls, Walk x.g u ls v ∧ a = total (num c) ls ∧
      ∀ ls', Walk x.g u ls' v → a ≤ total (num c) ls') T := by
  obtain ⟨ls, w1, w2, N, w3⟩ := hw.path u hu hr
  refine Or.inl ⟨total (num c) ls, ⟨ls, w1, rfl, w2⟩, N, fun n hn => ?_⟩
  simp only [wayCost, w3 n hn, Res.bind_ok', snapshot]
  exact (snapshot_go h (u := u) (v := v) 0 (walk_links hg w1)).trans (by rw [zero_add])

theorem wayCost_ub {c : ℤ → Option ℚ} {out : Tree} {u v : ℤ}
    (hw : Ways x.g (num c) v out) (hu : u ∈ nodeIds x.g) (hr : ¬ Reach x.g u v) (n : ℕ) :
    wayCost (n + 1) x c (some out) u v = .ub := by
  have hne : u ≠ v := by
    rintro rfl
    exact hr ⟨[], rfl⟩
  have := (hw.tree u hu hne).2 hr
  simp [wayCost, extractPath, hne, this]

/-! ## The trees -/

/-- Trees to all destinations and stations. -/
structure AllWays (x : Inst) (c : ℤ → Option ℚ) (dnode : ℕ → ℤ) (dests : List ℕ) (pois : List ℤ) (t : Tables) : Prop where
  dest : ∀ d ∈ dests, ∃ tree, t.dest d = some tree ∧ Ways x.g (num c) (dnode d) tree
  poi : ∀ n ∈ pois, ∃ tree, t.poi n = some tree ∧ Ways x.g (num c) n tree

theorem AllWays.current {c : ℤ → Option ℚ} {t : Tables} (h : AllWays x c dnode dests pois t) :
    Current x.g (num c) dnode dests pois t :=
  ⟨fun d hd => by
    obtain ⟨tree, a, b⟩ := h.dest d hd
    exact ⟨tree, a, b.tree⟩, fun n hn => by
    obtain ⟨tree, a, b⟩ := h.poi n hn
    exact ⟨tree, a, b.tree⟩⟩

theorem trees_spec (h : Good x ops links dnode dests pois pairs k) {c : ℤ → Option ℚ} (hc : CostsOk x c)
    {T : String → Prop} :
    Evt (fun n => (Res.foldlM (destTree n x c) k.trees (dests.map fun d => (d, dnode d))).bind fun t =>
      Res.foldlM (poiTree n x c) t pois) (AllWays x c dnode dests pois) T := by
  have h1 := Evt.fold (T := T) (f := fun n => destTree n x c)
    (I := fun (done : List (ℕ × ℤ)) t => (∀ d ∈ done, ∃ tree, t.dest d.1 = some tree ∧ Ways x.g (num c) (dnode d.1) tree) ∧
      (∀ d ∈ dests, ∃ tree, t.dest d = some tree) ∧ t.poi = k.trees.poi)
    (dests.map fun d => (d, dnode d)) [] k.trees
    (fun p a s b e hI => by
      obtain ⟨i1, i2, i3⟩ := hI
      have ha : a.1 ∈ dests ∧ a.2 = dnode a.1 := by
        rw [List.nil_append] at e
        have : a ∈ dests.map fun d => (d, dnode d) := by rw [e]; simp
        obtain ⟨d, hd, rfl⟩ := List.mem_map.1 this
        exact ⟨hd, rfl⟩
      obtain ⟨tree, ht⟩ := i2 a.1 ha.1
      unfold destTree
      simp only [ht, ha.2]
      refine Evt.bind (g := fun _ s => _) (ways h.graph hc.costsOf (h.destsOk _ ha.1).1 tree) fun s hs =>
        Evt.ok ⟨?_, ?_, i3⟩
      · intro d hd
        by_cases hda : d.1 = a.1
        · rw [hda]
          exact ⟨s.out, by simp, hs⟩
        · rcases List.mem_append.1 hd with hd | hd
          · obtain ⟨t', h1, h2⟩ := i1 d hd
            exact ⟨t', by simp [upd_other _ _ _ _ hda, h1], h2⟩
          · rw [List.mem_singleton] at hd
            exact absurd (by rw [hd]) hda
      · intro d hd
        by_cases hda : d = a.1
        · exact ⟨s.out, by simp [hda]⟩
        · obtain ⟨t', h1⟩ := i2 d hd
          exact ⟨t', by simp [upd_other _ _ _ _ hda, h1]⟩)
    ⟨by simp, fun d hd => (h.destsOk d hd).2, rfl⟩
  refine Evt.bind (g := fun n t => Res.foldlM (poiTree n x c) t pois) h1 fun t ht => ?_
  obtain ⟨t1, t2, t3⟩ := ht
  have h2 := Evt.fold (T := T) (f := fun n => poiTree n x c)
    (I := fun (done : List ℤ) t => AllWays x c dnode dests done t ∧ ∀ n ∈ pois, ∃ tree, t.poi n = some tree)
    pois [] t
    (fun p a s b e hI => by
      obtain ⟨i1, i2⟩ := hI
      have ha : a ∈ pois := by
        rw [List.nil_append] at e
        rw [e]; simp
      obtain ⟨tree, ht⟩ := i2 a ha
      unfold poiTree
      simp only [ht]
      refine Evt.bind (g := fun _ s => _) (ways h.graph hc.costsOf (h.poisOk _ ha).1 tree) fun s hs =>
        Evt.ok ⟨⟨i1.dest, ?_⟩, ?_⟩
      · intro d hd
        by_cases hda : d = a
        · rw [hda]
          exact ⟨s.out, by simp, hs⟩
        · rcases List.mem_append.1 hd with hd | hd
          · obtain ⟨t', h1, h2⟩ := i1.poi d hd
            exact ⟨t', by simp [upd_other _ _ _ _ hda, h1], h2⟩
          · rw [List.mem_singleton] at hd
            exact absurd hd hda
      · intro d hd
        by_cases hda : d = a
        · exact ⟨s.out, by simp [hda]⟩
        · obtain ⟨t', h1⟩ := i2 d hd
          exact ⟨t', by simp [upd_other _ _ _ _ hda, h1]⟩)
    ⟨⟨fun d hd => t1 (d, dnode d) (by simpa using hd), by simp⟩, fun n hn => t3 ▸ (h.poisOk n hn).2⟩
  exact h2.imp fun t ht => by simpa using ht.1

/-! ## The best station -/

theorem tryPoi_spec (h : Good x ops links dnode dests pois pairs k) {c : ℤ → Option ℚ} (hc : CostsOk x c)
    {t : Tables} (ht : AllWays x c dnode dests pois t) {p : Pair} (hp : p ∈ pairs) {n : ℤ} (hn : n ∈ pois)
    (r1 : Reach x.g p.onode n) (r2 : Reach x.g n p.dnode) {done : List ℤ} {b : Option (ℤ × ℚ)}
    (hb : (b = none → done = []) ∧ ∀ m v, b = some (m, v) → m ∈ done ∧ ∃ a a', Walk x.g p.onode a m ∧
      Walk x.g m a' p.dnode ∧ v = total (num c) (a ++ a') ∧ ∀ m' ∈ done, ∀ a a', Walk x.g p.onode a m' →
      Walk x.g m' a' p.dnode → v ≤ total (num c) (a ++ a')) {T : String → Prop} :
    Evt (fun f => tryPoi f x c t p b n) (fun b => (b = none → done ++ [n] = []) ∧
      ∀ m v, b = some (m, v) → m ∈ done ++ [n] ∧ ∃ a a', Walk x.g p.onode a m ∧
      Walk x.g m a' p.dnode ∧ v = total (num c) (a ++ a') ∧ ∀ m' ∈ done ++ [n], ∀ a a', Walk x.g p.onode a m' →
      Walk x.g m' a' p.dnode → v ≤ total (num c) (a ++ a')) T := by
  obtain ⟨p1, p2, p3⟩ := h.pairsOk p hp
  obtain ⟨td, d1, d2⟩ := ht.dest _ p2
  obtain ⟨tp, e1, e2⟩ := ht.poi n hn
  have hnn := (h.poisOk n hn).1
  unfold tryPoi
  simp only [d1, e1, p3]
  refine Evt.bind (g := fun f a => Res.bind _ _) (wayCost_ok h.graph hc d2 hnn (p3 ▸ r2)) fun a ha => ?_
  refine Evt.bind (g := fun f a' => _) (wayCost_ok h.graph hc e2 p1 r1) fun a' ha' => ?_
  obtain ⟨l2, w2, rfl, m2⟩ := ha
  obtain ⟨l1, w1, rfl, m1⟩ := ha'
  have hmin : ∀ a a', Walk x.g p.onode a n → Walk x.g n a' (dnode p.dest) →
      total (num c) l2 + total (num c) l1 ≤ total (num c) (a ++ a') := by
    intro a a' ha ha'
    rw [total_append]
    linarith [m1 a ha, m2 a' ha']
  have hsum : total (num c) l2 + total (num c) l1 = total (num c) (l1 ++ l2) := by rw [total_append]; ring
  rw [p3] at hb
  cases b with
  | none =>
    have := hb.1 rfl
    subst this
    refine Evt.ok ⟨by simp, fun m v hmv => ?_⟩
    cases hmv
    exact ⟨by simp, l1, l2, w1, w2, hsum, fun m' hm' => by
      have : m' = n := by simpa using hm'
      subst this
      exact hmin⟩
  | some b =>
    obtain ⟨m, v⟩ := b
    obtain ⟨q1, a, a', q2, q3, q4, q5⟩ := hb.2 m v rfl
    by_cases hlt : v > total (num c) l2 + total (num c) l1
    · simp only [hlt, if_true]
      refine Evt.ok ⟨by simp, fun m' v' hmv => ?_⟩
      cases hmv
      refine ⟨by simp, l1, l2, w1, w2, hsum, fun m' hm' b b' hb1 hb2 => ?_⟩
      rcases List.mem_append.1 hm' with hm' | hm'
      · exact hlt.le.trans (q5 m' hm' b b' hb1 hb2)
      · rw [List.mem_singleton] at hm'
        subst hm'
        exact hmin b b' hb1 hb2
    · simp only [hlt, if_false]
      refine Evt.ok ⟨by simp, fun m' v' hmv => ?_⟩
      cases hmv
      refine ⟨by simp [q1], a, a', q2, q3, q4, fun m' hm' b b' hb1 hb2 => ?_⟩
      rcases List.mem_append.1 hm' with hm' | hm'
      · exact q5 m' hm' b b' hb1 hb2
      · rw [List.mem_singleton] at hm'
        subst hm'
        exact (not_lt.1 hlt).trans (hmin b b' hb1 hb2)

theorem bestPoi_spec (h : Good x ops links dnode dests pois pairs k) {c : ℤ → Option ℚ} (hc : CostsOk x c)
    {t : Tables} (ht : AllWays x c dnode dests pois t) {p : Pair} (hp : p ∈ pairs)
    (hr : ∀ n ∈ p.nodes, Reach x.g p.onode n ∧ Reach x.g n p.dnode) {nodes : List ℤ} (hn : nodes.Perm p.nodes)
    {T : String → Prop} :
    Evt (fun f => bestPoi f x c t p nodes) (fun b => (p.nodes = [] → b = none) ∧
      (p.nodes ≠ [] → ∃ n, b = some n ∧ IsBest x.g (num c) p.onode p.dnode p.nodes n)) T := by
  unfold bestPoi
  by_cases h0 : p.nodes = []
  · simp only [h0, if_true]
    exact Evt.ok ⟨fun _ => rfl, fun hn => absurd rfl hn⟩
  · simp only [h0, if_false]
    have := Evt.fold (T := T) (f := fun f => tryPoi f x c t p)
      (I := fun (done : List ℤ) b => (b = none → done = []) ∧ ∀ m v, b = some (m, v) → m ∈ done ∧ ∃ a a',
        Walk x.g p.onode a m ∧ Walk x.g m a' p.dnode ∧ v = total (num c) (a ++ a') ∧ ∀ m' ∈ done, ∀ a a',
        Walk x.g p.onode a m' → Walk x.g m' a' p.dnode → v ≤ total (num c) (a ++ a')) nodes [] none
      (fun q a s b e hI => by
        have ha : a ∈ p.nodes := hn.mem_iff.1 (by rw [List.nil_append] at e; rw [e]; simp)
        exact tryPoi_spec h hc ht hp (h.nodes p hp a ha) (hr a ha).1 (hr a ha).2 hI)
      ⟨fun _ => rfl, by simp⟩
    refine Evt.bind (g := fun _ b => _) this fun b hb => Evt.ok ⟨fun h => h.elim, fun _ => ?_⟩
    rw [List.nil_append] at hb
    cases b with
    | none =>
      have := hb.1 rfl
      rw [this] at hn
      exact absurd hn.nil_eq.symm h0
    | some b =>
      obtain ⟨m, v⟩ := b
      obtain ⟨q1, a, a', q2, q3, rfl, q5⟩ := hb.2 m v rfl
      exact ⟨m, rfl, hn.mem_iff.1 q1, a, a', q2, q3, fun m' hm' b b' => q5 m' (hn.mem_iff.2 hm') b b'⟩

theorem updateBest_spec (h : Good x ops links dnode dests pois pairs k) {c : ℤ → Option ℚ} (hc : CostsOk x c)
    {t : Tables} (ht : AllWays x c dnode dests pois t) {shuffle : ℕ → ℕ → List ℤ → List ℤ}
    (hs : ∀ o d l, (shuffle o d l).Perm l)
    (hr : ∀ p ∈ pairs, ∀ n ∈ p.nodes, Reach x.g p.onode n ∧ Reach x.g n p.dnode) {T : String → Prop} :
    Evt (fun f => updateBest f x c t shuffle pairs k.best) (fun best =>
      (∀ p ∈ pairs, (p.nodes = [] → best p.origin p.dest = some none) ∧
        (p.nodes ≠ [] → ∃ n, best p.origin p.dest = some (some n) ∧ IsBest x.g (num c) p.onode p.dnode p.nodes n)) ∧
      ∀ o d, (∀ p ∈ pairs, ¬ (p.origin = o ∧ p.dest = d)) → best o d = k.best o d) T := by
  unfold updateBest
  have := Evt.fold (T := T) (f := fun f (best : ℕ → ℕ → Option (Option ℤ)) (p : Pair) =>
      (bestPoi f x c t p (shuffle p.origin p.dest p.nodes)).bind fun b =>
        .ok (upd best p.origin (upd (best p.origin) p.dest (some b))))
    (I := fun (done : List Pair) (best : ℕ → ℕ → Option (Option ℤ)) =>
      (∀ p ∈ done, (p.nodes = [] → best p.origin p.dest = some none) ∧
        (p.nodes ≠ [] → ∃ n, best p.origin p.dest = some (some n) ∧ IsBest x.g (num c) p.onode p.dnode p.nodes n)) ∧
      ∀ o d, (∀ p ∈ done, ¬ (p.origin = o ∧ p.dest = d)) → best o d = k.best o d) pairs [] k.best
    (fun q a s b e hI => by
      rw [List.nil_append] at e
      have ha : a ∈ pairs := by rw [e]; simp
      refine Evt.bind (g := fun _ r => _) (bestPoi_spec h hc ht ha (hr a ha) (hs _ _ _)) fun r hr' => Evt.ok ⟨?_, ?_⟩
      · intro p hp
        rcases List.mem_append.1 hp with hp | hp
        · have hne : ¬ (p.origin = a.origin ∧ p.dest = a.dest) := by
            have := h.once
            rw [e, List.pairwise_append] at this
            exact this.2.2 p hp a (by simp)
          have : upd b a.origin (upd (b a.origin) a.dest (some r)) p.origin p.dest = b p.origin p.dest := by
            by_cases ho : p.origin = a.origin
            · have hd : p.dest ≠ a.dest := fun hd => hne ⟨ho, hd⟩
              rw [ho, upd_same, upd_other _ _ _ _ hd]
            · rw [upd_other _ _ _ _ ho]
          rw [this]
          exact hI.1 p hp
        · rw [List.mem_singleton] at hp
          subst hp
          simp only [upd_same]
          refine ⟨fun h0 => by rw [hr'.1 h0], fun h0 => ?_⟩
          obtain ⟨n, rfl, h2⟩ := hr'.2 h0
          exact ⟨n, rfl, h2⟩
      · intro o d hod
        have hne := hod a (by simp)
        have : upd b a.origin (upd (b a.origin) a.dest (some r)) o d = b o d := by
          by_cases ho : o = a.origin
          · have hd : d ≠ a.dest := fun hd => hne ⟨ho.symm, hd.symm⟩
            rw [ho, upd_same, upd_other _ _ _ _ hd]
          · rw [upd_other _ _ _ _ ho]
        rw [this]
        exact hI.2 o d fun p hp => hod p (by simp [hp]))
    ⟨by simp, fun _ _ _ => rfl⟩
  simpa using this

/-! ## Candidates out of reach -/

theorem bestPoi_ub (h : Good x ops links dnode dests pois pairs k) {c : ℤ → Option ℚ} (hc : CostsOk x c)
    {t : Tables} (ht : AllWays x c dnode dests pois t) {p : Pair} (hp : p ∈ pairs) : ∀ (nodes : List ℤ)
    (b : Option (ℤ × ℚ)), (∀ n ∈ nodes, n ∈ pois) → (∃ n ∈ nodes, ¬ (Reach x.g p.onode n ∧ Reach x.g n p.dnode)) →
    ∃ N, ∀ f, N ≤ f → Res.foldlM (tryPoi f x c t p) b nodes = .ub
  | [], b, _, hb => by simp at hb
  | n :: ns, b, hn, hb => by
    obtain ⟨p1, p2, p3⟩ := h.pairsOk p hp
    obtain ⟨td, d1, d2⟩ := ht.dest _ p2
    obtain ⟨tp, e1, e2⟩ := ht.poi n (hn n (by simp))
    have hnn := (h.poisOk n (hn n (by simp))).1
    by_cases r2 : Reach x.g n p.dnode
    · rcases wayCost_ok (T := fun _ => False) h.graph hc d2 hnn (p3 ▸ r2) with ⟨a, -, N1, hN1⟩ | ⟨_, hF, -⟩
      · by_cases r1 : Reach x.g p.onode n
        · rcases wayCost_ok (T := fun _ => False) h.graph hc e2 p1 r1 with ⟨a', -, N2, hN2⟩ | ⟨_, hF, -⟩
          · obtain ⟨b', hb'⟩ : ∃ b', ∀ f, max N1 N2 ≤ f → tryPoi f x c t p b n = .ok b' := by
              cases b with
              | none =>
                refine ⟨some (n, a + a'), fun f hf => ?_⟩
                have g1 : wayCost f x c (some td) n (dnode p.dest) = .ok a := hN1 f (by omega)
                have g2 : wayCost f x c (some tp) p.onode n = .ok a' := hN2 f (by omega)
                simp only [tryPoi, d1, e1, p3, g1, g2, Res.bind_ok']
              | some b =>
                refine ⟨some (if b.2 > a + a' then (n, a + a') else b), fun f hf => ?_⟩
                have g1 : wayCost f x c (some td) n (dnode p.dest) = .ok a := hN1 f (by omega)
                have g2 : wayCost f x c (some tp) p.onode n = .ok a' := hN2 f (by omega)
                simp only [tryPoi, d1, e1, p3, g1, g2, Res.bind_ok']
            obtain ⟨N, hN⟩ := bestPoi_ub h hc ht hp ns b' (fun m hm => hn m (by simp [hm])) (by
              obtain ⟨m, hm, hr⟩ := hb
              rcases List.mem_cons.1 hm with rfl | hm
              · exact absurd ⟨r1, r2⟩ hr
              · exact ⟨m, hm, hr⟩)
            refine ⟨max N (max N1 N2), fun f hf => ?_⟩
            rw [Res.foldlM_cons, hb' f (by omega), Res.ok_bind]
            exact hN f (by omega)
          · exact hF.elim
        · refine ⟨max N1 1, fun f hf => ?_⟩
          have g1 : wayCost f x c (some td) n (dnode p.dest) = .ok a := hN1 f (by omega)
          obtain ⟨f', rfl⟩ : ∃ f', f = f' + 1 := ⟨f - 1, by omega⟩
          have : tryPoi (f' + 1) x c t p b n = .ub := by
            simp only [tryPoi, d1, e1, p3, g1, Res.bind_ok', wayCost_ub e2 p1 r1]
            rfl
          rw [Res.foldlM_cons, this]
          rfl
      · exact hF.elim
    · refine ⟨1, fun f hf => ?_⟩
      obtain ⟨f', rfl⟩ : ∃ f', f = f' + 1 := ⟨f - 1, by omega⟩
      have : tryPoi (f' + 1) x c t p b n = .ub := by
        simp only [tryPoi, d1, p3]
        rw [wayCost_ub d2 hnn (p3 ▸ r2)]
        rfl
      rw [Res.foldlM_cons, this]
      rfl

open Classical in
theorem checkPair_spec {g : G} (hg : g = run empty ops) (hneg : -1 ∉ linkIds g) {cost : ℤ → Option Cost}
    (hcost : ∀ l ∈ linkIds g, cost l = some 1) {p : Pair} (ho : p.onode ∈ nodeIds g) (hd : p.dnode ∈ nodeIds g)
    {T : String → Prop} : ∀ (nodes : List ℤ), (∀ n ∈ nodes, n ∈ nodeIds g ∧ n ≠ p.onode ∧ n ≠ p.dnode) →
    Evt (fun f => checkPair f g cost p nodes)
      (fun r => r = nodes.filter fun n => decide (Reach g p.onode n ∧ Reach g n p.dnode)) T
  | [], _ => Evt.ok rfl
  | n :: ns, hn => by
    have hC : Costs g cost (fin fun _ => 1) := ⟨fun l hl => by rw [hcost l hl]; simp [fin], fun l hl => by
      simp [fin], hneg⟩
    have hctx : Ctx g cost (fin fun _ => 1) := hg ▸ ctx_of_run ops (hg ▸ hC)
    obtain ⟨n1, n2, n3⟩ := hn n (by simp)
    have ih := checkPair_spec hg hneg hcost ho hd (T := T) ns fun m hm => hn m (by simp [hm])
    have key : ∀ {u v : ℤ} {t : Tree}, Ways g (fun _ => 1) v t → u ∈ nodeIds g → u ≠ v →
        (Reach g u v → ∃ l, t u = some l ∧ l ≠ -1) ∧ (¬ Reach g u v → t u = some (-1)) := by
      intro u v t hw hu hne
      refine ⟨fun hr => ?_, (hw.tree u hu hne).2⟩
      obtain ⟨l, e, ls, ⟨t', e', -⟩, -⟩ := (hw.tree u hu hne).1 hr
      exact ⟨l, e, (hctx.cost _ _ _ e').2.2.1⟩
    unfold checkPair
    refine Evt.bind (g := fun f s => _) (ways hg hC n1 _) fun s hs => ?_
    by_cases r1 : Reach g p.onode n
    · obtain ⟨l, e, hl⟩ := (key hs ho (Ne.symm n2)).1 r1
      simp only [e, hl, if_false]
      refine Evt.bind (g := fun f s => _) (ways hg hC hd _) fun s' hs' => ?_
      by_cases r2 : Reach g n p.dnode
      · obtain ⟨l', e', hl'⟩ := (key hs' n1 n3).1 r2
        simp only [e', hl', if_false]
        refine Evt.bind (g := fun f r => _) ih fun r hr => Evt.ok ?_
        rw [List.filter_cons, if_pos (by simp [r1, r2]), hr]
      · have e' := (key hs' n1 n3).2 r2
        simp only [e', if_true]
        refine ih.imp fun r hr => ?_
        rw [List.filter_cons, if_neg (by simp [r2]), hr]
    · have e := (key hs ho (Ne.symm n2)).2 r1
      simp only [e, if_true]
      refine ih.imp fun r hr => ?_
      rw [List.filter_cons, if_neg (by simp [r1]), hr]

/-! ## Next links -/

theorem begins_end {g : G} {c : ℤ → ℚ} {u v l : ℤ} (h : Begins g c u v l) :
    ∃ t, getEndpoints g l = .ok (u, t) ∧ endOf g l = .ok t ∧ Reach g t v := by
  obtain ⟨ls, ⟨t, e, hw⟩, -⟩ := h
  exact ⟨t, e, by simp [endOf, e], ls, hw⟩

theorem tree_reach {g : G} {c : ℤ → ℚ} {v : ℤ} {t : Tree} (hg : g = run empty ops) (hneg : -1 ∉ linkIds g)
    (ht : TreeTo g c v t) {u : ℤ} (hu : u ∈ nodeIds g)
    (hne : u ≠ v) (hr : Reach g u v) : ∃ l, t u = some l ∧ l ≠ -1 ∧ Begins g c u v l := by
  obtain ⟨l, e, hb⟩ := (ht u hu hne).1 hr
  refine ⟨l, e, ?_, hb⟩
  rintro rfl
  obtain ⟨t', e', -⟩ := begins_end hb
  rw [hg] at e' hneg
  rw [(C05_endpoints_unknown ops (-1)).1 hneg] at e'
  cases e'

theorem end_node {g : G} (hg : g = run empty ops) {l u t : ℤ} (e : getEndpoints g l = .ok (u, t)) :
    l ∈ linkIds g ∧ u ∈ nodeIds g ∧ t ∈ nodeIds g := by
  subst hg
  have hl : l ∈ linkIds (run empty ops) := by
    by_contra hn
    rw [(C05_endpoints_unknown ops l).1 hn] at e
    cases e
  obtain ⟨f', t', e', -, h1, h2⟩ := (C05_endpoints_unknown ops l).2 hl
  rw [e] at e'
  cases e'
  exact ⟨hl, h1, h2⟩

end

end Verif.EvR

import Verif.Spec.Cover
import Verif.Lemmas.PathGen
import Verif.Props.ShortestPath
import Verif.Props.Record

/-! # Lemmas about the generation of paths for uncovered links -/

namespace Verif.Cover
open Graph Sp Path

/-! ## The reversed graph -/

theorem run_append (g : G) (a b : List Op) : run g (a ++ b) = run (run g a) b := by simp [run]

theorem foldl_addNode : ∀ (l : List ℤ) (g r : G), Res.foldlM (fun r n => addNode r n) g l = .ok r →
    ∃ ops, r = run g ops
  | [], g, r, h => by simp only [Res.foldlM_nil, Res.ok.injEq] at h; subst h; exact ⟨[], rfl⟩
  | n :: l, g, r, h => by
    rw [Res.foldlM_cons, Res.bind_eq_ok] at h
    obtain ⟨g1, h1, h2⟩ := h
    obtain ⟨ops, rfl⟩ := foldl_addNode l g1 r h2
    refine ⟨.addNode n :: ops, ?_⟩
    simp only [run, List.foldl_cons]
    congr 1
    simp [step, exec, h1, Res.stateOr]

theorem foldl_addLink (g0 : G) : ∀ (l : List ℤ) (g r : G),
    Res.foldlM (fun r l => (getEndpoints g0 l).bind fun e => addLink r e.2 e.1 l) g l = .ok r →
    ∃ ops, r = run g ops
  | [], g, r, h => by simp only [Res.foldlM_nil, Res.ok.injEq] at h; subst h; exact ⟨[], rfl⟩
  | n :: l, g, r, h => by
    rw [Res.foldlM_cons, Res.bind_eq_ok] at h
    obtain ⟨g1, h1, h2⟩ := h
    rw [Res.bind_eq_ok'] at h1
    obtain ⟨e, h3, h4⟩ := h1
    obtain ⟨ops, rfl⟩ := foldl_addLink g0 l g1 r h2
    refine ⟨.addLink e.2 e.1 n :: ops, ?_⟩
    simp only [run, List.foldl_cons]
    congr 1
    simp [step, exec, h4, Res.stateOr]

theorem reverse_run {g r : G} {no lo : List ℤ} (h : reverseGraph g no lo = .ok r) : ∃ ops, r = run empty ops := by
  unfold reverseGraph at h
  rw [Res.bind_eq_ok'] at h
  obtain ⟨g1, h1, h2⟩ := h
  obtain ⟨o1, rfl⟩ := foldl_addNode _ _ _ h1
  obtain ⟨o2, rfl⟩ := foldl_addLink _ _ _ _ h2
  exact ⟨o1 ++ o2, (run_append _ _ _).symm⟩

/-- `rg` is `g` with all links turned around. -/
def Turned (g rg : G) : Prop := ∀ i f t, getEndpoints rg i = .ok (f, t) ↔ getEndpoints g i = .ok (t, f)

theorem walk_snoc {g : G} {a : List ℤ} {l u f t : ℤ} (h : Walk g u a f) (e : getEndpoints g l = .ok (f, t)) :
    Walk g u (a ++ [l]) t := walk_append h ⟨t, e, rfl⟩

theorem walk_turn {g rg : G} (h : Turned g rg) : ∀ {ls : List ℤ} {u v : ℤ}, Walk rg u ls v → Walk g v ls.reverse u
  | [], u, v, hw => by
    have : u = v := hw
    subst this
    rfl
  | l :: ls, u, v, ⟨t, e, hw⟩ => by
    rw [List.reverse_cons]
    exact walk_snoc (walk_turn h hw) ((h _ _ _).1 e)

theorem Turned.symm {g rg : G} (h : Turned g rg) : Turned rg g := fun i f t => (h i t f).symm

theorem walkNodes_append (g : G) : ∀ {a b : List ℤ} {u v : ℤ}, Walk g u a v →
    walkNodes g u (a ++ b) = walkNodes g u a ++ (walkNodes g v b).tail
  | [], b, u, v, hw => by
    have : u = v := hw
    subst this
    cases b <;> simp [walkNodes]
  | l :: a, b, u, v, ⟨t, e, hw⟩ => by
    simp only [List.cons_append, walkNodes, e]
    rw [walkNodes_append g hw]

theorem walkNodes_turn {g rg : G} (h : Turned g rg) : ∀ {ls : List ℤ} {u v : ℤ}, Walk rg u ls v →
    (walkNodes rg u ls).reverse = walkNodes g v ls.reverse
  | [], u, v, hw => by
    have : u = v := hw
    subst this
    rfl
  | l :: ls, u, v, ⟨t, e, hw⟩ => by
    have ih := walkNodes_turn h hw
    simp only [walkNodes, e, List.reverse_cons]
    rw [ih, walkNodes_append g (walk_turn h hw)]
    simp [walkNodes, (h _ _ _).1 e]

theorem walkNodes_cons {g : G} {l u t : ℤ} {ls : List ℤ} (e : getEndpoints g l = .ok (u, t)) :
    walkNodes g u (l :: ls) = u :: walkNodes g t ls := by simp [walkNodes, e]

/-! ## Trees -/

/-- The costs of links. -/
def w (x : Inst) (l : ℤ) : Cost := ((x.tt l : ℚ) : Cost)

theorem cost_time (x : Inst) : ∀ ls : List ℤ, walkCost (w x) ls = ((time x ls : ℚ) : Cost)
  | [] => rfl
  | l :: ls => by
    rw [walkCost_cons, cost_time x ls]
    simp only [w, time, List.map_cons, List.sum_cons]
    norm_cast

variable {x : Inst} {orc : Orc} {ops : List Op}

theorem Good.costs (h : Good x orc ops) : Costs x.g (cost x) (w x) :=
  ⟨fun l hl => by simp [cost, hl, w], fun l hl => by
    have := h.tt l hl
    unfold w
    exact_mod_cast this, h.noLink⟩

/-- What is used of the reversed graph. -/
structure Rev (x : Inst) (rg : G) : Prop where
  turned : Turned x.g rg
  nodes : ∀ v, v ∈ nodeIds rg ↔ v ∈ nodeIds x.g
  run : ∃ ops, rg = Graph.run Graph.empty ops
  costs : Costs rg (cost x) (w x)

theorem Good.rev (h : Good x orc ops) : ∃ rg, reverseGraph x.g orc.nodes orc.links = .ok rg ∧ Rev x rg := by
  obtain ⟨r, h1, h2, h3, h4, -⟩ := C06_reverse_graph ops orc.nodes orc.links (h.graph ▸ h.nodes) (h.graph ▸ h.links)
  rw [← h.graph] at h1 h2 h3 h4
  have hc := h.costs
  exact ⟨r, h1, h4, fun v => h2.mem_iff, reverse_run h1, fun l hl => hc.some l (h3.mem_iff.1 hl),
    fun l hl => hc.nonneg l (h3.mem_iff.1 hl), fun hl => hc.noLink (h3.mem_iff.1 hl)⟩

/-- A tree of fastest ways to `v`. -/
structure Ways (x : Inst) (g : G) (v : ℤ) (out : ℤ → Option ℤ) : Prop where
  entry : ∀ u ∈ nodeIds g, u ≠ v → ∃ l, out u = some l ∧ (l = -1 → ∀ ls, ¬ Walk g u ls v)
  path : ∀ u ∈ nodeIds g, ∀ l, out u = some l → l ≠ -1 → u ≠ v → ∃ ls, Walk g u ls v ∧
    (∀ ls', Walk g u ls' v → time x ls ≤ time x ls') ∧
    ∃ N, ∀ n, N ≤ n → extractPath g v out n u = .ok (some (walkNodes g u ls, ls))

theorem ways {g : G} {ops : List Op} (hg : g = run empty ops) (hc : Costs g (cost x) (w x)) {v : ℤ}
    (hv : v ∈ nodeIds g) {T : String → Prop} :
    Evt (fun n => fifo n g v (cost x) fun _ => none) (fun s => Ways x g v s.out) T := by
  subst hg
  obtain ⟨n0, s, h1, h2⟩ := C37_fifo_shortest_paths ops v hv _ _ hc fun _ => none
  refine Or.inl ⟨s, ?_, n0, h1⟩
  have hctx := ctx_of_run ops hc
  have ht : TreeOk (run empty ops) (w x) v s.out := by
    rcases fifo_tree (T := fun _ => False) hctx hv fun _ => none with ⟨s', a, N, b⟩ | ⟨_, hf, -⟩
    · have e1 := b (max n0 N) (le_max_right _ _)
      have e1 : fifo (max n0 N) (run empty ops) v (cost x) (fun _ => none) = .ok s' := e1
      rw [h1 _ (le_max_left _ _)] at e1
      cases e1
      exact a
    · exact hf.elim
  have hfin : ∀ u ls, Walk (run empty ops) u ls v → walkCost (w x) ls ≠ ⊤ := fun u ls _ => by
    rw [cost_time]; exact WithTop.coe_ne_top
  refine ⟨?_, ?_⟩
  · intro u hu hne
    obtain ⟨d, -, hL, a, b⟩ := h2 u hu
    by_cases hd : d = ⊤
    · exact ⟨-1, a hne hd, fun _ ls hw => by
        have := hL.1 ls hw
        rw [hd, top_le_iff] at this
        exact hfin u ls hw this⟩
    · obtain ⟨l, t, dt, e1, e2, -⟩ := b hne hd
      refine ⟨l, e1, fun hl => ?_⟩
      exact absurd hl (hctx.cost _ _ _ e2).2.2.1
  · intro u hu l hl hl1 hne
    rcases ht u hu with ⟨ls, a, b, c⟩ | ⟨a, N, b⟩
    · refine ⟨ls, a, fun ls' hw => ?_, c⟩
      have := b.1 ls' hw
      rw [cost_time, cost_time] at this
      exact_mod_cast this
    · exfalso
      obtain ⟨d, -, hL, -, hb⟩ := h2 u hu
      have hd : d ≠ ⊤ := by
        intro hd
        obtain ⟨d', _, _, a', _⟩ := h2 u hu
        have e := (show s.out u = some (-1) from by
          obtain ⟨d2, e2, hL2, a2, b2⟩ := h2 u hu
          by_cases hd2 : d2 = ⊤
          · exact a2 hne hd2
          · rcases hL2.2 with h | ⟨ls, hw, hc'⟩
            · exact absurd h hd2
            · exact absurd (a ls hw) (hc' ▸ hd2))
        rw [hl] at e
        exact hl1 (Option.some.inj e)
      rcases hL.2 with h | ⟨ls, hw, hc'⟩
      · exact hd h
      · exact hd (hc' ▸ a ls hw)

/-! ## Origin and destination -/

theorem pickDest_spec {a b : ℤ → Option ℤ} {o la : ℤ} (ha : a o = some la) : ∀ (ds : List ℤ),
    (∀ d ∈ ds, ∃ y, b d = some y) →
    ∃ r, pickDest (some a) (some b) o ds = .ok r ∧
      (∀ d, r = some d → d ∈ ds ∧ la ≠ -1 ∧ ∃ y, b d = some y ∧ y ≠ -1) ∧
      (r = none → la = -1 ∨ ∀ d ∈ ds, b d = some (-1))
  | [], _ => ⟨none, rfl, by simp, by simp⟩
  | d :: ds, h => by
    obtain ⟨r, h1, h2, h3⟩ := pickDest_spec ha ds fun e he => h e (by simp [he])
    obtain ⟨y, hy⟩ := h d (by simp)
    have e1 : entry (some a) o = .ok la := by simp [entry, ha]
    have e2 : entry (some b) d = .ok y := by simp [entry, hy]
    simp only [pickDest, e1, Res.bind_ok']
    by_cases hla : la = -1
    · rw [if_neg (by simp [hla])]
      exact ⟨r, h1, fun d' hd' => ⟨by simp [(h2 d' hd').1], (h2 d' hd').2⟩, fun _ => Or.inl hla⟩
    · rw [if_pos hla, e2, Res.bind_ok']
      by_cases hyy : y = -1
      · rw [if_neg (by simp [hyy])]
        refine ⟨r, h1, fun d' hd' => ⟨by simp [(h2 d' hd').1], (h2 d' hd').2⟩, fun hr => Or.inr ?_⟩
        intro d' hd'
        rcases List.mem_cons.1 hd' with rfl | hd'
        · rw [hy, hyy]
        · exact (h3 hr).resolve_left hla d' hd'
      · rw [if_pos hyy]
        exact ⟨some d, rfl, fun d' hd' => by cases hd'; exact ⟨by simp, hla, y, hy, hyy⟩, by simp⟩

theorem pick_spec {dests : ℤ → List ℤ → List ℤ} (hds : ∀ o l, (dests o l).Perm l) {a b : ℤ → Option ℤ} :
    ∀ (os : List (ℤ × List ℤ)), (∀ o ∈ os, ∃ y, a o.1 = some y) → (∀ o ∈ os, ∀ d ∈ o.2, ∃ y, b d = some y) →
    ∃ r, pick dests (some a) (some b) os = .ok r ∧
      (∀ o d, r = some (o, d) → (∃ p ∈ os, p.1 = o ∧ d ∈ p.2) ∧ (∃ y, a o = some y ∧ y ≠ -1) ∧
        ∃ y, b d = some y ∧ y ≠ -1) ∧
      (r = none → ∀ o ∈ os, ∀ d ∈ o.2, a o.1 = some (-1) ∨ b d = some (-1))
  | [], _, _ => ⟨none, rfl, by simp, by simp⟩
  | o :: os, h1, h2 => by
    obtain ⟨r, e1, e2, e3⟩ := pick_spec hds os (fun p hp => h1 p (by simp [hp])) fun p hp => h2 p (by simp [hp])
    have up : ∀ o' d, r = some (o', d) → (∃ p ∈ o :: os, p.1 = o' ∧ d ∈ p.2) ∧ (∃ y, a o' = some y ∧ y ≠ -1) ∧
        ∃ y, b d = some y ∧ y ≠ -1 := by
      intro o' d hr
      obtain ⟨⟨p, hp, hq⟩, g⟩ := e2 o' d hr
      exact ⟨⟨p, by simp [hp], hq⟩, g⟩
    simp only [pick]
    by_cases ho : o.2 = []
    · rw [if_pos ho]
      refine ⟨r, e1, up, fun hr p hp d hd => ?_⟩
      rcases List.mem_cons.1 hp with rfl | hp
      · rw [ho] at hd; simp at hd
      · exact e3 hr p hp d hd
    · rw [if_neg ho]
      obtain ⟨la, hla⟩ := h1 o (by simp)
      have hp := hds o.1 o.2
      obtain ⟨r', f1, f2, f3⟩ := pickDest_spec (b := b) hla (dests o.1 o.2) fun d hd => h2 o (by simp) d (hp.mem_iff.1 hd)
      rw [f1, Res.bind_ok']
      cases r' with
      | some d =>
        refine ⟨some (o.1, d), rfl, fun o' d' hr => ?_, by simp⟩
        simp only [Option.some.injEq, Prod.mk.injEq] at hr
        obtain ⟨rfl, rfl⟩ := hr
        obtain ⟨g1, g2, g3⟩ := f2 d rfl
        exact ⟨⟨o, by simp, rfl, hp.mem_iff.1 g1⟩, ⟨la, hla, g2⟩, g3⟩
      | none =>
        refine ⟨r, e1, up, fun hr p hp' d hd => ?_⟩
        rcases List.mem_cons.1 hp' with rfl | hp'
        · rcases f3 rfl with h | h
          · exact Or.inl (h ▸ hla)
          · exact Or.inr (h d (hp.mem_iff.2 hd))
        · exact e3 hr p hp' d hd

/-! ## One path -/

theorem time_append (x : Inst) (a b : List ℤ) : time x (a ++ b) = time x a + time x b := by simp [time]

theorem time_reverse (x : Inst) (a : List ℤ) : time x a.reverse = time x a := by
  simp [time, List.map_reverse, List.sum_reverse]

theorem split_at {g : G} {l : ℤ} {f t : ℤ} (e : getEndpoints g l = .ok (f, t)) {ls : List ℤ} {o d : ℤ}
    (hw : Walk g o ls d) (hl : l ∈ ls) : ∃ a b, ls = a ++ l :: b ∧ Walk g o a f ∧ Walk g t b d := by
  obtain ⟨a, b, rfl⟩ := List.append_of_mem hl
  obtain ⟨h1, t', e', h2⟩ := walk_split hw
  rw [src_eq e] at h1 e'
  rw [e] at e'
  cases e'
  exact ⟨a, b, rfl, h1, h2⟩

/-- What `findPath` finds for link `l`. -/
def Found (x : Inst) (l : ℤ) (r : Option (ℤ × ℤ × P)) : Prop :=
  (∀ q, r = some q → HasDemand x q.1 q.2.1 ∧ FastestOver x l q.1 q.2.1 q.2.2) ∧
  (r = none → ∀ o d ls, HasDemand x o d → Walk x.g o ls d → l ∉ ls)

theorem findPath_spec (h : Good x orc ops) {rg : G} (hr : Rev x rg) {l f t : ℤ}
    (e : getEndpoints x.g l = .ok (f, t)) (hf : x.isOrigin f = false) (ht : x.isDest t = false)
    {a b : ℤ → Option ℤ} (ha : Ways x x.g f a) (hb : Ways x rg t b) (i k : ℕ) {T : String → Prop} :
    Evt (fun n => findPath n x rg (orc.origins i k x.origins) (orc.dests i k) (some a, some b) f t l) (Found x l) T := by
  have ho := h.shuffleO i k x.origins
  have nf : ∀ o ∈ x.origins, o.1 ≠ f := by
    intro o hoo heq
    have := (h.origins o hoo).2
    rw [heq, hf] at this
    cases this
  have nt : ∀ o ∈ x.origins, ∀ d ∈ o.2, d ≠ t := by
    intro o hoo d hd heq
    have := (h.dests o hoo d hd).2
    rw [heq, ht] at this
    cases this
  obtain ⟨r, p1, p2, p3⟩ := pick_spec (dests := orc.dests i k) (h.shuffleD i k) (a := a) (b := b)
    (orc.origins i k x.origins)
    (fun o hoo => by
      have hoo := ho.mem_iff.1 hoo
      obtain ⟨y, hy, -⟩ := ha.entry o.1 (h.origins o hoo).1 (nf o hoo)
      exact ⟨y, hy⟩)
    (fun o hoo d hd => by
      have hoo := ho.mem_iff.1 hoo
      obtain ⟨y, hy, -⟩ := hb.entry d ((hr.nodes d).2 (h.dests o hoo d hd).1) (nt o hoo d hd)
      exact ⟨y, hy⟩)
  unfold findPath
  simp only [p1, Res.bind_ok']
  cases r with
  | none =>
    refine Evt.ok ⟨by simp, fun _ o d ls hdem hw hl => ?_⟩
    obtain ⟨p, hp, rfl, hd⟩ := hdem
    obtain ⟨a', b', rfl, w1, w2⟩ := split_at e hw hl
    rcases p3 rfl p (ho.mem_iff.2 hp) d hd with h1 | h1
    · obtain ⟨y, hy, hn⟩ := ha.entry p.1 (h.origins p hp).1 (nf p hp)
      rw [h1] at hy
      cases hy
      exact hn rfl a' w1
    · obtain ⟨y, hy, hn⟩ := hb.entry d ((hr.nodes d).2 (h.dests p hp d hd).1) (nt p hp d hd)
      rw [h1] at hy
      cases hy
      exact hn rfl b'.reverse (walk_turn hr.turned.symm w2)
  | some od =>
    obtain ⟨o, d⟩ := od
    obtain ⟨⟨p, hp, rfl, hd⟩, ⟨y, hy, hy1⟩, ⟨z, hz, hz1⟩⟩ := p2 o d rfl
    have hp := ho.mem_iff.1 hp
    obtain ⟨A, wA, fA, N, xA⟩ := ha.path p.1 (h.origins p hp).1 y hy hy1 (nf p hp)
    obtain ⟨B, wB, fB, M, xB⟩ := hb.path d ((hr.nodes d).2 (h.dests p hp d hd).1) z hz hz1 (nt p hp d hd)
    refine Or.inl ⟨some (p.1, d, (walkNodes x.g p.1 A ++ (walkNodes rg d B).reverse, A ++ l :: B.reverse)), ?_,
      max N M, fun n hn => ?_⟩
    · refine ⟨fun q hq => ?_, by simp⟩
      cases hq
      have wB' := walk_turn hr.turned wB
      refine ⟨⟨p, hp, rfl, hd⟩, walk_append wA ⟨t, e, wB'⟩, ?_, by simp, ?_⟩
      · show walkNodes x.g p.1 A ++ (walkNodes rg d B).reverse = walkNodes x.g p.1 (A ++ l :: B.reverse)
        rw [walkNodes_turn hr.turned wB, walkNodes_append x.g wA, walkNodes_cons e]
        rfl
      · intro ls hw hl
        obtain ⟨a', b', rfl, w1, w2⟩ := split_at e hw hl
        have g1 := fA a' w1
        have g2 := fB b'.reverse (walk_turn hr.turned.symm w2)
        rw [time_reverse] at g2
        show time x (A ++ l :: B.reverse) ≤ _
        rw [time_append, time_append]
        have g3 : ∀ c, time x (l :: c) = x.tt l + time x c := fun c => by simp [time]
        rw [g3, g3, time_reverse]
        linarith
    · simp only [half, xA n (by omega), xB n (by omega), Res.bind_ok']

theorem trees_spec (h : Good x orc ops) {rg : G} (hr : Rev x rg) {l f t : ℤ}
    (e : getEndpoints x.g l = .ok (f, t)) (hf : x.isOrigin f = false) (ht : x.isDest t = false) {T : String → Prop} :
    Evt (fun n => trees n x rg f t) (fun ab => ∃ a b, ab = (some a, some b) ∧ Ways x x.g f a ∧ Ways x rg t b) T := by
  have hctx := (h.graph ▸ ctx_of_run ops (h.graph ▸ h.costs) : Ctx x.g (cost x) (w x))
  obtain ⟨nf, nt, -⟩ := hctx.ends _ _ _ e
  obtain ⟨ops', ho⟩ := hr.run
  unfold trees
  simp only [hf, ht, Bool.false_eq_true, if_false]
  refine Evt.bind (g := fun n a => Res.bind _ _) (A := fun a => ∃ o, a = some o ∧ Ways x x.g f o)
    (Evt.bind (g := fun _ s => .ok (some s.out)) (ways h.graph h.costs nf)
      fun s hs => Evt.ok ⟨s.out, rfl, hs⟩) fun a ha => ?_
  obtain ⟨a, rfl, ha⟩ := ha
  refine Evt.bind (g := fun n b => .ok (some a, b)) (A := fun a => ∃ o, a = some o ∧ Ways x rg t o)
    (Evt.bind (g := fun _ s => .ok (some s.out)) (ways ho hr.costs ((hr.nodes t).2 nt))
      fun s hs => Evt.ok ⟨s.out, rfl, hs⟩) fun b hb => ?_
  obtain ⟨b, rfl, hb⟩ := hb
  exact Evt.ok ⟨a, b, rfl, ha, hb⟩

/-! ## The loops -/

theorem added_nil (t : Table) : added t [] = t := by
  funext o d
  simp [added]

theorem push_added {t : Table} {new : List (ℤ × ℤ × P)} {o d : ℤ} {ps : List P} (h : t o d = some ps) (p : P) :
    push (added t new) o d p = .ok (added t (new ++ [(o, d, p)])) := by
  have e : added t new o d = some (ps ++ (new.filter fun q => decide (q.1 = o ∧ q.2.1 = d)).map fun q => q.2.2) := by
    simp [added, h]
  unfold push
  rw [e]
  simp only [Res.ok.injEq]
  funext o' d'
  by_cases ho : o' = o
  · subst ho
    by_cases hd : d' = d
    · subst hd
      simp [upd, added, h]
    · simp only [upd, added, if_true, if_neg hd]
      rw [List.filter_append]
      simp [show ¬ d = d' from fun h => hd h.symm]
  · simp only [upd, added, if_neg ho]
    rw [List.filter_append]
    simp [show ¬ o = o' from fun h => ho h.symm]

theorem covered_eq (paths : List P) (links : List ℤ) :
    Rec.covered (paths.map (·.2)) links = links.map fun l => decide (∃ p ∈ paths, l ∈ p.2) := by
  obtain ⟨h1, h2⟩ := C120_covered (paths.map (·.2)) links
  refine List.ext_getElem? fun i => ?_
  by_cases hi : i < links.length
  · rw [h2 i hi, List.getElem?_map, List.getElem?_eq_getElem hi, Option.map_some]
    congr 2
    rw [eq_iff_iff]
    constructor
    · rintro ⟨p, hp, hl⟩
      obtain ⟨q, hq, rfl⟩ := List.mem_map.1 hp
      exact ⟨q, hq, hl⟩
    · rintro ⟨q, hq, hl⟩
      exact ⟨q.2, List.mem_map.2 ⟨q, hq, rfl⟩, hl⟩
  · rw [List.getElem?_eq_none (by omega), List.getElem?_eq_none (by rw [List.length_map]; omega)]

theorem zip_mem {links : List ℤ} {i : ℕ} {l : ℤ} (h : (i, l) ∈ (List.range links.length).zip links) :
    links[i]? = some l := by
  obtain ⟨j, hj, e⟩ := List.mem_iff_getElem.1 h
  rw [List.getElem_zip, Prod.mk.injEq, List.getElem_range] at e
  obtain ⟨rfl, rfl⟩ := e
  exact List.getElem?_eq_getElem _

theorem mem_zip {links : List ℤ} {l : ℤ} (h : l ∈ links) : ∃ i, (i, l) ∈ (List.range links.length).zip links := by
  obtain ⟨j, hj, rfl⟩ := List.mem_iff_getElem.1 h
  refine ⟨j, List.mem_iff_getElem.2 ⟨j, by simpa using hj, ?_⟩⟩
  simp [List.getElem_zip]

theorem marks_new (links : List ℤ) (paths : List P) (p : P) {i : ℕ} {l : ℤ} (hi : links[i]? = some l) (hl : l ∈ p.2) :
    List.zipWith (fun m l => if m then m else Rec.isLinkIn p.2 l)
      ((links.map fun l => decide (∃ p ∈ paths, l ∈ p.2)).set i true) links =
    links.map fun l => decide (∃ q ∈ paths ++ [p], l ∈ q.2) := by
  refine List.ext_getElem? fun j => ?_
  rw [List.getElem?_zipWith, List.getElem?_map, List.getElem?_set, List.getElem?_map]
  by_cases hij : i = j
  · subst hij
    have hlt : i < links.length := by
      by_contra hn
      rw [List.getElem?_eq_none (by omega)] at hi
      cases hi
    rw [if_pos rfl, List.length_map, if_pos hlt, hi]
    have : ∃ q ∈ paths ++ [p], l ∈ q.2 := ⟨p, by simp, hl⟩
    simp only [Option.map_some, decide_eq_true this, if_true]
  · rw [if_neg hij]
    cases hj : links[j]? with
    | none => simp
    | some m =>
      simp only [Option.map_some, Option.some.injEq]
      by_cases h1 : ∃ q ∈ paths, m ∈ q.2
      · obtain ⟨q, a, b⟩ := h1
        have h2 : ∃ q ∈ paths ++ [p], m ∈ q.2 := ⟨q, by simp [a], b⟩
        have h1 : ∃ q ∈ paths, m ∈ q.2 := ⟨q, a, b⟩
        rw [if_pos (decide_eq_true h1), decide_eq_true h1, decide_eq_true h2]
      · rw [if_neg (by simpa using h1), Rec.isLinkIn]
        congr 1
        rw [eq_iff_iff]
        constructor
        · intro h
          exact ⟨p, by simp, h⟩
        · rintro ⟨q, a, b⟩
          rcases List.mem_append.1 a with a | a
          · exact absurd ⟨q, a, b⟩ h1
          · rw [List.mem_singleton] at a
            exact a ▸ b

/-- The invariant of the first loop. -/
structure InvA (x : Inst) (links : List ℤ) (table : Table) (paths : List P) (done : List (ℕ × ℤ)) (s : St Bool)
    (new : List (ℤ × ℤ × P)) : Prop where
  tableEnd : s.table = added table new
  pathsEnd : s.paths = paths ++ new.map (·.2.2)
  each : ∀ pre q post, new = pre ++ q :: post → HasDemand x q.1 q.2.1 ∧
    ∃ l ∈ links, (∀ p ∈ paths ++ pre.map (·.2.2), l ∉ p.2) ∧ FastestOver x l q.1 q.2.1 q.2.2
  marks : s.marks = links.map fun l => decide (∃ p ∈ s.paths, l ∈ p.2)
  missing : ∀ il ∈ done, (∀ p ∈ s.paths, il.2 ∉ p.2) → ∀ o d ls, HasDemand x o d → Walk x.g o ls d → il.2 ∉ ls

theorem each_snoc {α : Type} {Q : List α → α → Prop} {new : List α} {q : α}
    (h : ∀ pre q post, new = pre ++ q :: post → Q pre q) (hq : Q new q) :
    ∀ pre r post, new ++ [q] = pre ++ r :: post → Q pre r := by
  intro pre r post e
  rcases List.eq_nil_or_concat post with rfl | ⟨post', z, rfl⟩
  · obtain ⟨rfl, e2⟩ := List.append_inj' e rfl
    cases e2
    exact hq
  · have e2 : new ++ [q] = (pre ++ r :: post') ++ [z] := by simpa using e
    obtain ⟨rfl, -⟩ := List.append_inj' e2 rfl
    exact h _ _ _ rfl

theorem coverOne_spec (h : Good x orc ops) {rg : G} (hr : Rev x rg) {links : List ℤ} {table : Table} {paths : List P}
    (ht : ∀ o d, HasDemand x o d → ∃ ps, table o d = some ps)
    (hin : ∀ l ∈ links, (∀ p ∈ paths, l ∉ p.2) → Inner x l) {done : List (ℕ × ℤ)} {i : ℕ} {l : ℤ}
    (hi : links[i]? = some l) {s : St Bool} (hs : ∃ new, InvA x links table paths done s new) {T : String → Prop} :
    Evt (fun n => coverOne n x orc rg links s (i, l)) (fun s => ∃ new, InvA x links table paths (done ++ [(i, l)]) s new) T := by
  obtain ⟨new, hs⟩ := hs
  have hl : l ∈ links := List.mem_of_getElem? hi
  have hm : s.marks.getD i true = decide (∃ p ∈ s.paths, l ∈ p.2) := by
    rw [hs.marks, List.getD_eq_getElem?_getD, List.getElem?_map, hi]
    rfl
  unfold coverOne
  simp only [hm]
  by_cases hc : ∃ p ∈ s.paths, l ∈ p.2
  · simp only [decide_eq_true hc, if_true]
    refine Evt.ok ⟨new, hs.tableEnd, hs.pathsEnd, hs.each, hs.marks, ?_⟩
    intro il hil hn
    rcases List.mem_append.1 hil with hil | hil
    · exact hs.missing il hil hn
    · rw [List.mem_singleton] at hil
      subst hil
      obtain ⟨p, a, b⟩ := hc
      exact absurd b (hn p a)
  · simp only [decide_eq_false hc, Bool.false_eq_true, if_false]
    have hnl : ∀ p ∈ paths ++ new.map (·.2.2), l ∉ p.2 := fun p hp hlp => hc ⟨p, hs.pathsEnd ▸ hp, hlp⟩
    obtain ⟨f, t, e, hf, hd⟩ := hin l hl fun p hp => hnl p (by simp [hp])
    simp only [e, Res.bind_ok']
    refine Evt.bind (g := fun n ab => Res.bind _ _) (trees_spec h hr e hf hd) fun ab hab => ?_
    obtain ⟨a, b, rfl, ha, hb⟩ := hab
    refine Evt.bind (g := fun n r => _) (findPath_spec h hr e hf hd ha hb i 0) fun r hrr => ?_
    cases r with
    | none =>
      refine Evt.ok ⟨new, hs.tableEnd, hs.pathsEnd, hs.each, hs.marks, ?_⟩
      intro il hil hn
      rcases List.mem_append.1 hil with hil | hil
      · exact hs.missing il hil hn
      · rw [List.mem_singleton] at hil
        subst hil
        exact hrr.2 rfl
    | some q =>
      obtain ⟨o, d, p⟩ := q
      obtain ⟨q1, q2⟩ := hrr.1 _ rfl
      obtain ⟨ps, hps⟩ := ht o d q1
      simp only [hs.tableEnd, push_added hps, Res.bind_ok']
      refine Evt.ok ⟨new ++ [(o, d, p)], rfl, ?_, ?_, ?_, ?_⟩
      · simp [hs.pathsEnd]
      · exact each_snoc (Q := fun (pre : List (ℤ × ℤ × P)) (q : ℤ × ℤ × P) => HasDemand x q.1 q.2.1 ∧
          ∃ l ∈ links, (∀ p ∈ paths ++ pre.map (·.2.2), l ∉ p.2) ∧ FastestOver x l q.1 q.2.1 q.2.2) hs.each
          ⟨q1, l, hl, hnl, q2⟩
      · simp only [hs.marks]
        exact marks_new links s.paths p hi q2.over
      · intro il hil hn
        rcases List.mem_append.1 hil with hil | hil
        · exact hs.missing il hil fun p hp => hn p (by simp [hp])
        · rw [List.mem_singleton] at hil
          subst hil
          exact absurd q2.over (hn p (by simp))

theorem coverFold_spec (h : Good x orc ops) {rg : G} (hr : Rev x rg) {links : List ℤ} {table : Table} {paths : List P}
    (ht : ∀ o d, HasDemand x o d → ∃ ps, table o d = some ps)
    (hin : ∀ l ∈ links, (∀ p ∈ paths, l ∉ p.2) → Inner x l) {T : String → Prop} :
    Evt (fun n => Res.foldlM (coverOne n x orc rg links) ⟨table, paths, Rec.covered (paths.map (·.2)) links⟩
      ((List.range links.length).zip links)) (fun s => ∃ new, Covers x links table paths new s) T := by
  have := Evt.fold (T := T) (f := fun n => coverOne n x orc rg links)
    (I := fun done s => ∃ new, InvA x links table paths done s new) ((List.range links.length).zip links) []
    ⟨table, paths, Rec.covered (paths.map (·.2)) links⟩
    (fun p a s b e hI => coverOne_spec h hr ht hin (zip_mem (by rw [List.nil_append] at e; rw [e]; simp)) hI)
    ⟨[], by simp [added_nil], by simp, by simp, covered_eq _ _, by simp⟩
  refine this.imp fun s hs => ?_
  obtain ⟨new, hs⟩ := hs
  refine ⟨new, hs.tableEnd, hs.pathsEnd, hs.each, hs.marks, fun l hl => ?_⟩
  obtain ⟨i, hi⟩ := mem_zip hl
  exact hs.missing (i, l) (by simpa using hi)

/-! ## The second loop -/

theorem zip_map_self {α : Type} (f : ℤ → α) : ∀ links : List ℤ, (links.map f).zip links = links.map fun l => (f l, l)
  | [] => rfl
  | a :: l => by simp [zip_map_self f l]

theorem counts_new (links : List ℤ) (new : List (ℤ × ℤ × P)) (q : ℤ × ℤ × P) {i : ℕ} {l : ℤ} (hi : links[i]? = some l)
    (hl : l ∈ q.2.2.2) :
    ((links.map fun l => new.countP fun q => decide (l ∈ q.2.2.2)).zip links).mapIdx
      (fun j (ml : ℕ × ℤ) => if j = i ∨ Rec.isLinkIn q.2.2.2 ml.2 = true then ml.1 + 1 else ml.1) =
    links.map fun l => (new ++ [q]).countP fun q => decide (l ∈ q.2.2.2) := by
  rw [zip_map_self]
  refine List.ext_getElem? fun j => ?_
  rw [List.getElem?_mapIdx, List.getElem?_map, List.getElem?_map]
  cases hj : links[j]? with
  | none => rfl
  | some m =>
    simp only [Option.map_some, Option.some.injEq, List.countP_append, List.countP_singleton]
    by_cases hm : m ∈ q.2.2.2
    · rw [if_pos (Or.inr (by simpa [Rec.isLinkIn] using hm)), decide_eq_true hm]
      rfl
    · have : j ≠ i := by
        rintro rfl
        rw [hi] at hj
        cases hj
        exact hm hl
      rw [if_neg (by simp [this, Rec.isLinkIn, hm]), decide_eq_false hm]
      rfl

/-- The invariant of the second loop: `n` searches were done. -/
structure InvB (x : Inst) (links : List ℤ) (table : Table) (paths : List P) (n : ℕ) (D : ℤ → Prop) (s : St ℕ)
    (new : List (ℤ × ℤ × P)) : Prop where
  tableEnd : s.table = added table new
  pathsEnd : s.paths = paths ++ new.map (·.2.2)
  each : ∀ pre q post, new = pre ++ q :: post → HasDemand x q.1 q.2.1 ∧
    (∃ l ∈ links, FastestOver x l q.1 q.2.1 q.2.2) ∧
    ∀ ps, added table pre q.1 q.2.1 = some ps → ∀ r ∈ ps, r.2 ≠ q.2.2.2
  few : new.length ≤ n
  marks : s.marks = links.map fun l => new.countP fun q => decide (l ∈ q.2.2.2)
  missing : ∀ l, D l → (∀ q ∈ new, l ∉ q.2.2.2) → (∀ o d ls, HasDemand x o d → Walk x.g o ls d → l ∉ ls) ∨
    ∃ o d ps, HasDemand x o d ∧ table o d = some ps ∧ ∃ p ∈ ps, l ∈ p.2

theorem coverAgain_spec (h : Good x orc ops) {rg : G} (hr : Rev x rg) {links : List ℤ} {table : Table} {paths : List P}
    (ht : ∀ o d, HasDemand x o d → ∃ ps, table o d = some ps) {i : ℕ} {l f t : ℤ} (hi : links[i]? = some l)
    (e : getEndpoints x.g l = .ok (f, t)) (hf : x.isOrigin f = false) (hd : x.isDest t = false)
    {a b : ℤ → Option ℤ} (ha : Ways x x.g f a) (hb : Ways x rg t b) {m k : ℕ} {D : ℤ → Prop} {s : St ℕ}
    (hs : ∃ new, InvB x links table paths m D s new) {T : String → Prop} :
    Evt (fun n => coverAgain n x orc rg links i l (f, t) (some a, some b) s k)
      (fun s => ∃ new, InvB x links table paths (m + 1) (fun r => D r ∨ r = l) s new) T := by
  obtain ⟨new, hs⟩ := hs
  unfold coverAgain
  refine Evt.bind (g := fun n r => _) (findPath_spec h hr e hf hd ha hb i k) fun r hrr => ?_
  have hl : l ∈ links := List.mem_of_getElem? hi
  cases r with
  | none =>
    refine Evt.ok ⟨new, hs.tableEnd, hs.pathsEnd, hs.each, by have := hs.few; omega, hs.marks, ?_⟩
    rintro r (hD | rfl) hn
    · exact hs.missing r hD hn
    · exact Or.inl (hrr.2 rfl)
  | some q =>
    obtain ⟨o, d, p⟩ := q
    obtain ⟨q1, q2⟩ := hrr.1 _ rfl
    obtain ⟨ps, hps⟩ := ht o d q1
    have hadd : s.table o d = some (ps ++ (new.filter fun q => decide (q.1 = o ∧ q.2.1 = d)).map fun q => q.2.2) := by
      rw [hs.tableEnd]
      simp [added, hps]
    simp only [hadd]
    by_cases hI : isIn (ps ++ (new.filter fun q => decide (q.1 = o ∧ q.2.1 = d)).map fun q => q.2.2) p = true
    · simp only [hI, if_true]
      refine Evt.ok ⟨new, hs.tableEnd, hs.pathsEnd, hs.each, by have := hs.few; omega, hs.marks, ?_⟩
      rintro r (hD | rfl) hn
      · exact hs.missing r hD hn
      · right
        simp only [isIn, List.any_eq_true, decide_eq_true_eq] at hI
        obtain ⟨z, hz, hz2⟩ := hI
        rcases List.mem_append.1 hz with hz | hz
        · exact ⟨o, d, ps, q1, hps, z, hz, hz2 ▸ q2.over⟩
        · obtain ⟨y, hy, rfl⟩ := List.mem_map.1 hz
          exact absurd (hz2 ▸ q2.over) (hn y (List.mem_filter.1 hy).1)
    · simp only [if_neg hI]
      rw [hs.tableEnd]
      simp only [push_added hps, Res.bind_ok']
      refine Evt.ok ⟨new ++ [(o, d, p)], rfl, ?_, ?_, ?_, ?_, ?_⟩
      · simp [hs.pathsEnd]
      · refine each_snoc (Q := fun (pre : List (ℤ × ℤ × P)) (q : ℤ × ℤ × P) => HasDemand x q.1 q.2.1 ∧
          (∃ l ∈ links, FastestOver x l q.1 q.2.1 q.2.2) ∧
          ∀ ps, added table pre q.1 q.2.1 = some ps → ∀ r ∈ ps, r.2 ≠ q.2.2.2) hs.each ⟨q1, ⟨l, hl, q2⟩, ?_⟩
        intro ps' hps' r hr' heq
        rw [hs.tableEnd] at hadd
        rw [hadd] at hps'
        cases hps'
        exact hI (List.any_eq_true.2 ⟨r, hr', decide_eq_true heq⟩)
      · have := hs.few
        simp only [List.length_append, List.length_singleton]
        omega
      · simp only [hs.marks]
        exact counts_new links new (o, d, p) hi q2.over
      · rintro r (hD | rfl) hn
        · exact hs.missing r hD fun q hq => hn q (by simp [hq])
        · exact absurd q2.over (hn (o, d, p) (by simp))

theorem coverMany_spec (h : Good x orc ops) {rg : G} (hr : Rev x rg) {registered links : List ℤ} {table : Table}
    {paths : List P} (ht : ∀ o d, HasDemand x o d → ∃ ps, table o d = some ps) {i : ℕ} {l : ℤ}
    (hi : links[i]? = some l) (hri : registered[i]? = some l) (hin : Inner x l) {maxIter m : ℕ} {D : ℤ → Prop} {s : St ℕ}
    (hs : ∃ new, InvB x links table paths m D s new) {T : String → Prop} :
    Evt (fun n => coverMany n x orc rg registered links maxIter s (i, l))
      (fun s => ∃ new, InvB x links table paths (m + maxIter) (fun r => D r ∨ (r = l ∧ 0 < maxIter)) s new) T := by
  obtain ⟨f, t, e, hf, hd⟩ := hin
  unfold coverMany
  simp only [hri, e, Res.bind_ok']
  refine Evt.bind (g := fun n ab => _) (trees_spec h hr e hf hd) fun ab hab => ?_
  obtain ⟨a, b, rfl, ha, hb⟩ := hab
  have := Evt.fold (T := T) (f := fun n => coverAgain n x orc rg links i l (f, t) (some a, some b))
    (I := fun done s => ∃ new, InvB x links table paths (m + done.length) (fun r => D r ∨ (r = l ∧ 0 < done.length)) s new)
    (List.range maxIter) [] s
    (fun p k q b' _ hI => (coverAgain_spec h hr ht hi e hf hd ha hb hI).imp fun s' hs' => by
      obtain ⟨new, hs'⟩ := hs'
      refine ⟨new, hs'.tableEnd, hs'.pathsEnd, hs'.each, ?_, hs'.marks, fun r hD => hs'.missing r ?_⟩
      · have := hs'.few
        simp only [List.length_append, List.length_singleton]
        omega
      · rcases hD with hD | ⟨rfl, -⟩
        · exact Or.inl (Or.inl hD)
        · exact Or.inr rfl)
    (by
      obtain ⟨new, hs⟩ := hs
      exact ⟨new, hs.tableEnd, hs.pathsEnd, hs.each, hs.few, hs.marks, fun r hD => hs.missing r (by simpa using hD)⟩)
  simpa using this

theorem coverLinks_spec (h : Good x orc ops) {registered links : List ℤ} {table : Table}
    {paths : List P} (ht : ∀ o d, HasDemand x o d → ∃ ps, table o d = some ps)
    (hpre : links <+: registered) (hin : ∀ l ∈ links, Inner x l) (maxIter : ℕ) {T : String → Prop} :
    Evt (fun n => coverLinks n x orc registered links maxIter table paths)
      (fun s => ∃ new, CoversAgain x links maxIter table paths new s) T := by
  obtain ⟨rg, e, hr⟩ := h.rev
  unfold coverLinks
  simp only [e, Res.bind_ok']
  have := Evt.fold (T := T) (f := fun n => coverMany n x orc rg registered links maxIter)
    (I := fun done s => ∃ new, InvB x links table paths (maxIter * done.length)
      (fun r => (∃ il ∈ done, il.2 = r) ∧ 0 < maxIter) s new) ((List.range links.length).zip links) []
    ⟨table, paths, links.map fun _ => 0⟩
    (fun p a s b e hI => by
      have hz : links[a.1]? = some a.2 := zip_mem (by rw [List.nil_append] at e; rw [e]; simp)
      refine (coverMany_spec (registered := registered) (maxIter := maxIter) h hr ht hz ?_
        (hin _ (List.mem_of_getElem? hz)) hI).imp fun s' hs' => ?_
      · obtain ⟨more, rfl⟩ := hpre
        rw [List.getElem?_append_left, hz]
        by_contra hn
        rw [List.getElem?_eq_none (by omega)] at hz
        cases hz
      · obtain ⟨new, hs'⟩ := hs'
        refine ⟨new, hs'.tableEnd, hs'.pathsEnd, hs'.each, ?_, hs'.marks, fun r hD => hs'.missing r ?_⟩
        · have := hs'.few
          rw [List.length_append, List.length_singleton, Nat.mul_add, Nat.mul_one]
          exact this
        · obtain ⟨⟨il, hil, rfl⟩, hm⟩ := hD
          rcases List.mem_append.1 hil with hil | hil
          · exact Or.inl ⟨⟨il, hil, rfl⟩, hm⟩
          · rw [List.mem_singleton] at hil
            exact Or.inr ⟨by rw [hil], hm⟩)
    ⟨[], by simp [added_nil], by simp, by simp, by simp, by simp, by simp⟩
  refine this.imp fun s hs => ?_
  obtain ⟨new, hs⟩ := hs
  refine ⟨new, hs.tableEnd, hs.pathsEnd, hs.each, ?_, hs.marks, fun hm l hl => ?_⟩
  · simpa using hs.few
  · obtain ⟨i, hi⟩ := mem_zip hl
    exact hs.missing l ⟨⟨(i, l), by simpa using hi, rfl⟩, hm⟩

/-! ## Links that leave origin nodes -/

theorem trees_origin (h : Good x orc ops) {rg : G} (hr : Rev x rg) {l f t : ℤ}
    (e : getEndpoints x.g l = .ok (f, t)) (ho : x.isOrigin f = true) :
    ∃ N, ∀ fuel, N ≤ fuel → ∃ b, trees fuel x rg f t = .ok (none, b) := by
  have hctx := (h.graph ▸ ctx_of_run ops (h.graph ▸ h.costs) : Ctx x.g (cost x) (w x))
  obtain ⟨-, nt, -⟩ := hctx.ends _ _ _ e
  obtain ⟨ops', hops⟩ := hr.run
  cases hd : x.isDest t with
  | true =>
    refine ⟨0, fun fuel _ => ⟨none, ?_⟩⟩
    simp [trees, ho, hd]
  | false =>
    rcases ways (T := fun _ => False) hops hr.costs ((hr.nodes t).2 nt) with ⟨s, -, N, hN⟩ | ⟨_, hF, -⟩
    · refine ⟨N, fun fuel hf => ⟨some s.out, ?_⟩⟩
      have : fifo fuel rg t (cost x) (fun _ => none) = .ok s := hN fuel hf
      simp [trees, ho, hd, this]
    · exact hF.elim

theorem pick_none {dests : ℤ → List ℤ → List ℤ} (hds : ∀ o l, (dests o l).Perm l) {b : Option (ℤ → Option ℤ)} :
    ∀ (os : List (ℤ × List ℤ)), (∃ p ∈ os, p.2 ≠ []) → pick dests none b os = .ub
  | [], h => by simp at h
  | o :: os, h => by
    simp only [pick]
    by_cases ho : o.2 = []
    · rw [if_pos ho]
      refine pick_none hds os ?_
      obtain ⟨p, hp, hne⟩ := h
      rcases List.mem_cons.1 hp with rfl | hp
      · exact absurd ho hne
      · exact ⟨p, hp, hne⟩
    · rw [if_neg ho]
      cases hd : dests o.1 o.2 with
      | nil => exact absurd (List.Perm.nil_eq (hd ▸ hds o.1 o.2)).symm ho
      | cons d ds => rfl

theorem pick_origin (h : Good x orc ops) (hdem : ∃ o d, HasDemand x o d) (i : ℕ) (b : Option (ℤ → Option ℤ)) :
    pick (orc.dests i 0) none b (orc.origins i 0 x.origins) = .ub := by
  obtain ⟨o, d, p, hp, -, hd⟩ := hdem
  exact pick_none (h.shuffleD i 0) _ ⟨p, (h.shuffleO i 0 _).mem_iff.2 hp, List.ne_nil_of_mem hd⟩

theorem fold_covered {fuel : ℕ} {rg : G} {links : List ℤ} {s : St Bool} : ∀ (as : List (ℕ × ℤ)),
    (∀ a ∈ as, s.marks.getD a.1 true = true) → Res.foldlM (coverOne fuel x orc rg links) s as = .ok s
  | [], _ => rfl
  | a :: as, h => by
    rw [Res.foldlM_cons]
    have : coverOne fuel x orc rg links s a = .ok s := by
      unfold coverOne
      rw [if_pos (h a (by simp))]
    rw [this]
    exact fold_covered as fun a ha => h a (by simp [ha])

theorem zip_split (pre : List ℤ) (l : ℤ) (post : List ℤ) :
    ∃ rest, (List.range (pre ++ l :: post).length).zip (pre ++ l :: post) =
      (List.range pre.length).zip pre ++ (pre.length, l) :: rest := by
  refine ⟨(((List.range (pre ++ l :: post).length).zip (pre ++ l :: post)).drop (pre.length + 1)), ?_⟩
  refine List.ext_getElem? fun j => ?_
  rcases lt_trichotomy j pre.length with hj | hj | hj
  · rw [List.getElem?_append_left (by simpa using hj)]
    simp only [List.zip, List.getElem?_zipWith, List.getElem?_append_left hj]
    rw [List.getElem?_range (by simp; omega), List.getElem?_range hj]
  · subst hj
    rw [List.getElem?_append_right (by simp)]
    simp [List.zip, List.getElem?_zipWith]
  · rw [List.getElem?_append_right (by simp; omega)]
    obtain ⟨k, rfl⟩ : ∃ k, j = pre.length + 1 + k := ⟨j - (pre.length + 1), by omega⟩
    simp only [List.length_zip, List.length_range, min_self]
    rw [show pre.length + 1 + k - pre.length = k + 1 by omega, List.getElem?_cons_succ, List.getElem?_drop]

theorem fold_first {fuel : ℕ} {rg : G} {pre post : List ℤ} {l f t : ℤ} {table : Table} {paths : List P}
    (hpre : ∀ l ∈ pre, ∃ p ∈ paths, l ∈ p.2) (hl : ∀ p ∈ paths, l ∉ p.2)
    (e : getEndpoints x.g l = .ok (f, t)) {b : Option (ℤ → Option ℤ)} (hb : trees fuel x rg f t = .ok (none, b))
    (hp : pick (orc.dests pre.length 0) none b (orc.origins pre.length 0 x.origins) = .ub) :
    Res.foldlM (coverOne fuel x orc rg (pre ++ l :: post))
      ⟨table, paths, Rec.covered (paths.map (·.2)) (pre ++ l :: post)⟩
      ((List.range (pre ++ l :: post).length).zip (pre ++ l :: post)) = .ub := by
  obtain ⟨rest, hz⟩ := zip_split pre l post
  rw [hz, Res.foldlM_append, fold_covered]
  · rw [Res.ok_bind, Res.foldlM_cons]
    have : coverOne fuel x orc rg (pre ++ l :: post)
        ⟨table, paths, Rec.covered (paths.map (·.2)) (pre ++ l :: post)⟩ (pre.length, l) = .ub := by
      unfold coverOne
      rw [if_neg]
      · simp only [e, Res.bind_ok', hb, findPath, hp]
        rfl
      · rw [covered_eq, List.getD_eq_getElem?_getD, List.getElem?_map]
        simpa using fun p q hp hl' => hl _ hp hl'
    rw [this]
    rfl
  · intro a ha
    have hz' := zip_mem (links := pre) (i := a.1) (l := a.2) ha
    rw [covered_eq, List.getD_eq_getElem?_getD, List.getElem?_map, List.getElem?_append_left, hz']
    · exact decide_eq_true (hpre _ (List.mem_of_getElem? hz'))
    · by_contra hn
      rw [List.getElem?_eq_none (by omega)] at hz'
      cases hz'

theorem ok_of_isOk {α : Type} {r : Res α} {d : α} (h : r.isOk = true) : r = .ok (r.stateOr d) := by
  cases r <;> first | rfl | cases h

end Verif.Cover

import Verif.Lemmas.SpExtra
import Verif.Lemmas.Path
import Verif.Spec.Path

/-! # Lemmas about path-set generation -/

namespace Verif.Path
open Graph Sp

/-- With enough fuel the computation has one result, which is a value with `A` or an exception with
`T`. -/
def Evt {α : Type} (f : ℕ → Res α) (A : α → Prop) (T : String → Prop) : Prop :=
  (∃ a, A a ∧ ∃ N, ∀ n, N ≤ n → f n = .ok a) ∨ (∃ m, T m ∧ ∃ N, ∀ n, N ≤ n → f n = .throw m)

variable {α β : Type} {T : String → Prop}

theorem Evt.ok {a : α} {A : α → Prop} (h : A a) : Evt (fun _ => .ok a) A T :=
  Or.inl ⟨a, h, 0, fun _ _ => rfl⟩

theorem Evt.throw {m : String} {A : α → Prop} (h : T m) : Evt (fun _ => .throw m) A T :=
  Or.inr ⟨m, h, 0, fun _ _ => rfl⟩

theorem Evt.imp {f : ℕ → Res α} {A B : α → Prop} (h : Evt f A T) (hi : ∀ a, A a → B a) : Evt f B T := by
  rcases h with ⟨a, h1, h2⟩ | h
  · exact Or.inl ⟨a, hi a h1, h2⟩
  · exact Or.inr h

theorem Evt.bind {f : ℕ → Res α} {g : ℕ → α → Res β} {A : α → Prop} {B : β → Prop}
    (h : Evt f A T) (hg : ∀ a, A a → Evt (fun n => g n a) B T) :
    Evt (fun n => (f n).bind (g n)) B T := by
  rcases h with ⟨a, h1, N, h2⟩ | ⟨m, h1, N, h2⟩
  · rcases hg a h1 with ⟨b, h3, M, h4⟩ | ⟨m, h3, M, h4⟩
    · refine Or.inl ⟨b, h3, max N M, fun n hn => ?_⟩
      show (f n).bind (g n) = _
      rw [h2 n (by omega), Res.bind_ok']
      exact h4 n (by omega)
    · refine Or.inr ⟨m, h3, max N M, fun n hn => ?_⟩
      show (f n).bind (g n) = _
      rw [h2 n (by omega), Res.bind_ok']
      exact h4 n (by omega)
  · refine Or.inr ⟨m, h1, N, fun n hn => ?_⟩
    show (f n).bind (g n) = _
    rw [h2 n hn, Res.bind_throw']

/-- Loop rule; the invariant may speak of the elements done. -/
theorem Evt.fold {f : ℕ → β → α → Res β} {I : List α → β → Prop} : ∀ (as pre : List α) (b : β),
    (∀ p a s b, pre ++ as = p ++ a :: s → I p b → Evt (fun n => f n b a) (I (p ++ [a])) T) → I pre b →
    Evt (fun n => Res.foldlM (f n) b as) (I (pre ++ as)) T
  | [], pre, b, _, hb => by
    rw [List.append_nil]
    exact Evt.ok hb
  | a :: as, pre, b, h, hb => by
    refine Evt.bind (g := fun n b' => Res.foldlM (f n) b' as) (h pre a as b rfl hb) fun b' hb' => ?_
    have := Evt.fold (f := f) (I := I) as (pre ++ [a]) b' (fun p x s c e => h p x s c (by rw [← e]; simp)) hb'
    simpa using this

/-! ## Trees and paths -/

variable {g : G}

/-- The tree `out` towards `dest` yields, for every node of the graph, a least-cost walk or none. -/
def TreeOk (g : G) (w : ℤ → Cost) (dest : ℤ) (out : ℤ → Option ℤ) : Prop :=
  ∀ v ∈ nodeIds g,
    (∃ ls, Walk g v ls dest ∧ Least g w v dest (walkCost w ls) ∧
      ∃ N, ∀ n, N ≤ n → extractPath g dest out n v = .ok (some (walkNodes g v ls, ls))) ∨
    ((∀ ls, Walk g v ls dest → walkCost w ls = ⊤) ∧ ∃ N, ∀ n, N ≤ n → extractPath g dest out n v = .ok none)

theorem fifo_tree {cost : ℤ → Option Cost} {w : ℤ → Cost} (hc : Ctx g cost w) {dest : ℤ}
    (hd : dest ∈ nodeIds g) (out : ℤ → Option ℤ) :
    Evt (fun n => fifo n g dest cost out) (fun s => TreeOk g w dest s.out) T := by
  obtain ⟨n0, s, p, h1, h2, h3⟩ := fifo_spec hc hd out
  refine Or.inl ⟨s, ?_, n0, h1⟩
  intro v hv
  have hL := h3.least v
  by_cases htop : lab s.dist v = ⊤
  · refine Or.inr ⟨fun ls hw => top_le_iff.1 (htop ▸ hL.1 ls hw), 1, fun n hn => ?_⟩
    obtain ⟨n, rfl⟩ := Nat.exists_eq_add_of_le' hn
    refine extract_none h3 htop (Or.inr ?_) n
    have hvd : v ≠ dest := by
      rintro rfl
      rw [h3.dest0] at htop
      cases htop
    simp [labInit, hvd, hv]
  · obtain ⟨ls, a, b, c⟩ := extract_reach hc h3 (h3.reach v htop) htop
    refine Or.inl ⟨ls, b, c ▸ hL, ls.length + 1, fun n hn => ?_⟩
    obtain ⟨n, rfl⟩ := Nat.exists_eq_add_of_le hn
    exact a n

theorem walkCost_ne_top {g : G} {w : ℤ → Cost} (hw : ∀ l f t, getEndpoints g l = .ok (f, t) → w l ≠ ⊤) :
    ∀ (ls : List ℤ) (u v : ℤ), Walk g u ls v → walkCost w ls ≠ ⊤
  | [], _, _, _ => by simp [walkCost]
  | l :: ls, u, v, ⟨t, he, h⟩ => by
    have := walkCost_ne_top hw ls t v h
    simp only [walkCost, List.map_cons, List.sum_cons] at this ⊢
    exact WithTop.add_ne_top.2 ⟨hw l u t he, this⟩

/-! ## The table -/

variable {x : Inst}

theorem initTable_eq (hn : (x.origins.map (·.1)).Nodup) (o d : ℤ) [Decidable (HasDemand x o d)] :
    initTable x o d = if HasDemand x o d then some [] else none := by
  unfold initTable
  cases hf : x.origins.find? fun p => decide (p.1 = o) with
  | none =>
    rw [List.find?_eq_none] at hf
    rw [if_neg]
    rintro ⟨p, hp, he, _⟩
    exact hf p hp (by simpa using he)
  | some p =>
    have h1 := List.find?_some hf
    have h2 := List.mem_of_find?_eq_some hf
    simp only [decide_eq_true_eq] at h1
    simp only
    congr 1
    simp only [List.any_eq_true, Bool.and_eq_true, decide_eq_true_eq, eq_iff_iff]
    constructor
    · rintro ⟨e, a, b, c⟩
      exact ⟨p, h2, h1, e, a, b, c⟩
    · rintro ⟨q, a, b, e, c, d, f⟩
      have : q = p := List.inj_on_of_nodup_map hn a h2 (b.trans h1.symm)
      subst this
      exact ⟨e, c, d, f⟩

/-- The sets present are those of the pairs with demand, and each is good. -/
structure TOk (x : Inst) (t : Table) : Prop where
  dom : ∀ o d, (t o d).isSome = true ↔ HasDemand x o d
  set : ∀ o d ps, t o d = some ps → GoodSet x o d ps

/-- Sets only grow, at the end. -/
def Grown (t t' : Table) : Prop := ∀ o d ps, t o d = some ps → ∃ qs, t' o d = some (ps ++ qs)

theorem Grown.refl (t : Table) : Grown t t := fun _ _ ps h => ⟨[], by simpa using h⟩

theorem Grown.trans {t t' t'' : Table} (h : Grown t t') (h' : Grown t' t'') : Grown t t'' := by
  intro o d ps e
  obtain ⟨qs, e⟩ := h o d ps e
  obtain ⟨rs, e⟩ := h' o d _ e
  exact ⟨qs ++ rs, by rw [e, List.append_assoc]⟩

theorem push_ok (ht : TOk x t) {o d : ℤ} {ls : List ℤ} {ps : List P} (hp : t o d = some ps)
    (hw : Walk x.g o ls d) (hl : x.minLen < (ls.map x.len).sum) (hn : ls ∉ ps.map (·.2)) :
    ∃ t', push t o d (walkNodes x.g o ls, ls) = .ok t' ∧ TOk x t' ∧
      t' o d = some (ps ++ [(walkNodes x.g o ls, ls)]) ∧
      ∀ o' d', ¬ (o' = o ∧ d' = d) → t' o' d' = t o' d' := by
  refine ⟨upd t o (upd (t o) d (some (ps ++ [(walkNodes x.g o ls, ls)]))), ?_, ?_, ?_, ?_⟩
  · simp only [push, hp]
  · have key : ∀ o' d', upd t o (upd (t o) d (some (ps ++ [(walkNodes x.g o ls, ls)]))) o' d' =
        if o' = o ∧ d' = d then some (ps ++ [(walkNodes x.g o ls, ls)]) else t o' d' := by
      intro o' d'
      by_cases h1 : o' = o
      · subst h1
        by_cases h2 : d' = d <;> simp [upd, h2]
      · simp [upd, h1]
    refine ⟨?_, ?_⟩
    · intro o' d'
      rw [key]
      by_cases h : o' = o ∧ d' = d
      · rw [if_pos h, ← ht.dom o' d', h.1, h.2, hp]
        simp
      · rw [if_neg h, ht.dom]
    · intro o' d' qs e
      rw [key] at e
      by_cases h : o' = o ∧ d' = d
      · rw [if_pos h] at e
        cases e
        obtain ⟨rfl, rfl⟩ := h
        obtain ⟨a, b⟩ := ht.set _ _ _ hp
        refine ⟨?_, ?_⟩
        · rw [List.map_append, List.map_singleton]
          exact List.Nodup.append a (by simp) (by simpa using hn)
        · intro p hp'
          rcases List.mem_append.1 hp' with h | h
          · exact b p h
          · rw [List.mem_singleton.1 h]
            exact ⟨hw, rfl, hl⟩
      · rw [if_neg h] at e
        exact ht.set _ _ _ e
  · simp
  · intro o' d' h
    by_cases h1 : o' = o
    · subst h1
      have h2 : d' ≠ d := fun e => h ⟨rfl, e⟩
      simp [upd, h2]
    · simp [upd, h1]

theorem storeNew_ok (ht : TOk x t) {o d : ℤ} (hdem : HasDemand x o d) {r : Option P}
    (hr : ∀ p, r = some p → Walk x.g o p.2 d ∧ p.1 = walkNodes x.g o p.2) :
    ∃ t', storeNew x t o d r = .ok t' ∧ TOk x t' ∧ Grown t t' := by
  obtain ⟨ps, hps⟩ := Option.isSome_iff_exists.1 ((ht.dom o d).2 hdem)
  cases r with
  | none => exact ⟨t, rfl, ht, Grown.refl t⟩
  | some p =>
    obtain ⟨nodes, ls⟩ := p
    obtain ⟨h1, h2⟩ := hr _ rfl
    simp only at h1 h2
    subst h2
    simp only [storeNew, hps]
    by_cases hin : isIn ps (walkNodes x.g o ls, ls) = true
    · rw [if_pos hin]
      exact ⟨t, rfl, ht, Grown.refl t⟩
    · rw [if_neg hin]
      by_cases hl : pathLen x (walkNodes x.g o ls, ls) > x.minLen
      · rw [if_pos hl]
        obtain ⟨t', a, b, c, e⟩ := push_ok ht hps h1 hl (by
          intro hm
          apply hin
          simp only [List.mem_map] at hm
          obtain ⟨q, hq, he⟩ := hm
          simp only [isIn, List.any_eq_true, decide_eq_true_eq]
          exact ⟨q, hq, he⟩)
        refine ⟨t', a, b, ?_⟩
        intro o' d' qs hq
        by_cases h : o' = o ∧ d' = d
        · obtain ⟨rfl, rfl⟩ := h
          rw [hps] at hq
          cases hq
          exact ⟨_, c⟩
        · exact ⟨[], by rw [e o' d' h, hq]; simp⟩
      · rw [if_neg hl]
        exact ⟨t, rfl, ht, Grown.refl t⟩

/-- What the exception means. -/
def NoPath (x : Inst) (m : String) : Prop :=
  m = "no path between origin and destination" ∧ ∃ o d, HasDemand x o d ∧ ∀ ls, ¬ Walk x.g o ls d

/-- After the first phase. -/
def First (x : Inst) (o d : ℤ) (r : Option (List P)) : Prop :=
  ∃ ls, Walk x.g o ls d ∧ Least x.g (freeW x) o d (walkCost (freeW x) ls) ∧
    r = some (if x.minLen < (ls.map x.len).sum then [(walkNodes x.g o ls, ls)] else [])

/-- Invariant of the first phase: `D` the pairs done. -/
structure Ph1 (x : Inst) (D : ℤ → ℤ → Prop) (t : Table) : Prop where
  ok : TOk x t
  rest : ∀ o d ps, t o d = some ps → ¬ D o d → ps = []
  done : ∀ o d, HasDemand x o d → D o d → First x o d (t o d)

theorem Ph1.congr {D D' : ℤ → ℤ → Prop} {t : Table} (h : Ph1 x D t)
    (he : ∀ o d, HasDemand x o d → (D o d ↔ D' o d)) : Ph1 x D' t := by
  refine ⟨h.ok, ?_, ?_⟩
  · intro o d ps e hn
    exact h.rest o d ps e fun hd => hn ((he o d ((h.ok.dom o d).1 (by simp [e]))).1 hd)
  · intro o d hd hD
    exact h.done o d hd ((he o d hd).2 hD)

theorem hasDemand_iff (hx : GoodInst x) {o : ℤ × (ℕ → Bool)} (ho : o ∈ x.origins) {d : ℕ × ℤ}
    (hd : d ∈ x.dests) : HasDemand x o.1 d.2 ↔ o.2 d.1 = true := by
  constructor
  · rintro ⟨p, a, b, e, c, f, h⟩
    have h1 : p = o := List.inj_on_of_nodup_map hx.origins.1 a ho b
    have h2 : e = d := List.inj_on_of_nodup_map hx.dests.1 c hd f
    rw [← h1, ← h2]; exact h
  · intro h
    exact ⟨o, ho, rfl, d, hd, rfl, h⟩

theorem firstPath_ok (hx : GoodInst x) {o : ℤ × (ℕ → Bool)} (ho : o ∈ x.origins) {d : ℕ × ℤ}
    (hd : d ∈ x.dests) {out : ℤ → Option ℤ} (htree : TreeOk x.g (freeW x) d.2 out)
    {D : ℤ → ℤ → Prop} {t : Table} (h : Ph1 x D t) (hD : ¬ D o.1 d.2) :
    Evt (fun n => firstPath n x d out t o) (Ph1 x fun o' d' => D o' d' ∨ (o' = o.1 ∧ d' = d.2)) (NoPath x) := by
  by_cases hdem : o.2 d.1 = true
  · have hdem' := (hasDemand_iff hx ho hd).2 hdem
    simp only [firstPath, hdem, Bool.not_true, Bool.false_eq_true, if_false]
    rcases htree o.1 (hx.origins.2 o ho) with ⟨ls, hw, hL, N, hN⟩ | ⟨htop, N, hN⟩
    · refine Evt.bind (A := fun r => r = some (walkNodes x.g o.1 ls, ls)) (Or.inl ⟨_, rfl, N, hN⟩) ?_
      rintro r rfl
      simp only
      obtain ⟨ps, hps⟩ := Option.isSome_iff_exists.1 ((h.ok.dom _ _).2 hdem')
      have hnil := h.rest _ _ _ hps hD
      subst hnil
      by_cases hl : pathLen x (walkNodes x.g o.1 ls, ls) > x.minLen
      · rw [if_pos hl]
        obtain ⟨t', a, b, c, e⟩ := push_ok h.ok hps hw hl (by simp)
        rw [a]
        refine Evt.ok ⟨b, ?_, ?_⟩
        · intro o' d' qs hq hn
          rw [not_or] at hn
          rw [e o' d' hn.2] at hq
          exact h.rest _ _ _ hq hn.1
        · intro o' d' hd' hor
          by_cases heq : o' = o.1 ∧ d' = d.2
          · obtain ⟨rfl, rfl⟩ := heq
            refine ⟨ls, hw, hL, ?_⟩
            rw [c, if_pos (show x.minLen < (ls.map x.len).sum from hl)]
            rfl
          · rw [e o' d' heq]
            exact h.done _ _ hd' (hor.resolve_right heq)
      · rw [if_neg hl]
        refine Evt.ok ⟨h.ok, ?_, ?_⟩
        · intro o' d' qs hq hn
          rw [not_or] at hn
          exact h.rest _ _ _ hq hn.1
        · intro o' d' hd' hor
          by_cases heq : o' = o.1 ∧ d' = d.2
          · obtain ⟨rfl, rfl⟩ := heq
            refine ⟨ls, hw, hL, ?_⟩
            rw [hps, if_neg (show ¬ x.minLen < (ls.map x.len).sum from hl)]
          · exact h.done _ _ hd' (hor.resolve_right heq)
    · refine Evt.bind (A := fun r => r = none) (Or.inl ⟨_, rfl, N, hN⟩) ?_
      rintro r rfl
      refine Evt.throw ⟨rfl, _, _, hdem', fun ls hw => ?_⟩
      exact walkCost_ne_top (w := freeW x) (fun l f t _ => WithTop.coe_ne_top) ls _ _ hw (htop ls hw)
  · simp only [firstPath, hdem, Bool.not_false, if_true]
    refine Evt.ok (h.congr ?_)
    intro o' d' hd'
    refine ⟨Or.inl, fun hor => hor.resolve_right ?_⟩
    rintro ⟨rfl, rfl⟩
    exact hdem ((hasDemand_iff hx ho hd).1 hd')

/-- The graph has well-formed links, and costs `w` that are not negative. -/
theorem ctx_free (ops : List Op) (hg : x.g = run empty ops) (hx : GoodInst x) :
    Ctx x.g (freeCost x) (freeW x) := by
  rw [hg]
  refine ctx_of_run ops ⟨?_, ?_, ?_⟩
  · intro l hl
    simp [freeCost, hg, hl, freeW]
  · intro l hl
    exact WithTop.coe_nonneg.2 (hx.free l (hg ▸ hl))
  · exact hg ▸ hx.noLink

/-- Scaled cost of a link. -/
def scaledW (x : Inst) (k : ℚ) (used : ℤ → Bool) (l : ℤ) : Cost :=
  if used l then ((x.vot * x.tt l * k + x.toll l : ℚ) : Cost) else freeW x l

theorem ctx_scaled (ops : List Op) (hg : x.g = run empty ops) (hx : GoodInst x) (k : ℚ) (used : ℤ → Bool)
    (hk : ∀ l ∈ linkIds x.g, 0 ≤ x.vot * x.tt l * k + x.toll l) :
    Ctx x.g (scaledCost x k used) (scaledW x k used) := by
  rw [hg]
  refine ctx_of_run ops ⟨?_, ?_, ?_⟩
  · intro l hl
    cases hu : used l <;> simp [scaledCost, freeCost, hg, hl, freeW, scaledW, hu]
  · intro l hl
    have h1 := hx.free l (hg ▸ hl)
    have h2 := hk l (hg ▸ hl)
    cases hu : used l
    · simp only [scaledW, hu, freeW, Bool.false_eq_true, if_false]
      exact WithTop.coe_nonneg.2 h1
    · simp only [scaledW, hu, if_true]
      exact WithTop.coe_nonneg.2 h2
  · exact hg ▸ hx.noLink

theorem firstPaths_ok (ops : List Op) (hg : x.g = run empty ops) (hx : GoodInst x) :
    Evt (fun n => firstPaths n x) (Ph1 x fun _ _ => True) (NoPath x) := by
  classical
  unfold firstPaths
  refine Evt.bind (A := fun s : Table × (ℤ → Option ℤ) => Ph1 x (fun _ _ => True) s.1) ?_
    (fun s hs => Evt.ok hs)
  have := Evt.fold (T := NoPath x) (f := fun n (s : Table × (ℤ → Option ℤ)) (d : ℕ × ℤ) =>
      (fifo n x.g d.2 (freeCost x) s.2).bind fun r =>
        (Res.foldlM (firstPath n x d r.out) s.1 x.origins).bind fun t => .ok (t, r.out))
    (I := fun pre s => Ph1 x (fun _ d => d ∈ pre.map (·.2)) s.1) x.dests []
    (initTable x, fun _ => none) ?_ ?_
  · refine this.imp fun s hs => hs.congr ?_
    rintro o d ⟨p, _, _, e, he, rfl, _⟩
    simp only [List.nil_append, iff_true]
    exact List.mem_map_of_mem he
  · intro pre d suf s hsplit hs
    rw [List.nil_append] at hsplit
    have hd : d ∈ x.dests := by rw [hsplit]; simp
    have hdn : d.2 ∉ pre.map (·.2) := by
      have := hx.dests.1
      rw [hsplit, List.map_append, List.map_cons] at this
      intro hm
      exact (List.nodup_append.1 this).2.2 _ hm _ (by simp) rfl
    refine Evt.bind (fifo_tree (ctx_free ops hg hx) (hx.dests.2 d hd) s.2) fun r hr => ?_
    refine Evt.bind (A := Ph1 x fun _ d' => d' ∈ (pre ++ [d]).map (·.2)) ?_ fun t ht => Evt.ok ht
    have := Evt.fold (T := NoPath x) (f := fun n => firstPath n x d r.out)
      (I := fun pr => Ph1 x fun o' d' => d' ∈ pre.map (·.2) ∨ (o' ∈ pr.map (·.1) ∧ d' = d.2)) x.origins [] s.1
      ?_ ?_
    · refine this.imp fun t ht => ht.congr ?_
      rintro o d' ⟨p, hp, rfl, _⟩
      have : p.1 ∈ x.origins.map (·.1) := List.mem_map_of_mem hp
      simp [this]
    · intro pr o su t hsp ht
      rw [List.nil_append] at hsp
      have ho : o ∈ x.origins := by rw [hsp]; simp
      have hon : o.1 ∉ pr.map (·.1) := by
        have := hx.origins.1
        rw [hsp, List.map_append, List.map_cons] at this
        intro hm
        exact (List.nodup_append.1 this).2.2 _ hm _ (by simp) rfl
      refine (firstPath_ok hx ho hd hr ht ?_).imp fun t' ht' => ht'.congr ?_
      · rintro (h | h)
        · exact hdn h
        · exact hon h.1
      · intro o' d' _
        simp only [List.map_append, List.mem_append, List.map_cons, List.map_nil, List.mem_singleton]
        tauto
    · refine hs.congr fun o d' _ => ?_
      simp
  · refine ⟨⟨?_, ?_⟩, ?_, ?_⟩
    · intro o d
      show (initTable x o d).isSome = true ↔ _
      rw [initTable_eq hx.origins.1]
      by_cases h : HasDemand x o d <;> simp [h]
    · intro o d ps h
      have h : initTable x o d = some ps := h
      rw [initTable_eq hx.origins.1] at h
      split at h
      · cases h; exact ⟨by simp, by simp⟩
      · cases h
    · intro o d ps h _
      have h : initTable x o d = some ps := h
      rw [initTable_eq hx.origins.1] at h
      split at h
      · cases h; rfl
      · cases h
    · intro o d _ hm
      simp at hm

theorem altPath_ok (hx : GoodInst x) {o : ℤ × (ℕ → Bool)} (ho : o ∈ x.origins) {d : ℕ × ℤ}
    (hd : d ∈ x.dests) {om oh : ℤ → Option ℤ} {wm wh : ℤ → Cost} (hm : TreeOk x.g wm d.2 om)
    (hh : TreeOk x.g wh d.2 oh) {t : Table} (h : TOk x t) :
    Evt (fun n => altPath n x d om oh t o) (fun t' => TOk x t' ∧ Grown t t') (NoPath x) := by
  by_cases hdem : o.2 d.1 = true
  · have hdem' := (hasDemand_iff hx ho hd).2 hdem
    simp only [altPath, hdem, Bool.not_true, Bool.false_eq_true, if_false]
    have key : ∀ (w : ℤ → Cost) (out : ℤ → Option ℤ), TreeOk x.g w d.2 out →
        Evt (fun n => extractPath x.g d.2 out n o.1)
          (fun r => ∀ p, r = some p → Walk x.g o.1 p.2 d.2 ∧ p.1 = walkNodes x.g o.1 p.2) (NoPath x) := by
      intro w out ht
      rcases ht o.1 (hx.origins.2 o ho) with ⟨ls, hw, _, N, hN⟩ | ⟨_, N, hN⟩
      · refine Or.inl ⟨_, ?_, N, hN⟩
        rintro p hp
        cases hp
        exact ⟨hw, rfl⟩
      · exact Or.inl ⟨_, by simp, N, hN⟩
    refine Evt.bind (key wm om hm) fun rm hrm => Evt.bind (key wh oh hh) fun rh hrh => ?_
    obtain ⟨t1, a1, b1, c1⟩ := storeNew_ok h hdem' hrm
    obtain ⟨t2, a2, b2, c2⟩ := storeNew_ok b1 hdem' hrh
    rw [a1]
    simp only [Res.bind_ok', a2]
    exact Evt.ok ⟨b2, c1.trans c2⟩
  · simp only [altPath, hdem, Bool.not_false, if_true]
    exact Evt.ok ⟨h, Grown.refl t⟩

theorem genIter_ok (ops : List Op) (hg : x.g = run empty ops) (hx : GoodInst x) (s : GenSt) (hs : TOk x s.t) :
    Evt (fun n => genIter n x s) (fun s' => TOk x s'.t ∧ Grown s.t s'.t) (NoPath x) := by
  unfold genIter
  refine Evt.fold (T := NoPath x) (f := fun n (s1 : GenSt) (d : ℕ × ℤ) =>
      (fifo n x.g d.2 (scaledCost x x.mid fun l => s.used l || onPath x s.t l) s1.mid).bind fun rm =>
        (fifo n x.g d.2 (scaledCost x x.heavy fun l => s.used l || onPath x s.t l) s1.heavy).bind fun rh =>
          (Res.foldlM (altPath n x d rm.out rh.out) s1.t x.origins).bind fun t =>
            .ok { s1 with
              t := t
              mid := rm.out
              heavy := rh.out })
    (I := fun _ s' => TOk x s'.t ∧ Grown s.t s'.t) x.dests [] _ ?_ ⟨hs, Grown.refl _⟩
  intro pre d suf s1 hsplit ⟨h1, h2⟩
  have hd : d ∈ x.dests := by rw [show x.dests = _ from hsplit]; simp
  refine Evt.bind (fifo_tree (ctx_scaled ops hg hx _ _ hx.mid) (hx.dests.2 d hd) s1.mid) fun rm hrm => ?_
  refine Evt.bind (fifo_tree (ctx_scaled ops hg hx _ _ hx.heavy) (hx.dests.2 d hd) s1.heavy) fun rh hrh => ?_
  refine Evt.bind (A := fun t => TOk x t ∧ Grown s.t t) ?_ fun t ht => Evt.ok ht
  refine Evt.fold (T := NoPath x) (f := fun n => altPath n x d rm.out rh.out)
    (I := fun _ t => TOk x t ∧ Grown s.t t) x.origins [] s1.t ?_ ⟨h1, h2⟩
  intro pr o su t hsp ⟨k1, k2⟩
  have ho : o ∈ x.origins := by rw [show x.origins = _ from hsp]; simp
  exact (altPath_ok hx ho hd hrm hrh k1).imp fun t' ht' => ⟨ht'.1, k2.trans ht'.2⟩

theorem genIters_ok (ops : List Op) (hg : x.g = run empty ops) (hx : GoodInst x) : ∀ (k : ℕ) (s : GenSt),
    TOk x s.t → Evt (fun n => genIters n x k s) (fun s' => TOk x s'.t ∧ Grown s.t s'.t) (NoPath x)
  | 0, s, hs => Evt.ok ⟨hs, Grown.refl _⟩
  | k + 1, s, hs => by
    unfold genIters
    refine Evt.bind (genIter_ok ops hg hx s hs) fun s1 h1 => ?_
    exact (genIters_ok ops hg hx k s1 h1.1).imp fun s2 h2 => ⟨h2.1, h1.2.trans h2.2⟩

theorem buildPathset_ok (ops : List Op) (hg : x.g = run empty ops) (hx : GoodInst x) (k : ℕ) :
    Evt (fun n => buildPathset n x k)
      (fun t => ∃ t0, Ph1 x (fun _ _ => True) t0 ∧ Grown t0 t ∧ TOk x t) (NoPath x) := by
  unfold buildPathset
  refine Evt.bind (firstPaths_ok ops hg hx) fun t0 h0 => ?_
  refine Evt.bind (genIters_ok ops hg hx k _ h0.ok) fun s hs => ?_
  exact Evt.ok ⟨t0, h0, hs.2, hs.1⟩

end Verif.Path

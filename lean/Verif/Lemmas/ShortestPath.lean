import Verif.Spec.ShortestPath
import Verif.Props.Graph
import Mathlib.Data.List.Nodup
import Mathlib.Algebra.Order.BigOperators.Group.List

/-! # Label correcting: invariant and termination -/

namespace Verif.Sp
open Graph

/-- What is used of the graph and the costs. -/
structure Ctx (g : G) (cost : ℤ → Option Cost) (w : ℤ → Cost) : Prop where
  cost : ∀ l f t, getEndpoints g l = .ok (f, t) → cost l = some (w l) ∧ 0 ≤ w l ∧ l ≠ -1 ∧ l ∈ linkIds g
  ends : ∀ l f t, getEndpoints g l = .ok (f, t) → f ∈ nodeIds g ∧ t ∈ nodeIds g ∧ f ≠ t
  inc : ∀ n ∈ nodeIds g, ∃ ls, incoming g n = .ok ls ∧ ∀ i, i ∈ ls ↔ ∃ f, getEndpoints g i = .ok (f, n)
  notNode : ∀ n, n ∉ nodeIds g → incoming g n = .throw "out_of_range"

theorem ctx_of_run (ops : List Op) {cost : ℤ → Option Cost} {w : ℤ → Cost}
    (h : Costs (run empty ops) cost w) : Ctx (run empty ops) cost w := by
  have key : ∀ l f t, getEndpoints (run empty ops) l = .ok (f, t) → l ∈ linkIds (run empty ops) := by
    intro l f t e
    by_contra hn
    rw [(C05_endpoints_unknown ops l).1 hn] at e
    cases e
  refine ⟨?_, ?_, ?_, ?_⟩
  · intro l f t e
    have hl := key l f t e
    exact ⟨h.some l hl, h.nonneg l hl, fun e => h.noLink (e ▸ hl), hl⟩
  · intro l f t e
    obtain ⟨f', t', e', a, b, c⟩ := (C05_endpoints_unknown ops l).2 (key l f t e)
    rw [e] at e'
    cases e'
    exact ⟨b, c, a⟩
  · intro n hn
    obtain ⟨l, h1, _, _, h2⟩ := (C02_directed_connections ops n .inc _ (Nat.lt_succ_self _)).1 hn
    refine ⟨l, h1, fun i => ?_⟩
    rw [h2]
    constructor
    · rintro ⟨f, t, e, rfl⟩; exact ⟨f, e⟩
    · rintro ⟨f, e⟩; exact ⟨f, n, e, rfl⟩
  · intro n hn
    exact (C02_directed_connections ops n .inc _ (Nat.lt_succ_self _)).2 hn

/-- The tail of a link. -/
def src (g : G) (l : ℤ) : ℤ :=
  match getEndpoints g l with
  | .ok e => e.1
  | _ => 0

theorem src_eq {g : G} {l f t : ℤ} (h : getEndpoints g l = .ok (f, t)) : src g l = f := by
  simp [src, h]

/-- Following the next links from `v` leads to the destination. -/
inductive Reach (g : G) (dest : ℤ) (out : ℤ → Option ℤ) : ℤ → Prop
  | dest : Reach g dest out dest
  | step (v l t : ℤ) : out v = some l → getEndpoints g l = .ok (v, t) → Reach g dest out t →
      Reach g dest out v

theorem walk_append {g : G} : ∀ {a b : List ℤ} {u v x : ℤ}, Walk g u a x → Walk g x b v →
    Walk g u (a ++ b) v
  | [], b, u, v, x, h1, h2 => by
    have : u = x := h1
    subst this
    exact h2
  | l :: a, b, u, v, x, h1, h2 => by
    obtain ⟨t, e, h⟩ := h1
    exact ⟨t, e, walk_append h h2⟩

theorem walkCost_append (w : ℤ → Cost) (a b : List ℤ) :
    walkCost w (a ++ b) = walkCost w a + walkCost w b := by simp [walkCost]

theorem walkCost_cons (w : ℤ → Cost) (l : ℤ) (b : List ℤ) :
    walkCost w (l :: b) = w l + walkCost w b := by simp [walkCost]

theorem walk_split {g : G} : ∀ {a : List ℤ} {l : ℤ} {b : List ℤ} {u v : ℤ}, Walk g u (a ++ l :: b) v →
    Walk g u a (src g l) ∧ Walk g (src g l) (l :: b) v
  | [], l, b, u, v, h => by
    obtain ⟨t, e, h'⟩ := h
    rw [src_eq e]
    exact ⟨rfl, t, e, h'⟩
  | x :: a, l, b, u, v, h => by
    obtain ⟨t, e, h⟩ := h
    obtain ⟨h1, h2⟩ := walk_split h
    exact ⟨⟨t, e, h1⟩, h2⟩

theorem walk_mem {g : G} {cost : ℤ → Option Cost} {w : ℤ → Cost} (hc : Ctx g cost w) :
    ∀ {ls : List ℤ} {u v : ℤ}, Walk g u ls v → ∀ l ∈ ls, l ∈ linkIds g ∧ src g l ∈ nodeIds g ∧ 0 ≤ w l
  | [], _, _, _, l, hl => by simp at hl
  | x :: ls, u, v, h, l, hl => by
    obtain ⟨t, e, h⟩ := h
    rcases List.mem_cons.1 hl with rfl | hl
    · rw [src_eq e]
      exact ⟨(hc.cost _ _ _ e).2.2.2, (hc.ends _ _ _ e).1, (hc.cost _ _ _ e).2.1⟩
    · exact walk_mem hc h l hl

theorem walkCost_nonneg {g : G} {cost : ℤ → Option Cost} {w : ℤ → Cost} (hc : Ctx g cost w)
    {ls : List ℤ} {u v : ℤ} (h : Walk g u ls v) : 0 ≤ walkCost w ls := by
  apply List.sum_nonneg
  intro x hx
  rw [List.mem_map] at hx
  obtain ⟨l, hl, rfl⟩ := hx
  exact (walk_mem hc h l hl).2.2

/-- The invariant of label correcting.  `p` gives each labelled node the walk its label stands for;
`Pend l` says that link `l` may still be unbalanced; `o0` is the initial map of next links. -/
structure Inv (g : G) (w : ℤ → Cost) (dest : ℤ) (o0 : ℤ → Option ℤ) (d : ℤ → Cost) (out : ℤ → Option ℤ)
    (p : ℤ → List ℤ) (Pend : ℤ → Prop) : Prop where
  dest0 : d dest = 0
  walk : ∀ v, d v ≠ ⊤ → Walk g v (p v) dest
  cost : ∀ v, d v ≠ ⊤ → walkCost w (p v) = d v
  nodup : ∀ v, d v ≠ ⊤ → ((p v).map (src g)).Nodup
  suffix : ∀ v, d v ≠ ⊤ → ∀ a l b, p v = a ++ l :: b → d (src g l) ≤ walkCost w (l :: b)
  tight : ∀ l f t, getEndpoints g l = .ok (f, t) → Pend l ∨ d f ≤ d t + w l
  next : ∀ v, v ≠ dest → d v ≠ ⊤ → ∃ l t, out v = some l ∧ getEndpoints g l = .ok (v, t) ∧ d t + w l ≤ d v
  reach : ∀ v, d v ≠ ⊤ → Reach g dest out v
  untouched : ∀ v, v = dest ∨ d v = ⊤ → out v = o0 v
  nodes : ∀ v, d v ≠ ⊤ → v ∈ nodeIds g

theorem Inv.pend {g : G} {w : ℤ → Cost} {dest : ℤ} {o0 : ℤ → Option ℤ} {d : ℤ → Cost}
    {out : ℤ → Option ℤ} {p : ℤ → List ℤ} {P Q : ℤ → Prop} (h : Inv g w dest o0 d out p P)
    (hp : ∀ l f t, getEndpoints g l = .ok (f, t) → P l → Q l ∨ d f ≤ d t + w l) :
    Inv g w dest o0 d out p Q :=
  ⟨h.dest0, h.walk, h.cost, h.nodup, h.suffix,
    fun l f t e => (h.tight l f t e).elim (hp l f t e) Or.inr, h.next, h.reach, h.untouched, h.nodes⟩

section
variable {g : G} {cost : ℤ → Option Cost} {w : ℤ → Cost} {dest : ℤ} {o0 : ℤ → Option ℤ} {d : ℤ → Cost}
  {out : ℤ → Option ℤ} {p : ℤ → List ℤ}

theorem not_top_of_lt_add {a b c : Cost} (h : a + b < c) : a ≠ ⊤ := by
  rintro rfl
  simp at h

theorem Inv.d_nonneg {P : ℤ → Prop} (hc : Ctx g cost w) (h : Inv g w dest o0 d out p P) (v : ℤ) :
    0 ≤ d v := by
  by_cases hv : d v = ⊤
  · rw [hv]; exact le_top
  · rw [← h.cost v hv]; exact walkCost_nonneg hc (h.walk v hv)

/-- Improving the label of `f` along a link to `t`. -/
theorem Inv.update {P Q : ℤ → Prop} (hc : Ctx g cost w) (h : Inv g w dest o0 d out p P) {l f t : ℤ}
    (he : getEndpoints g l = .ok (f, t)) (hlt : d t + w l < d f)
    (hp : ∀ l' f' t', getEndpoints g l' = .ok (f', t') → (P l' → l' = l ∨ Q l') ∧ (t' = f → Q l')) :
    Inv g w dest o0 (upd d f (d t + w l)) (upd out f (some l)) (upd p f (l :: p t)) Q := by
  have hft : f ≠ t := (hc.ends _ _ _ he).2.2
  have hw : 0 ≤ w l := (hc.cost _ _ _ he).2.1
  have ht : d t ≠ ⊤ := not_top_of_lt_add hlt
  have htl : d t ≤ d t + w l := le_add_of_nonneg_right hw
  have hfd : f ≠ dest := by
    rintro rfl
    rw [h.dest0] at hlt
    exact absurd hlt (not_lt.2 (le_trans (h.d_nonneg hc t) htl))
  have hnew : d t + w l ≠ ⊤ := ne_top_of_lt hlt
  have hle : ∀ v, upd d f (d t + w l) v ≤ d v := by
    intro v
    by_cases hv : v = f
    · subst hv; rw [upd_same]; exact hlt.le
    · rw [upd_other _ _ _ _ hv]
  have hsome : ∀ v, v ≠ f → upd d f (d t + w l) v ≠ ⊤ → d v ≠ ⊤ := by
    intro v hv hne
    rwa [upd_other _ _ _ _ hv] at hne
  -- routes from labelled nodes survive
  have hr1 : ∀ u, Reach g dest out u → d u ≤ d t → Reach g dest (upd out f (some l)) u := by
    intro u hu
    induction hu with
    | dest => intro _; exact .dest
    | step u l' t' ho e _ ih =>
      intro hut
      by_cases hud : u = dest
      · subst hud; exact .dest
      have huf : u ≠ f := by
        rintro rfl
        exact absurd hlt (not_lt.2 (le_trans hut htl))
      have hune : d u ≠ ⊤ := ne_top_of_le_ne_top ht hut
      obtain ⟨l2, t2, o2, e2, c2⟩ := h.next u hud hune
      rw [ho] at o2
      cases o2
      rw [e] at e2
      cases e2
      refine .step u l' t' (by rw [upd_other _ _ _ _ huf]; exact ho) e (ih ?_)
      exact le_trans (le_add_of_nonneg_right (hc.cost _ _ _ e).2.1) (le_trans c2 hut)
  have hrf : Reach g dest (upd out f (some l)) f :=
    .step f l t (by rw [upd_same]) he (hr1 t (h.reach t ht) (le_refl _))
  have hr2 : ∀ u, Reach g dest out u → Reach g dest (upd out f (some l)) u := by
    intro u hu
    induction hu with
    | dest => exact .dest
    | step u l' t' ho e _ ih =>
      by_cases huf : u = f
      · subst huf; exact hrf
      · exact .step u l' t' (by rw [upd_other _ _ _ _ huf]; exact ho) e ih
  refine ⟨?_, ?_, ?_, ?_, ?_, ?_, ?_, ?_, ?_, ?_⟩
  · rw [upd_other _ _ _ _ hfd.symm]; exact h.dest0
  · intro v hv
    by_cases hvf : v = f
    · subst hvf; rw [upd_same]; exact ⟨t, he, h.walk t ht⟩
    · rw [upd_other _ _ _ _ hvf]; exact h.walk v (hsome v hvf hv)
  · intro v hv
    by_cases hvf : v = f
    · subst hvf; rw [upd_same, upd_same, walkCost_cons, h.cost t ht, add_comm]
    · rw [upd_other _ _ _ _ hvf, upd_other _ _ _ _ hvf]; exact h.cost v (hsome v hvf hv)
  · intro v hv
    by_cases hvf : v = f
    · subst hvf
      rw [upd_same, List.map_cons, List.nodup_cons, src_eq he]
      refine ⟨?_, h.nodup t ht⟩
      intro hm
      rw [List.mem_map] at hm
      obtain ⟨l', hl', hs⟩ := hm
      obtain ⟨a, b, hab⟩ := List.append_of_mem hl'
      have h1 := h.suffix t ht a l' b hab
      rw [hs] at h1
      have h2 : walkCost w (l' :: b) ≤ d t := by
        rw [← h.cost t ht, hab, walkCost_append]
        have := h.walk t ht
        rw [hab] at this
        exact le_add_of_nonneg_left (walkCost_nonneg hc (walk_split this).1)
      exact absurd hlt (not_lt.2 (le_trans h1 (le_trans h2 htl)))
    · rw [upd_other _ _ _ _ hvf]; exact h.nodup v (hsome v hvf hv)
  · intro v hv a l' b hab
    by_cases hvf : v = f
    · subst hvf
      rw [upd_same] at hab
      cases a with
      | nil =>
        simp only [List.nil_append, List.cons.injEq] at hab
        obtain ⟨rfl, rfl⟩ := hab
        rw [src_eq he, upd_same, walkCost_cons, h.cost t ht, add_comm]
      | cons x a =>
        simp only [List.cons_append, List.cons.injEq] at hab
        exact le_trans (hle _) (h.suffix t ht a l' b hab.2)
    · rw [upd_other _ _ _ _ hvf] at hab
      exact le_trans (hle _) (h.suffix v (hsome v hvf hv) a l' b hab)
  · intro l' f' t' e'
    obtain ⟨p1, p2⟩ := hp l' f' t' e'
    by_cases htf : t' = f
    · exact Or.inl (p2 htf)
    rw [upd_other d _ _ _ htf]
    rcases h.tight l' f' t' e' with hP | hP
    · rcases p1 hP with rfl | hQ
      · rw [he] at e'
        cases e'
        right
        rw [upd_same]
      · exact Or.inl hQ
    · exact Or.inr (le_trans (hle _) hP)
  · intro v hvd hv
    by_cases hvf : v = f
    · subst hvf
      refine ⟨l, t, by rw [upd_same], he, ?_⟩
      rw [upd_same, upd_other _ _ _ _ hft.symm]
    · obtain ⟨l', t', o', e', c'⟩ := h.next v hvd (hsome v hvf hv)
      refine ⟨l', t', by rw [upd_other _ _ _ _ hvf]; exact o', e', ?_⟩
      rw [upd_other d _ v _ hvf]
      exact le_trans (add_le_add_left (hle _) _) c'
  · intro v hv
    by_cases hvf : v = f
    · subst hvf; exact hrf
    · exact hr2 v (h.reach v (hsome v hvf hv))
  · intro v hv
    have hvf : v ≠ f := by
      rintro rfl
      rcases hv with hv | hv
      · exact hfd hv
      · rw [upd_same] at hv; exact hnew hv
    rw [upd_other _ _ _ _ hvf]
    rw [upd_other _ _ _ _ hvf] at hv
    exact h.untouched v hv
  · intro v hv
    by_cases hvf : v = f
    · subst hvf; exact (hc.ends _ _ _ he).1
    · exact h.nodes v (hsome v hvf hv)

/-! ## Termination measure -/

/-- All sequences of at most `n` links. -/
def listsUpTo (L : List ℤ) : ℕ → List (List ℤ)
  | 0 => [[]]
  | n + 1 => [] :: L.flatMap fun l => (listsUpTo L n).map (l :: ·)

theorem mem_listsUpTo (L : List ℤ) : ∀ (n : ℕ) (ls : List ℤ), ls.length ≤ n → (∀ l ∈ ls, l ∈ L) →
    ls ∈ listsUpTo L n
  | 0, ls, h, _ => by
    have : ls = [] := List.length_eq_zero_iff.1 (by omega)
    simp [listsUpTo, this]
  | n + 1, [], _, _ => by simp [listsUpTo]
  | n + 1, l :: ls, h, hm => by
    simp only [listsUpTo, List.mem_cons, List.mem_flatMap, List.mem_map]
    right
    exact ⟨l, hm l (by simp), ls, mem_listsUpTo L n ls (by simpa using h)
      (fun x hx => hm x (by simp [hx])), rfl⟩

/-- Costs a label can have. -/
def costsOf (g : G) (w : ℤ → Cost) : List Cost :=
  (listsUpTo (linkIds g) (nodeIds g).length).map (walkCost w)

/-- How many improvements the labels can still undergo. -/
def meas (g : G) (w : ℤ → Cost) (d : ℤ → Cost) : ℕ :=
  ((nodeIds g).map fun v => (costsOf g w).countP fun c => decide (c < d v)).sum

theorem Inv.mem_costs {P : ℤ → Prop} (hc : Ctx g cost w) (h : Inv g w dest o0 d out p P) {v : ℤ}
    (hv : d v ≠ ⊤) : d v ∈ costsOf g w := by
  unfold costsOf
  rw [List.mem_map]
  refine ⟨p v, mem_listsUpTo _ _ _ ?_ ?_, h.cost v hv⟩
  · have hsub : (p v).map (src g) ⊆ nodeIds g := by
      intro x hx
      rw [List.mem_map] at hx
      obtain ⟨l, hl, rfl⟩ := hx
      exact (walk_mem hc (h.walk v hv) l hl).2.1
    have := (List.subperm_of_subset (h.nodup v hv) hsub).length_le
    simpa using this
  · intro l hl
    exact (walk_mem hc (h.walk v hv) l hl).1

theorem meas_update {f : ℤ} {a : Cost} (hf : f ∈ nodeIds g) (ha : a ∈ costsOf g w) (hlt : a < d f) :
    meas g w (upd d f a) + 1 ≤ meas g w d := by
  unfold meas
  apply Nat.succ_le_of_lt
  have hle : ∀ v, upd d f a v ≤ d v := by
    intro v
    by_cases hv : v = f
    · subst hv; rw [upd_same]; exact hlt.le
    · rw [upd_other _ _ _ _ hv]
  apply List.sum_lt_sum
  · intro v _
    apply List.countP_mono_left
    intro c _ hcd
    simp only [decide_eq_true_eq] at hcd ⊢
    exact lt_of_lt_of_le hcd (hle v)
  · refine ⟨f, hf, ?_⟩
    rw [upd_same]
    obtain ⟨x, y, hxy⟩ := List.append_of_mem ha
    rw [hxy]
    simp only [List.countP_append, List.countP_cons, lt_self_iff_false, decide_false, hlt, decide_true,
      if_true, Bool.false_eq_true, if_false]
    have m : ∀ z : List Cost, z.countP (fun c => decide (c < a)) ≤ z.countP (fun c => decide (c < d f)) := by
      intro z
      apply List.countP_mono_left
      intro c _ hcd
      simp only [decide_eq_true_eq] at hcd ⊢
      exact hcd.trans hlt
    have := m x
    have := m y
    omega

/-! ## The deque variant -/

/-- The labels as a total function. -/
def lab (dist : ℤ → Option Cost) (v : ℤ) : Cost := (dist v).getD ⊤

/-- Pending links: those into a queued node and those still to be scanned. -/
def Pend (g : G) (q ls : List ℤ) (l : ℤ) : Prop :=
  (∃ f t, getEndpoints g l = .ok (f, t) ∧ t ∈ q) ∨ l ∈ ls

/-- The state of the deque variants. -/
structure LabOk (g : G) (dest : ℤ) (s : Lab) : Prop where
  dist : ∀ v ∈ nodeIds g, (s.dist v).isSome
  out : ∀ v ∈ nodeIds g, v ≠ dest → (s.out v).isSome
  sup : ∀ v ∈ nodeIds g, (s.sup v).isSome
  sup_iff : ∀ v, s.sup v = some true ↔ v ∈ s.q
  q : ∀ v ∈ s.q, v ∈ nodeIds g
  nd : s.q.Nodup

theorem lab_upd (dist : ℤ → Option Cost) (f : ℤ) (a : Cost) :
    lab (upd dist f (some a)) = upd (lab dist) f a := by
  funext v
  by_cases hv : v = f
  · subst hv; simp [lab]
  · simp [lab, upd_other _ _ _ _ hv]

theorem relax_spec {push : List ℤ → ℤ → List ℤ} (hmem : ∀ q x y, y ∈ push q x ↔ y ∈ q ∨ y = x)
    (hlen : ∀ q x, (push q x).length = q.length + 1)
    (hnd : ∀ q x, q.Nodup → x ∉ q → (push q x).Nodup) (hc : Ctx g cost w) {s : Lab} (hs : LabOk g dest s)
    {v l : ℤ} {ls : List ℤ} (hl : ∃ f, getEndpoints g l = .ok (f, v))
    (hi : Inv g w dest o0 (lab s.dist) s.out p (Pend g s.q (l :: ls))) :
    ∃ s' p', relax push g cost (lab s.dist v) s l = .ok s' ∧ LabOk g dest s' ∧
      Inv g w dest o0 (lab s'.dist) s'.out p' (Pend g s'.q ls) ∧ lab s'.dist v = lab s.dist v ∧
      meas g w (lab s'.dist) + s'.q.length ≤ meas g w (lab s.dist) + s.q.length := by
  obtain ⟨f, he⟩ := hl
  obtain ⟨hcost, hw, _, _⟩ := hc.cost _ _ _ he
  obtain ⟨hf, hv, hfv⟩ := hc.ends _ _ _ he
  obtain ⟨df, hdf⟩ := Option.isSome_iff_exists.1 (hs.dist f hf)
  have hlab : lab s.dist f = df := by simp [lab, hdf]
  unfold relax
  rw [he, Res.bind_ok']
  simp only [hcost, hdf]
  by_cases hlt : lab s.dist v + w l < df
  · rw [if_pos hlt]
    have hfd : f ≠ dest := by
      rintro rfl
      have h0 := hi.dest0
      rw [hlab] at h0
      subst h0
      exact absurd hlt (not_lt.2 (le_trans (hi.d_nonneg hc v) (le_add_of_nonneg_right hw)))
    obtain ⟨o, ho⟩ := Option.isSome_iff_exists.1 (hs.out f hf hfd)
    obtain ⟨b, hb⟩ := Option.isSome_iff_exists.1 (hs.sup f hf)
    simp only [ho, hb]
    have hq : ∀ y, y ∈ (if b then s.q else push s.q f) ↔ y ∈ s.q ∨ y = f := by
      intro y
      cases b with
      | true =>
        have : f ∈ s.q := (hs.sup_iff f).1 hb
        simp only [if_true]
        constructor
        · exact Or.inl
        · rintro (h | rfl)
          · exact h
          · exact this
      | false => simp only [Bool.false_eq_true, if_false, hmem]
    have hql : (if b then s.q else push s.q f).length ≤ s.q.length + 1 := by
      cases b <;> simp [hlen]
    have hlt' : lab s.dist v + w l < lab s.dist f := by rw [hlab]; exact hlt
    have hup := hi.update (Q := Pend g (if b then s.q else push s.q f) ls) hc he hlt' (by
      intro l' f' t' e'
      constructor
      · rintro (⟨f2, t2, e2, hm⟩ | hm)
        · exact Or.inr (Or.inl ⟨f2, t2, e2, (hq t2).2 (Or.inl hm)⟩)
        · rcases List.mem_cons.1 hm with rfl | hm
          · exact Or.inl rfl
          · exact Or.inr (Or.inr hm)
      · rintro rfl
        exact Or.inl ⟨f', t', e', (hq t').2 (Or.inr rfl)⟩)
    refine ⟨_, _, rfl, ⟨?_, ?_, ?_, ?_, ?_, ?_⟩, by rw [lab_upd]; exact hup, ?_, ?_⟩
    · intro x hx
      by_cases hxf : x = f
      · subst hxf; simp
      · simp only; rw [upd_other _ _ _ _ hxf]; exact hs.dist x hx
    · intro x hx hxd
      by_cases hxf : x = f
      · subst hxf; simp
      · simp only; rw [upd_other _ _ _ _ hxf]; exact hs.out x hx hxd
    · intro x hx
      by_cases hxf : x = f
      · subst hxf; simp
      · simp only; rw [upd_other _ _ _ _ hxf]; exact hs.sup x hx
    · intro x
      simp only
      rw [hq]
      by_cases hxf : x = f
      · subst hxf; simp
      · rw [upd_other _ _ _ _ hxf, hs.sup_iff]
        simp [hxf]
    · intro x hx
      rcases (hq x).1 hx with hx | rfl
      · exact hs.q x hx
      · exact hf
    · cases b with
      | true => simpa using hs.nd
      | false =>
        simp only [Bool.false_eq_true, if_false]
        refine hnd _ _ hs.nd fun hm => ?_
        have := (hs.sup_iff f).2 hm
        rw [hb] at this
        cases this
    · rw [lab_upd, upd_other _ _ _ _ hfv.symm]
    · have hmc := hup.mem_costs hc (v := f) (by rw [upd_same]; exact ne_top_of_lt hlt)
      rw [upd_same] at hmc
      have := meas_update hf hmc hlt'
      simp only [lab_upd]
      omega
  · rw [if_neg hlt]
    refine ⟨s, p, rfl, hs, hi.pend ?_, rfl, le_refl _⟩
    intro l' f' t' e' hP
    rcases hP with hP | hP
    · exact Or.inl (Or.inl hP)
    · rcases List.mem_cons.1 hP with rfl | hP
      · rw [he] at e'
        cases e'
        right
        rw [hlab]
        exact not_lt.1 hlt
      · exact Or.inl (Or.inr hP)

theorem relaxAll_spec {push : List ℤ → ℤ → List ℤ} (hmem : ∀ q x y, y ∈ push q x ↔ y ∈ q ∨ y = x)
    (hlen : ∀ q x, (push q x).length = q.length + 1)
    (hnd : ∀ q x, q.Nodup → x ∉ q → (push q x).Nodup) (hc : Ctx g cost w) {v : ℤ} {td : Cost} :
    ∀ (ls : List ℤ) (s : Lab) (p : ℤ → List ℤ), LabOk g dest s → lab s.dist v = td →
      (∀ l ∈ ls, ∃ f, getEndpoints g l = .ok (f, v)) →
      Inv g w dest o0 (lab s.dist) s.out p (Pend g s.q ls) →
      ∃ s' p', Res.foldlM (relax push g cost td) s ls = .ok s' ∧ LabOk g dest s' ∧
        Inv g w dest o0 (lab s'.dist) s'.out p' (Pend g s'.q []) ∧
        meas g w (lab s'.dist) + s'.q.length ≤ meas g w (lab s.dist) + s.q.length
  | [], s, p, hs, _, _, hi => ⟨s, p, rfl, hs, hi, le_refl _⟩
  | l :: ls, s, p, hs, htd, hl, hi => by
    obtain ⟨s1, p1, e1, h1, i1, d1, m1⟩ := relax_spec hmem hlen hnd hc hs (hl l (by simp)) hi
    obtain ⟨s2, p2, e2, h2, i2, m2⟩ := relaxAll_spec hmem hlen hnd hc ls s1 p1 h1 (d1.trans htd)
      (fun x hx => hl x (by simp [hx])) i1
    refine ⟨s2, p2, ?_, h2, i2, by omega⟩
    rw [Res.foldlM_cons, ← htd, e1, Res.ok_bind, htd]
    exact e2

theorem pushBack_mem (q : List ℤ) (x y : ℤ) : y ∈ pushBack q x ↔ y ∈ q ∨ y = x := by simp [pushBack]

theorem fifoLoop_spec (hc : Ctx g cost w) : ∀ (fuel : ℕ) (s : Lab) (p : ℤ → List ℤ), LabOk g dest s →
    Inv g w dest o0 (lab s.dist) s.out p (Pend g s.q []) →
    meas g w (lab s.dist) + s.q.length < fuel →
    ∃ s' p', (∀ n, fifoLoop g cost (fuel + n) s = .ok s') ∧ LabOk g dest s' ∧ s'.q = [] ∧
      Inv g w dest o0 (lab s'.dist) s'.out p' (fun _ => False)
  | 0, s, p, _, _, hm => by omega
  | fuel + 1, s, p, hs, hi, hm => by
    cases hq : s.q with
    | nil =>
      refine ⟨s, p, ?_, hs, hq, hi.pend ?_⟩
      · intro n
        rw [show fuel + 1 + n = (fuel + n) + 1 from by omega]
        simp only [fifoLoop, hq]
      · intro l f t e hP
        rcases hP with ⟨_, _, _, hm⟩ | hm
        · rw [hq] at hm; simp at hm
        · simp at hm
    | cons v q =>
      have hv : v ∈ nodeIds g := hs.q v (by rw [hq]; simp)
      obtain ⟨ls, hls, hiff⟩ := hc.inc v hv
      obtain ⟨td, htd⟩ := Option.isSome_iff_exists.1 (hs.dist v hv)
      have hlab : lab s.dist v = td := by simp [lab, htd]
      have hnq : v ∉ q ∧ q.Nodup := by
        have := hs.nd
        rw [hq, List.nodup_cons] at this
        exact this
      obtain ⟨s1, p1, e1, h1, i1, m1⟩ := relaxAll_spec pushBack_mem (by simp [pushBack])
        (by
          intro q x h1 h2
          unfold pushBack
          rw [List.nodup_append]
          refine ⟨h1, by simp, ?_⟩
          intro a ha b hb
          simp only [List.mem_singleton] at hb
          rintro rfl
          exact h2 (hb ▸ ha)) hc (v := v) (td := td) (dest := dest) (o0 := o0) ls
        { s with
          q := q
          sup := upd s.sup v (some false) } p
        ⟨hs.dist, hs.out, (by
            intro x hx
            by_cases hxv : x = v
            · subst hxv; simp
            · simp only; rw [upd_other _ _ _ _ hxv]; exact hs.sup x hx), (by
            intro x
            simp only
            by_cases hxv : x = v
            · subst hxv; simp [hnq.1]
            · rw [upd_other _ _ _ _ hxv, hs.sup_iff, hq]; simp [hxv]),
          (fun x hx => hs.q x (by rw [hq]; exact List.mem_cons_of_mem _ hx)), hnq.2⟩ hlab
        (fun l hl => (hiff l).1 hl) (hi.pend (by
          intro l f t e hP
          rcases hP with ⟨f2, t2, e2, hm⟩ | hm
          · rw [hq] at hm
            rcases List.mem_cons.1 hm with rfl | hm
            · exact Or.inl (Or.inr ((hiff l).2 ⟨f2, e2⟩))
            · exact Or.inl (Or.inl ⟨f2, t2, e2, hm⟩)
          · simp at hm))
      obtain ⟨s2, p2, e2, h2, q2, i2⟩ := fifoLoop_spec hc fuel s1 p1 h1 i1 (by
        rw [hq] at hm
        simp only [List.length_cons] at hm
        simp only at m1
        omega)
      refine ⟨s2, p2, fun n => ?_, h2, q2, i2⟩
      rw [show fuel + 1 + n = (fuel + n) + 1 from by omega]
      simp only [fifoLoop, hq, hls, Res.bind_ok', htd, e1]
      exact e2 n

theorem lab_init (hd : dest ∈ nodeIds g) (out : ℤ → Option ℤ) :
    LabOk g dest (labInit g dest out) := by
  refine ⟨?_, ?_, ?_, ?_, ?_, ?_⟩
  · intro v hv; by_cases h : v = dest <;> simp [labInit, h, hv]
  · intro v hv h; simp [labInit, h, hv]
  · intro v hv; by_cases h : v = dest <;> simp [labInit, h, hv]
  · intro v
    by_cases h : v = dest
    · simp [labInit, h]
    · by_cases hv : v ∈ nodeIds g <;> simp [labInit, h, hv]
  · intro v hv; simp only [labInit, List.mem_singleton] at hv; exact hv ▸ hd
  · simp [labInit]

theorem inv_init (hd : dest ∈ nodeIds g) {d : ℤ → Cost} (h0 : d dest = 0) (ht : ∀ v, v ≠ dest → d v = ⊤)
    (out : ℤ → Option ℤ) {P : ℤ → Prop}
    (hP : ∀ l f, getEndpoints g l = .ok (f, dest) → P l) :
    Inv g w dest out d out (fun _ => []) P := by
  have key : ∀ v, d v ≠ ⊤ → v = dest := fun v hv => by_contra fun h => hv (ht v h)
  refine ⟨h0, ?_, ?_, ?_, ?_, ?_, ?_, ?_, ?_, ?_⟩
  · intro v hv; exact key v hv
  · intro v hv; rw [key v hv, h0]; rfl
  · intro v _; simp
  · intro v _ a l b e; simp at e
  · intro l f t e
    by_cases h : t = dest
    · exact Or.inl (hP l f (h ▸ e))
    · right; rw [ht t h]; simp
  · intro v hv hn; exact absurd (key v hn) hv
  · intro v hv; rw [key v hv]; exact Reach.dest
  · intro v _; rfl
  · intro v hv; rw [key v hv]; exact hd

/-- The labels of `all_to_one_FIFO` at the end. -/
theorem fifo_spec (hc : Ctx g cost w) (hd : dest ∈ nodeIds g) (out : ℤ → Option ℤ) :
    ∃ n0 s p, (∀ fuel, n0 ≤ fuel → fifo fuel g dest cost out = .ok s) ∧ LabOk g dest s ∧
      Inv g w dest (labInit g dest out).out (lab s.dist) s.out p (fun _ => False) := by
  have hi : Inv g w dest (labInit g dest out).out (lab (labInit g dest out).dist) (labInit g dest out).out
      (fun _ => []) (Pend g (labInit g dest out).q []) := by
    refine inv_init hd (by simp [lab, labInit]) ?_ _ ?_
    · intro v hv
      by_cases h : v ∈ nodeIds g <;> simp [lab, labInit, hv, h]
    · intro l f e; exact Or.inl ⟨f, dest, e, by simp [labInit]⟩
  obtain ⟨s, p, h1, h2, _, h3⟩ := fifoLoop_spec hc _ _ _ (lab_init hd out) hi (Nat.lt_succ_self _)
  refine ⟨(meas g w (lab (labInit g dest out).dist) + (labInit g dest out).q.length).succ, s, p,
    fun fuel hf => ?_, h2, h3⟩
  have := h1 (fuel - (meas g w (lab (labInit g dest out).dist) + (labInit g dest out).q.length).succ)
  rw [Nat.add_sub_cancel' hf] at this
  exact this

/-- Balanced labels are least costs. -/
theorem Inv.least (h : Inv g w dest o0 d out p (fun _ => False)) (v : ℤ) :
    Least g w v dest (d v) := by
  refine ⟨?_, ?_⟩
  · intro ls
    induction ls generalizing v with
    | nil =>
      intro hw
      have : v = dest := hw
      rw [this, h.dest0]
      simp [walkCost]
    | cons l ls ih =>
      rintro ⟨t, e, hw⟩
      have := (h.tight l v t e).resolve_left id
      rw [walkCost_cons, add_comm]
      exact this.trans (add_le_add_left (ih t hw) _)
  · by_cases hv : d v = ⊤
    · exact Or.inl hv
    · exact Or.inr ⟨p v, h.walk v hv, h.cost v hv⟩

/-! ## Dijkstra -/

structure DijOk (g : G) (s : Dij) : Prop where
  dist : ∀ v ∈ nodeIds g, (s.dist v).isSome
  q : ∀ x ∈ s.q, x.1 ∈ nodeIds g

theorem dijRelax_spec (hc : Ctx g cost w) {s : Dij} (hs : DijOk g s)
    {v l : ℤ} {ls : List ℤ} (hl : ∃ f, getEndpoints g l = .ok (f, v))
    (hi : Inv g w dest o0 (lab s.dist) s.out p (Pend g (s.q.map Prod.fst) (l :: ls))) :
    ∃ s' p', dijRelax g cost (lab s.dist v) s l = .ok s' ∧ DijOk g s' ∧
      Inv g w dest o0 (lab s'.dist) s'.out p' (Pend g (s'.q.map Prod.fst) ls) ∧
      lab s'.dist v = lab s.dist v ∧
      meas g w (lab s'.dist) + s'.q.length ≤ meas g w (lab s.dist) + s.q.length := by
  obtain ⟨f, he⟩ := hl
  obtain ⟨hcost, hw, _, _⟩ := hc.cost _ _ _ he
  obtain ⟨hf, hv, hfv⟩ := hc.ends _ _ _ he
  obtain ⟨df, hdf⟩ := Option.isSome_iff_exists.1 (hs.dist f hf)
  have hlab : lab s.dist f = df := by simp [lab, hdf]
  unfold dijRelax
  rw [he, Res.bind_ok']
  simp only [hcost, hdf, Option.getD_some]
  by_cases hlt : lab s.dist v + w l < df
  · rw [if_pos hlt]
    have hlt' : lab s.dist v + w l < lab s.dist f := by rw [hlab]; exact hlt
    have hq : ∀ y, y ∈ (s.q ++ [(f, lab s.dist v + w l)]).map Prod.fst ↔ y ∈ s.q.map Prod.fst ∨ y = f := by
      intro y
      simp
    have hup := hi.update (Q := Pend g ((s.q ++ [(f, lab s.dist v + w l)]).map Prod.fst) ls) hc he hlt' (by
      intro l' f' t' e'
      constructor
      · rintro (⟨f2, t2, e2, hm⟩ | hm)
        · exact Or.inr (Or.inl ⟨f2, t2, e2, (hq t2).2 (Or.inl hm)⟩)
        · rcases List.mem_cons.1 hm with rfl | hm
          · exact Or.inl rfl
          · exact Or.inr (Or.inr hm)
      · rintro rfl
        exact Or.inl ⟨f', t', e', (hq t').2 (Or.inr rfl)⟩)
    refine ⟨_, _, rfl, ⟨?_, ?_⟩, by rw [lab_upd]; exact hup, ?_, ?_⟩
    · intro x hx
      by_cases hxf : x = f
      · subst hxf; simp
      · simp only; rw [upd_other _ _ _ _ hxf]; exact hs.dist x hx
    · intro x hx
      rcases List.mem_append.1 hx with hx | hx
      · exact hs.q x hx
      · rw [List.mem_singleton] at hx; rw [hx]; exact hf
    · rw [lab_upd, upd_other _ _ _ _ hfv.symm]
    · have hmc := hup.mem_costs hc (v := f) (by rw [upd_same]; exact ne_top_of_lt hlt)
      rw [upd_same] at hmc
      have := meas_update hf hmc hlt'
      simp only [lab_upd, List.length_append, List.length_singleton]
      omega
  · rw [if_neg hlt]
    have hsame : upd s.dist f (some df) = s.dist := by
      funext x
      by_cases hxf : x = f
      · subst hxf; simp [hdf]
      · rw [upd_other _ _ _ _ hxf]
    rw [hsame]
    refine ⟨s, p, rfl, hs, hi.pend ?_, rfl, le_refl _⟩
    intro l' f' t' e' hP
    rcases hP with hP | hP
    · exact Or.inl (Or.inl hP)
    · rcases List.mem_cons.1 hP with rfl | hP
      · rw [he] at e'
        cases e'
        right
        rw [hlab]
        exact not_lt.1 hlt
      · exact Or.inl (Or.inr hP)

theorem dijRelaxAll_spec (hc : Ctx g cost w) {v : ℤ} {td : Cost} :
    ∀ (ls : List ℤ) (s : Dij) (p : ℤ → List ℤ), DijOk g s → lab s.dist v = td →
      (∀ l ∈ ls, ∃ f, getEndpoints g l = .ok (f, v)) →
      Inv g w dest o0 (lab s.dist) s.out p (Pend g (s.q.map Prod.fst) ls) →
      ∃ s' p', Res.foldlM (dijRelax g cost td) s ls = .ok s' ∧ DijOk g s' ∧
        Inv g w dest o0 (lab s'.dist) s'.out p' (Pend g (s'.q.map Prod.fst) []) ∧
        meas g w (lab s'.dist) + s'.q.length ≤ meas g w (lab s.dist) + s.q.length
  | [], s, p, hs, _, _, hi => ⟨s, p, rfl, hs, hi, le_refl _⟩
  | l :: ls, s, p, hs, htd, hl, hi => by
    obtain ⟨s1, p1, e1, h1, i1, d1, m1⟩ := dijRelax_spec hc hs (hl l (by simp)) hi
    obtain ⟨s2, p2, e2, h2, i2, m2⟩ := dijRelaxAll_spec hc ls s1 p1 h1 (d1.trans htd)
      (fun x hx => hl x (by simp [hx])) i1
    refine ⟨s2, p2, ?_, h2, i2, by omega⟩
    rw [Res.foldlM_cons, ← htd, e1, Res.ok_bind, htd]
    exact e2

theorem mem_of_eraseIdx {α : Type} {q : List α} {k : ℕ} {x y : α} (hk : k < q.length) (h : y ∈ q) :
    y = q.getD k x ∨ y ∈ q.eraseIdx k := by
  have : q.getD k x = q[k] := by simp [List.getD, hk]
  rw [this]
  rw [List.mem_eraseIdx_iff_getElem]
  obtain ⟨i, hi, rfl⟩ := List.mem_iff_getElem.1 h
  by_cases hik : i = k
  · subst hik; exact Or.inl rfl
  · exact Or.inr ⟨i, hi, hik, rfl⟩

theorem dijLoop_spec (hc : Ctx g cost w) (pick : ℕ → List (ℤ × Cost) → ℕ) :
    ∀ (fuel : ℕ) (s : Dij) (p : ℤ → List ℤ), DijOk g s →
    Inv g w dest o0 (lab s.dist) s.out p (Pend g (s.q.map Prod.fst) []) →
    meas g w (lab s.dist) + s.q.length < fuel →
    ∃ s' p', dijLoop pick g cost fuel s = .ok s' ∧ DijOk g s' ∧
      Inv g w dest o0 (lab s'.dist) s'.out p' (fun _ => False)
  | 0, s, p, _, _, hm => by omega
  | fuel + 1, s, p, hs, hi, hm => by
    cases hq : s.q with
    | nil =>
      refine ⟨s, p, ?_, hs, hi.pend ?_⟩
      · simp only [dijLoop, hq]
      · intro l f t e hP
        rcases hP with ⟨_, _, _, hm⟩ | hm
        · rw [hq] at hm; simp at hm
        · simp at hm
    | cons x q =>
      have hk : pick fuel (x :: q) % (x :: q).length < (x :: q).length := Nat.mod_lt _ (by simp)
      generalize hkk : pick fuel (x :: q) % (x :: q).length = k at hk
      have hmem : (x :: q).getD k x ∈ x :: q := by
        have : (x :: q).getD k x = (x :: q)[k] := by rw [List.getD, List.getElem?_eq_getElem hk]; rfl
        rw [this]; exact List.getElem_mem hk
      generalize hvv : (x :: q).getD k x = y at hmem
      have hv : y.1 ∈ nodeIds g := hs.q y (by rw [hq]; exact hmem)
      obtain ⟨ls, hls, hiff⟩ := hc.inc _ hv
      obtain ⟨td, htd⟩ := Option.isSome_iff_exists.1 (hs.dist _ hv)
      have hlab : lab s.dist y.1 = td := by simp [lab, htd]
      obtain ⟨s1, p1, e1, h1, i1, m1⟩ := dijRelaxAll_spec hc (v := y.1) (td := td) (dest := dest) (o0 := o0) ls
        { s with
          q := (x :: q).eraseIdx k } p
        ⟨hs.dist, fun z hz => hs.q z (by rw [hq]; exact List.mem_of_mem_eraseIdx hz)⟩ hlab
        (fun l hl => (hiff l).1 hl) (hi.pend (by
          intro l f t e hP
          rcases hP with ⟨f2, t2, e2, hm⟩ | hm
          · rw [hq, List.mem_map] at hm
            obtain ⟨z, hz, rfl⟩ := hm
            rcases mem_of_eraseIdx (x := x) hk hz with hz | hz
            · rw [hvv] at hz
              subst hz
              exact Or.inl (Or.inr ((hiff l).2 ⟨f2, e2⟩))
            · exact Or.inl (Or.inl ⟨f2, z.1, e2, List.mem_map_of_mem hz⟩)
          · simp at hm))
      obtain ⟨s2, p2, e2, h2, i2⟩ := dijLoop_spec hc pick fuel s1 p1 h1 i1 (by
        rw [hq] at hm
        simp only [List.length_cons] at hm
        rw [List.length_eraseIdx, if_pos hk, List.length_cons] at m1
        simp only at m1
        omega)
      refine ⟨s2, p2, ?_, h2, i2⟩
      simp only [dijLoop, hq, hkk, hvv, hls, Res.bind_ok', htd, Option.getD_some, e1]
      exact e2

theorem dijkstra_spec (hc : Ctx g cost w) (hd : dest ∈ nodeIds g) (out : ℤ → Option ℤ) :
    ∃ n0, ∀ pick fuel, n0 ≤ fuel → ∃ s p, dijkstra pick fuel g dest cost out = .ok s ∧ DijOk g s ∧
      Inv g w dest (dijInit g dest out).out (lab s.dist) s.out p (fun _ => False) := by
  refine ⟨meas g w (lab (dijInit g dest out).dist) + (dijInit g dest out).q.length + 1,
    fun pick fuel hf => ?_⟩
  refine dijLoop_spec hc pick fuel _ (fun _ => []) ⟨?_, ?_⟩ ?_ (by omega)
  · intro v hv; by_cases h : v = dest <;> simp [dijInit, h, hv]
  · intro x hx; simp only [dijInit, List.mem_singleton] at hx; rw [hx]; exact hd
  · refine inv_init hd (by simp [lab, dijInit]) ?_ _ ?_
    · intro v hv
      by_cases h : v ∈ nodeIds g <;> simp [lab, dijInit, hv, h]
    · intro l f e; exact Or.inl ⟨f, dest, e, by simp [dijInit]⟩

end

end Verif.Sp

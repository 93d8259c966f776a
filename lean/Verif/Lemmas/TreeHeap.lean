import Verif.Spec.TreeHeap

/-! # Lemmas about the life of trees -/

namespace Verif.TH

/-- The memory holds exactly the trees of `C`, each with one pointer to it. -/
structure Good (C : ℕ → Slot → Option (List Item)) (s : State) : Prop where
  null : ∀ l sl, C l sl = none → s.ptr l sl = none
  tree : ∀ l sl h, C l sl = some h → ∃ a, s.ptr l sl = some a ∧ s.heap a = some h
  inj : ∀ l sl l' sl' a, s.ptr l sl = some a → s.ptr l' sl' = some a → l = l' ∧ sl = sl'
  live : ∀ a, s.heap a ≠ none → ∃ l sl, s.ptr l sl = some a
  fresh : ∀ a, s.heap a ≠ none → a < s.next

theorem Good.heap {C : ℕ → Slot → Option (List Item)} {s : State} (g : Good C s) {l : ℕ} {sl : Slot} {a : ℕ}
    (h : s.ptr l sl = some a) : s.heap a = C l sl ∧ C l sl ≠ none := by
  cases hc : C l sl with
  | none => rw [g.null l sl hc] at h; cases h
  | some x =>
    obtain ⟨b, h1, h2⟩ := g.tree l sl x hc
    rw [h] at h1; cases h1
    exact ⟨h2, by simp⟩

theorem Good.init : Good (fun _ _ => none) State.init :=
  ⟨fun _ _ _ => rfl, by simp, by simp [State.init], by simp [State.init], by simp [State.init]⟩

theorem Good.alloc {C : ℕ → Slot → Option (List Item)} {s : State} (g : Good C s) (l : ℕ) (sl : Slot) (hn : C l sl = none) :
    Good (upd C l (upd (C l) sl (some []))) (alloc l sl s) := by
  have hlt : ∀ {m t a}, s.ptr m t = some a → a < s.next := fun h => g.fresh _ (by rw [(g.heap h).1]; exact (g.heap h).2)
  have hp : ∀ m t, (TH.alloc l sl s).ptr m t = if m = l ∧ t = sl then some s.next else s.ptr m t := by
    intro m t
    simp only [TH.alloc]
    by_cases hm : m = l
    · subst hm
      rw [upd_same]
      by_cases ht : t = sl
      · subst ht; rw [upd_same, if_pos ⟨rfl, rfl⟩]
      · rw [upd_other _ _ _ _ ht, if_neg (fun h => ht h.2)]
    · rw [upd_other _ _ _ _ hm, if_neg (fun h => hm h.1)]
  have hC : ∀ m t, upd C l (upd (C l) sl (some [])) m t = if m = l ∧ t = sl then some [] else C m t := by
    intro m t
    by_cases hm : m = l
    · subst hm
      rw [upd_same]
      by_cases ht : t = sl
      · subst ht; rw [upd_same, if_pos ⟨rfl, rfl⟩]
      · rw [upd_other _ _ _ _ ht, if_neg (fun h => ht h.2)]
    · rw [upd_other _ _ _ _ hm, if_neg (fun h => hm h.1)]
  have hh : ∀ a, a ≠ s.next → (TH.alloc l sl s).heap a = s.heap a := fun a ha => upd_other _ _ _ _ ha
  have hh' : (TH.alloc l sl s).heap s.next = some [] := upd_same _ _ _
  refine ⟨fun m t h => ?_, fun m t x h => ?_, fun m t m' t' a h h' => ?_, fun a ha => ?_, fun a ha => ?_⟩
  · rw [hC] at h; rw [hp]
    split_ifs at h ⊢ with hi
    exact g.null m t h
  · rw [hC] at h; rw [hp]
    split_ifs at h ⊢ with hi
    · exact ⟨s.next, rfl, by rw [hh']; exact h⟩
    · obtain ⟨a, h1, h2⟩ := g.tree m t x h
      exact ⟨a, h1, by rw [hh a (hlt h1).ne]; exact h2⟩
  · rw [hp] at h h'
    split_ifs at h h' with h1 h2 h2
    · exact ⟨h1.1.trans h2.1.symm, h1.2.trans h2.2.symm⟩
    · simp only [Option.some.injEq] at h; subst h
      exact absurd (hlt h') (lt_irrefl _)
    · simp only [Option.some.injEq] at h'; subst h'
      exact absurd (hlt h) (lt_irrefl _)
    · exact g.inj m t m' t' a h h'
  · by_cases hx : a = s.next
    · subst hx; exact ⟨l, sl, by rw [hp, if_pos ⟨rfl, rfl⟩]⟩
    · rw [hh a hx] at ha
      obtain ⟨m, t, h⟩ := g.live a ha
      refine ⟨m, t, ?_⟩
      rw [hp, if_neg]; exact h
      rintro ⟨rfl, rfl⟩
      rw [g.null _ _ hn] at h; cases h
  · by_cases hx : a = s.next
    · subst hx; exact Nat.lt_succ_self _
    · rw [hh a hx] at ha
      exact Nat.lt_succ_of_lt (g.fresh a ha)

/-- The state in which the pointers of link `l` are null. -/
def State.strip (s : State) (l : ℕ) : State := { s with ptr := upd s.ptr l fun _ => none }

/-- Freeing the trees of some pointers of a link. -/
theorem dels_ok {C : ℕ → Slot → Option (List Item)} {s : State} (g : Good C s) (l : ℕ) {sls : List Slot} (hnd : sls.Nodup)
    (hall : ∀ sl, C l sl ≠ none → sl ∈ sls) :
    ∃ s', dels l sls s = .ok s' ∧ s'.ptr = s.ptr ∧ s'.next = s.next ∧ Good (upd C l fun _ => none) (s'.strip l) := by
  have key : ∀ (sls : List Slot) (t : State), sls.Nodup → t.ptr = s.ptr → t.next = s.next →
      (∀ sl ∈ sls, ∀ a, s.ptr l sl = some a → t.heap a = s.heap a) →
      ∃ s', dels l sls t = .ok s' ∧ s'.ptr = s.ptr ∧ s'.next = s.next ∧
        (∀ a, (∃ sl ∈ sls, s.ptr l sl = some a) → s'.heap a = none) ∧
        ∀ a, (∀ sl ∈ sls, s.ptr l sl ≠ some a) → s'.heap a = t.heap a := by
    intro sls
    induction sls with
    | nil => intro t _ h1 h2 _; exact ⟨t, rfl, h1, h2, by simp, by simp⟩
    | cons sl sls ih =>
      intro t hn h1 h2 h3
      obtain ⟨hn1, hn2⟩ := List.nodup_cons.1 hn
      cases hp : s.ptr l sl with
      | none =>
        obtain ⟨s', q1, q2, q3, q4, q5⟩ := ih t hn2 h1 h2 fun x hx => h3 x (by simp [hx])
        refine ⟨s', ?_, q2, q3, ?_, ?_⟩
        · unfold dels at q1 ⊢
          rw [Res.foldlM_cons, h1, hp]
          exact q1
        · rintro a ⟨x, hx, hxa⟩
          rcases List.mem_cons.1 hx with rfl | hx
          · rw [hp] at hxa; cases hxa
          · exact q4 a ⟨x, hx, hxa⟩
        · intro a ha
          exact q5 a fun x hx => ha x (by simp [hx])
      | some b =>
        have hb : t.heap b = s.heap b := h3 sl (by simp) b hp
        have hb' := g.heap hp
        obtain ⟨x, hx⟩ := Option.ne_none_iff_exists'.1 hb'.2
        have hdel : del (t.ptr l sl) t = .ok { t with heap := upd t.heap b none } := by
          unfold del
          rw [h1, hp]
          simp only [hb, hb'.1, hx]
        obtain ⟨s', q1, q2, q3, q4, q5⟩ := ih { t with heap := upd t.heap b none } hn2 h1 h2 (by
          intro y hy a ha
          have : a ≠ b := fun e => by
            subst e
            have := (g.inj l sl l y a hp ha).2
            exact hn1 (this ▸ hy)
          simp only [upd_other _ _ _ _ this]
          exact h3 y (by simp [hy]) a ha)
        refine ⟨s', ?_, q2, q3, ?_, ?_⟩
        · unfold dels at q1 ⊢
          rw [Res.foldlM_cons, hdel, Res.ok_bind]
          exact q1
        · rintro a ⟨y, hy, hya⟩
          by_cases hin : ∃ sl ∈ sls, s.ptr l sl = some a
          · exact q4 a hin
          · rw [q5 a fun z hz e => hin ⟨z, hz, e⟩]
            rcases List.mem_cons.1 hy with rfl | hy
            · rw [hp] at hya; cases hya
              exact upd_same _ _ _
            · exact absurd ⟨y, hy, hya⟩ hin
        · intro a ha
          rw [q5 a fun z hz => ha z (by simp [hz])]
          have : a ≠ b := fun e => ha sl (by simp) (e ▸ hp)
          exact upd_other _ _ _ _ this
  obtain ⟨s', q1, q2, q3, q4, q5⟩ := key sls s hnd rfl rfl fun _ _ _ _ => rfl
  refine ⟨s', q1, q2, q3, ?_⟩
  have hp : ∀ m t, (s'.strip l).ptr m t = if m = l then none else s.ptr m t := by
    intro m t
    simp only [State.strip]
    by_cases hm : m = l
    · subst hm; simp
    · rw [upd_other _ _ _ _ hm, q2, if_neg hm]
  have hC : ∀ m t, upd C l (fun _ => none) m t = if m = l then none else C m t := by
    intro m t
    by_cases hm : m = l
    · subst hm; simp
    · rw [upd_other _ _ _ _ hm, if_neg hm]
  have hkeep : ∀ a, (s'.strip l).heap a ≠ none → s.heap a ≠ none ∧ ∀ sl, s.ptr l sl ≠ some a := by
    intro a ha
    have hno : ¬ ∃ sl ∈ sls, s.ptr l sl = some a := fun h => ha (q4 a h)
    refine ⟨?_, fun sl h => hno ⟨sl, hall sl (g.heap h).2, h⟩⟩
    have := q5 a fun z hz e => hno ⟨z, hz, e⟩
    rw [← this]; exact ha
  refine ⟨fun m t h => ?_, fun m t x h => ?_, fun m t m' t' a h h' => ?_, fun a ha => ?_, fun a ha => ?_⟩
  · rw [hC] at h; rw [hp]
    split_ifs at h ⊢
    · rfl
    · exact g.null m t h
  · rw [hC] at h; rw [hp]
    split_ifs at h ⊢ with hm
    obtain ⟨a, h1, h2⟩ := g.tree m t x h
    refine ⟨a, h1, ?_⟩
    have : (s'.strip l).heap a = s.heap a := q5 a fun z _ e => hm (g.inj m t l z a h1 e).1
    rw [this, h2]
  · rw [hp] at h h'
    split_ifs at h h'
    exact g.inj m t m' t' a h h'
  · obtain ⟨h1, h2⟩ := hkeep a ha
    obtain ⟨m, t, h⟩ := g.live a h1
    refine ⟨m, t, ?_⟩
    rw [hp, if_neg]; exact h
    rintro rfl; exact h2 t h
  · have : (s'.strip l).next = s.next := q3
    rw [this]
    exact g.fresh a (hkeep a ha).1

theorem strip_alloc (s : State) (l : ℕ) (sl : Slot) (h : ∀ t, t ≠ sl → s.ptr l t = none) :
    alloc l sl (s.strip l) = alloc l sl s := by
  unfold alloc State.strip
  simp only [State.mk.injEq, and_true]
  funext m t
  by_cases hm : m = l
  · subst hm
    by_cases ht : t = sl
    · subst ht; simp
    · simp [upd_other _ _ _ _ ht, h t ht]
  · simp [upd_other _ _ _ _ hm]

theorem strip_alloc2 (s : State) (l : ℕ) (sl sl' : Slot) (h : ∀ t, t ≠ sl → t ≠ sl' → s.ptr l t = none) :
    alloc l sl' (alloc l sl (s.strip l)) = alloc l sl' (alloc l sl s) := by
  unfold alloc State.strip
  simp only [State.mk.injEq, and_true]
  funext m t
  by_cases hm : m = l
  · subst hm
    by_cases ht' : t = sl'
    · subst ht'; simp
    · by_cases ht : t = sl
      · subst ht; simp [upd_other _ _ _ _ ht']
      · simp [upd_other _ _ _ _ ht, upd_other _ _ _ _ ht', h t ht ht']
  · simp [upd_other _ _ _ _ hm]

/-- Installing fresh trees. -/
theorem install_ok {kind : ℕ → Kind} {C : ℕ → Slot → Option (List Item)} {s : State} (g : Good C s) (l : ℕ)
    (hC : ∀ sl, (kind l).has sl = false → C l sl = none) (hbus : kind l = .bus → ∀ sl, C l sl = none) :
    ∃ s', install kind l s = .ok s' ∧ Good (upd C l fun sl => if (kind l).has sl then some [] else none) s' := by
  have two : ∀ {t : State} {a b : Slot}, a ≠ b → (∀ sl, (kind l).has sl = true ↔ sl = a ∨ sl = b) →
      (∀ x, x ≠ a → x ≠ b → t.ptr l x = none) → Good (upd C l fun _ => none) (t.strip l) →
      Good (upd C l fun sl => if (kind l).has sl then some [] else none) (alloc l b (alloc l a t)) := by
    intro t a b hab hk hp hg
    have g2 := (hg.alloc l a (by simp)).alloc l b (by simp [upd_other _ _ _ _ hab.symm])
    rw [strip_alloc2 _ _ _ _ hp] at g2
    convert g2 using 1
    funext m x
    by_cases hm : m = l
    · subst hm
      simp only [upd_same]
      by_cases hb : x = b
      · subst hb; simp [(hk x).2]
      · rw [upd_other _ _ _ _ hb]
        by_cases ha : x = a
        · subst ha; simp [(hk x).2]
        · rw [upd_other _ _ _ _ ha, if_neg (fun h => by rcases (hk x).1 h with h | h <;> contradiction)]
    · simp [upd_other _ _ _ _ hm]
  cases hk : kind l with
  | single =>
    obtain ⟨t, q1, q2, _, q4⟩ := dels_ok g l (sls := [.inA, .outA]) (by decide) (fun sl h => by
      cases sl <;> simp_all [Kind.has])
    refine ⟨alloc l .outA (alloc l .inA t), by unfold install; rw [hk]; simp only [q1, Res.bind_ok'], ?_⟩
    rw [← hk]
    exact two (by decide) (fun sl => by rw [hk]; cases sl <;> simp [Kind.has]) (fun x h1 h2 => by
      rw [q2]; exact g.null _ _ (hC x (by rw [hk]; cases x <;> simp_all [Kind.has]))) q4
  | twoClass =>
    obtain ⟨t, q1, q2, _, q4⟩ := dels_ok g l (sls := [.outA, .inA, .outB, .inB]) (by decide) (fun sl h => by
      cases sl <;> simp)
    refine ⟨alloc l .inB (alloc l .inA t), by unfold install; rw [hk]; simp only [q1, Res.bind_ok'], ?_⟩
    rw [← hk]
    exact two (by decide) (fun sl => by rw [hk]; cases sl <;> simp [Kind.has]) (fun x h1 h2 => by
      rw [q2]; exact g.null _ _ (hC x (by rw [hk]; cases x <;> simp_all [Kind.has]))) q4
  | walking =>
    obtain ⟨t, q1, q2, _, q4⟩ := dels_ok g l (sls := [.inA, .outA]) (by decide) (fun sl h => by
      cases sl <;> simp_all [Kind.has])
    refine ⟨alloc l .inA t, by unfold install; rw [hk]; simp only [q1, Res.bind_ok'], ?_⟩
    have g2 := q4.alloc l .inA (by simp)
    rw [strip_alloc _ _ _ (fun x h1 => by
      rw [q2]; exact g.null _ _ (hC x (by rw [hk]; cases x <;> simp_all [Kind.has])))] at g2
    convert g2 using 1
    funext m x
    by_cases hm : m = l
    · subst hm
      simp only [upd_same]
      cases x <;> simp [Kind.has, upd]
    · simp [upd_other _ _ _ _ hm]
  | bus =>
    have hn : ∀ sl, C l sl = none := hbus hk
    have hp : ∀ sl, s.ptr l sl = none := fun sl => g.null _ _ (hn sl)
    obtain ⟨t, q1, q2, _, q4⟩ := dels_ok g l (sls := [.inA, .outA]) (by decide) (fun sl h => absurd (hn sl) h)
    have hp' : ∀ sl, sl ≠ .inA → (alloc l .inA t).ptr l sl = none := fun sl h => by
      simp only [alloc, upd_same, upd_other _ _ _ _ h, q2, hp]
    refine ⟨alloc l .inB (alloc l .inA t), ?_, ?_⟩
    · unfold install
      rw [hk]
      simp only [q1, Res.bind_ok', hp' .inB (by decide), hp' .outB (by decide), ne_eq, not_true, if_false]
    · rw [← hk]
      exact two (by decide) (fun sl => by rw [hk]; cases sl <;> simp [Kind.has]) (fun x _ _ => by rw [q2, hp]) q4

theorem flow_ok {C : ℕ → Slot → Option (List Item)} {s : State} (g : Good C s) (l : ℕ) (sl : Slot) (x : Item) :
    ∃ s', flow l sl x s = .ok s' ∧ Good (fun m t => if m = l ∧ t = sl then (C m t).map (· ++ [x]) else C m t) s' := by
  cases hp : s.ptr l sl with
  | none =>
    refine ⟨s, by unfold flow; rw [hp], ?_⟩
    have hn : C l sl = none := by
      cases hc : C l sl with
      | none => rfl
      | some h => obtain ⟨a, h1, _⟩ := g.tree l sl h hc; rw [hp] at h1; cases h1
    convert g using 1
    funext m t
    split_ifs with h
    · rw [h.1, h.2, hn]; rfl
    · rfl
  | some a =>
    obtain ⟨h1, h2⟩ := g.heap hp
    obtain ⟨y, hy⟩ := Option.ne_none_iff_exists'.1 h2
    refine ⟨{ s with heap := upd s.heap a (some (y ++ [x])) }, by unfold flow; rw [hp]; simp only [h1, hy], ?_⟩
    refine ⟨fun m t h => ?_, fun m t z h => ?_, g.inj, fun b hb => ?_, fun b hb => ?_⟩
    · dsimp only at h ⊢
      split_ifs at h with hi
      · exact g.null m t (by simpa using h)
      · exact g.null m t h
    · dsimp only at h ⊢
      split_ifs at h with hi
      · obtain ⟨rfl, rfl⟩ := hi
        rw [hy] at h
        simp only [Option.map_some, Option.some.injEq] at h
        subst h
        exact ⟨a, hp, by rw [upd_same]⟩
      · obtain ⟨b, q1, q2⟩ := g.tree m t z h
        refine ⟨b, q1, ?_⟩
        rw [upd_other _ _ _ _ (fun e => by subst e; exact hi (g.inj m t l sl b q1 hp))]
        exact q2
    · by_cases e : b = a
      · subst e; exact ⟨l, sl, hp⟩
      · simp only [upd_other _ _ _ _ e] at hb; exact g.live b hb
    · by_cases e : b = a
      · subst e; exact g.fresh b (by rw [h1, hy]; simp)
      · simp only [upd_other _ _ _ _ e] at hb; exact g.fresh b hb

/-- What the trees should hold. -/
def content (kind : ℕ → Kind) (C : ℕ → Slot → Option (List Item)) : Op → ℕ → Slot → Option (List Item)
  | .install l => upd C l fun sl => if (kind l).has sl then some [] else none
  | .flow l sl x => fun m t => if m = l ∧ t = sl then (C m t).map (· ++ [x]) else C m t

theorem run_ok {kind : ℕ → Kind} : ∀ (ops : List Op) (C : ℕ → Slot → Option (List Item)) (s : State), Good C s →
    (∀ l sl, (kind l).has sl = false → C l sl = none) → BusOnce kind ops →
    (∀ l, kind l = .bus → Op.install l ∈ ops → ∀ sl, C l sl = none) →
    ∃ s', run kind s ops = .ok s' ∧ Good (ops.foldl (content kind) C) s'
  | [], C, s, g, _, _, _ => ⟨s, rfl, g⟩
  | o :: ops, C, s, g, hC, h1, hb => by
    have h1' : BusOnce kind ops := fun l hl => le_trans (List.count_le_count_cons ..) (h1 l hl)
    cases o with
    | install l =>
      obtain ⟨s1, q1, q2⟩ := install_ok (kind := kind) g l (hC l) fun hk => hb l hk (by simp)
      obtain ⟨s', q3, q4⟩ := run_ok ops _ s1 q2 (fun m sl hs => by
          by_cases hm : m = l
          · subst hm; simp [hs]
          · rw [upd_other _ _ _ _ hm]; exact hC m sl hs) h1' (fun m hk hm sl => by
          by_cases e : m = l
          · subst e
            have := h1 m hk
            rw [List.count_cons_self] at this
            exact absurd (List.count_pos_iff.2 hm) (by omega)
          · rw [upd_other _ _ _ _ e]; exact hb m hk (by simp [hm]) sl)
      refine ⟨s', ?_, q4⟩
      unfold run at q3 ⊢
      rw [Res.foldlM_cons]
      show (install kind l s >>= _) = _
      rw [q1, Res.ok_bind]
      exact q3
    | flow l sl x =>
      obtain ⟨s1, q1, q2⟩ := flow_ok g l sl x
      obtain ⟨s', q3, q4⟩ := run_ok ops _ s1 q2 (fun m t hs => by
          split_ifs with h
          · rw [hC m t hs]; rfl
          · exact hC m t hs) h1' (fun m hk hm t => by
          split_ifs with h
          · rw [hb m hk (by simp [hm]) t]; rfl
          · exact hb m hk (by simp [hm]) t)
      refine ⟨s', ?_, q4⟩
      unfold run at q3 ⊢
      rw [Res.foldlM_cons]
      show (flow l sl x s >>= _) = _
      rw [q1, Res.ok_bind]
      exact q3

theorem content_after {kind : ℕ → Kind} {l : ℕ} {sl : Slot} : ∀ (b : List Op) (C : ℕ → Slot → Option (List Item)),
    Op.install l ∉ b → (b.foldl (content kind) C) l sl = (C l sl).map (· ++ flows l sl b)
  | [], C, _ => by simp [flows]
  | o :: b, C, h => by
    have hb : Op.install l ∉ b := fun hx => h (by simp [hx])
    rw [List.foldl_cons, content_after b _ hb]
    cases o with
    | install m =>
      have hm : l ≠ m := fun e => h (by simp [e])
      simp [content, upd_other _ _ _ _ hm, flows]
    | flow m t x =>
      simp only [content, flows, List.filterMap_cons]
      by_cases hc : l = m ∧ sl = t
      · obtain ⟨rfl, rfl⟩ := hc
        cases C l sl <;> simp
      · rw [if_neg hc, if_neg (fun e => hc ⟨e.1.symm, e.2.symm⟩)]

/-- Destroying links frees their trees. -/
theorem destroyAll_ok {kind : ℕ → Kind} : ∀ (ls : List ℕ) (C : ℕ → Slot → Option (List Item)) (s t : State), Good C t → ls.Nodup →
    (∀ l sl, (kind l).has sl = false → C l sl = none) → t.heap = s.heap → (∀ l ∈ ls, t.ptr l = s.ptr l) →
    ∃ s', destroyAll kind s ls = .ok s' ∧ ∀ a, s'.heap a ≠ none → ∃ l sl, l ∉ ls ∧ t.ptr l sl = some a
  | [], C, s, t, g, _, _, h1, _ => ⟨s, rfl, fun a ha => by
      obtain ⟨l, sl, h⟩ := g.live a (by rw [h1]; exact ha)
      exact ⟨l, sl, by simp, h⟩⟩
  | l :: ls, C, s, t, g, hnd, hC, h1, h2 => by
    obtain ⟨n1, n2⟩ := List.nodup_cons.1 hnd
    have key : ∀ sls : List Slot, sls.Nodup → (∀ sl, C l sl ≠ none → sl ∈ sls) → destroy kind l s = dels l sls s →
        ∃ s', destroyAll kind s (l :: ls) = .ok s' ∧ ∀ a, s'.heap a ≠ none → ∃ m sl, m ∉ l :: ls ∧ t.ptr m sl = some a := by
      intro sls hs hall hd
      have hsame : ∀ (sls : List Slot) (u v w : State), u.heap = v.heap → u.ptr l = v.ptr l → dels l sls u = .ok w →
          ∃ w', dels l sls v = .ok w' ∧ w.heap = w'.heap ∧ w.ptr = u.ptr ∧ w'.ptr = v.ptr := by
        intro sls
        induction sls with
        | nil =>
          intro u v w h1 h2 h
          unfold dels at h
          rw [Res.foldlM_nil] at h
          simp only [Res.ok.injEq] at h
          subst h
          exact ⟨v, rfl, h1, rfl, rfl⟩
        | cons sl sls ih =>
          intro u v w h1 h2 h
          unfold dels at h ⊢
          rw [Res.foldlM_cons, Res.bind_eq_ok] at h
          obtain ⟨u1, q1, q2⟩ := h
          unfold del at q1
          rw [h2] at q1
          cases hp : v.ptr l sl with
          | none =>
            rw [hp] at q1
            simp only [Res.ok.injEq] at q1
            subst q1
            obtain ⟨w', r1, r2⟩ := ih u v w h1 h2 q2
            refine ⟨w', ?_, r2⟩
            rw [Res.foldlM_cons, hp]
            exact r1
          | some a =>
            rw [hp] at q1
            simp only at q1
            cases hh : u.heap a with
            | none => rw [hh] at q1; cases q1
            | some y =>
              rw [hh] at q1
              simp only [Res.ok.injEq] at q1
              subst q1
              obtain ⟨w', r1, r2, r3, r4⟩ := ih { u with heap := upd u.heap a none } { v with heap := upd v.heap a none } w (by simp only [h1]) h2 q2
              refine ⟨w', ?_, r2, r3, r4⟩
              rw [Res.foldlM_cons]
              have : del (v.ptr l sl) v = .ok { v with heap := upd v.heap a none } := by
                unfold del; rw [hp]; simp only [← h1, hh]
              rw [this, Res.ok_bind]
              exact r1
      obtain ⟨w, q1, q2, q3, q4⟩ := dels_ok g l hs hall
      obtain ⟨w', r1, r2, r3, r4⟩ := hsame sls t s w h1 (h2 l (by simp)) q1
      obtain ⟨s', p1, p2⟩ := destroyAll_ok ls _ w' (w.strip l) q4 n2 (fun m sl hm => by
          by_cases e : m = l
          · subst e; simp
          · rw [upd_other _ _ _ _ e]; exact hC m sl hm) r2 (fun m hm => by
          have e : m ≠ l := fun e => n1 (e ▸ hm)
          simp only [State.strip, upd_other _ _ _ _ e, r3, r4]
          exact h2 m (by simp [hm]))
      refine ⟨s', ?_, fun a ha => ?_⟩
      · unfold destroyAll at p1 ⊢
        rw [Res.foldlM_cons, hd, r1, Res.ok_bind]
        exact p1
      · obtain ⟨m, sl, h3, h4⟩ := p2 a ha
        have e : m ≠ l := by
          rintro rfl
          simp [State.strip] at h4
        refine ⟨m, sl, by simp [e, h3], ?_⟩
        simpa [State.strip, upd_other _ _ _ _ e, r3] using h4
    cases hk : kind l with
    | single => exact key [.inA, .outA] (by decide) (fun sl h => by
        have := hC l sl; rw [hk] at this; cases sl <;> simp_all [Kind.has]) (by unfold destroy; rw [hk])
    | twoClass => exact key [.outA, .inA, .outB, .inB] (by decide) (fun sl h => by cases sl <;> simp) (by unfold destroy; rw [hk])
    | walking => exact key [.inA, .outA] (by decide) (fun sl h => by
        have := hC l sl; rw [hk] at this; cases sl <;> simp_all [Kind.has]) (by unfold destroy; rw [hk])
    | bus => exact key [.inB, .outB, .inA, .outA] (by decide) (fun sl h => by cases sl <;> simp) (by unfold destroy; rw [hk])

end Verif.TH

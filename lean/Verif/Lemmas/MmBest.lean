import Verif.Spec.MmBest

namespace Verif.MmBest

open MmDue

theorem del_plain (h : Heap) (n a : ℕ) (ha : h.objs a = some .plain) : del (n + 1) h a = .ok (h.drop a) := by
  simp [del, ha]

theorem del_one (h : Heap) (n a b : ℕ) (ha : h.objs a = some .plain) (hb : h.objs b = some (.one a)) :
    del (n + 2) h b = .ok ((h.drop a).drop b) := by
  rw [show n + 2 = (n + 1) + 1 from rfl, del, hb]
  simp [del_plain h n a ha, Res.bind_ok']

/-- Any deletion of a passenger path of park and ride deletes its paths twice. -/
theorem del_pnr (h : Heap) (d b p dp bp pp : ℕ) (hd : h.objs d = some .plain) (hb : h.objs b = some .plain)
    (hp : h.objs p = some (.pair d b)) (hdp : h.objs dp = some (.one d)) (hbp : h.objs bp = some (.one b))
    (hpp : h.objs pp = some (.pnr p dp bp)) (hdb : d ≠ b) : del depth h pp = .ub := by
  have ne : ∀ {x y : ℕ} {u v : Obj}, h.objs x = some u → h.objs y = some v → u ≠ v → x ≠ y := by
    intro x y u v hx hy huv e
    subst e
    rw [hx] at hy
    exact huv (Option.some.inj hy)
  have e1 := ne hb hdp (by simp)
  have e2 := ne hbp hd (by simp)
  have e3 := ne hbp hdp (by simp [Ne.symm hdb])
  have e4 := ne hp hd (by simp)
  have e5 := ne hp hdp (by simp)
  have e6 := ne hp hb (by simp)
  have e7 := ne hp hbp (by simp)
  rw [depth, del, hpp]
  simp only
  rw [show (3 : ℕ) = 1 + 2 from rfl, del_one h 1 d dp hd hdp, Res.bind_ok']
  rw [del_one ((h.drop d).drop dp) 1 b bp (by simp [Heap.drop, upd, e1, Ne.symm hdb, hb])
    (by simp [Heap.drop, upd, e2, e3, hbp]), Res.bind_ok', del]
  simp only [Heap.drop]
  rw [show (upd (upd (upd (upd h.objs d none) dp none) b none) bp none) p = some (.pair d b) by
    simp [upd, e4, e5, e6, e7, hp]]
  simp only
  rw [del]
  have : (upd (upd (upd (upd h.objs d none) dp none) b none) bp none) d = none := by
    simp only [upd]
    split_ifs <;> first | rfl | simp_all
  simp only [this]
  rfl

/-- What a driving or transit search does for one departure: nothing, or two new objects. -/
def Two (gen : Heap → Res (Option New × Heap)) (off : Option (Route × Sp.Cost)) : Prop :=
  ∀ h : Heap, gen h = match off with
    | none => .ok (none, h)
    | some x => .ok (some ⟨h.next + 1, x.1, x.2⟩, (h.alloc .plain).alloc (.one h.next))

theorem two_driving (e : Env) (i : ℕ) (o : Option (Route × Sp.Cost)) (ho : offerDriving e i = .ok o) :
    Two (newDriving e i) o := by
  intro h
  rw [offerDriving] at ho
  obtain ⟨r, hr, ho⟩ := Res.bind_eq_ok'.1 ho
  obtain ⟨q, hq, ho⟩ := Res.bind_eq_ok'.1 ho
  obtain ⟨c, hc, ho⟩ := Res.bind_eq_ok'.1 ho
  cases ho
  simp [newDriving, hr, hq, hc, Res.bind_ok', Heap.alloc]

theorem two_bus (e : Env) (i : ℕ) (o : Option (Route × Sp.Cost)) (ho : offerBus e i = .ok o) :
    Two (newBus e i) o := by
  intro h
  rw [offerBus] at ho
  by_cases hd : e.treeBus.dist e.o (if i < e.mBus then i else e.mBus - 1) = ⊤
  · rw [if_pos hd] at ho
    cases ho
    rw [newBus, if_pos hd]
  · rw [if_neg hd] at ho
    obtain ⟨r, hr, ho⟩ := Res.bind_eq_ok'.1 ho
    obtain ⟨q, hq, ho⟩ := Res.bind_eq_ok'.1 ho
    obtain ⟨c, hc, ho⟩ := Res.bind_eq_ok'.1 ho
    cases ho
    rw [newBus, if_neg hd]
    simp [hr, hq, hc, Res.bind_ok', Heap.alloc]

/-- Among the offers met so far the first cheapest is kept. -/
def First (offs : List (ℕ × Option (Route × Sp.Cost))) : Option Best → Prop
  | none => ∀ i r c, (i, some (r, c)) ∈ offs → c = ⊤
  | some b => b.cost < ⊤ ∧ ∃ pre post, offs = pre ++ (b.time, some (b.route, b.cost)) :: post ∧
      (∀ i r c, (i, some (r, c)) ∈ pre → b.cost < c) ∧ ∀ i r c, (i, some (r, c)) ∈ post → b.cost ≤ c

/-- The state of a search of driving or transit. -/
structure SInv (h0 : Heap) (offs : List (ℕ × Option (Route × Sp.Cost))) (s : Option Best × Heap) : Prop where
  fresh : s.2.Fresh
  mono : h0.next ≤ s.2.next
  first : First offs s.1
  owns : match s.1 with
    | none => s.2.objs = h0.objs
    | some b => ∃ a, h0.next ≤ a ∧ b.ptr = a + 1 ∧
        s.2.objs = upd (upd h0.objs a (some .plain)) (a + 1) (some (.one a))

theorem first_cost (offs : List (ℕ × Option (Route × Sp.Cost))) (b : Option Best) (h : First offs b) (i : ℕ)
    (r : Route) (c : Sp.Cost) (hm : (i, some (r, c)) ∈ offs) : costOf b ≤ c := by
  cases b with
  | none => rw [h i r c hm]; exact le_top
  | some b =>
    obtain ⟨_, pre, post, rfl, h1, h2⟩ := h
    simp only [List.mem_append, List.mem_cons, Prod.mk.injEq, Option.some.injEq] at hm
    rcases hm with hm | ⟨_, _, rfl⟩ | hm
    · exact (h1 i r c hm).le
    · exact le_rfl
    · exact h2 i r c hm

theorem first_skip (offs : List (ℕ × Option (Route × Sp.Cost))) (b : Option Best) (h : First offs b) (i : ℕ)
    (o : Option (Route × Sp.Cost)) (ho : ∀ r c, o = some (r, c) → costOf b ≤ c) : First (offs ++ [(i, o)]) b := by
  cases b with
  | none =>
    intro j r c hm
    simp only [List.mem_append, List.mem_singleton, Prod.mk.injEq] at hm
    rcases hm with hm | ⟨_, hm⟩
    · exact h j r c hm
    · exact top_le_iff.1 (ho r c hm.symm)
  | some b =>
    obtain ⟨h0, pre, post, rfl, h1, h2⟩ := h
    refine ⟨h0, pre, post ++ [(i, o)], by simp, h1, fun j r c hm => ?_⟩
    simp only [List.mem_append, List.mem_singleton, Prod.mk.injEq] at hm
    rcases hm with hm | ⟨_, hm⟩
    · exact h2 j r c hm
    · exact ho r c hm.symm

theorem first_take (offs : List (ℕ × Option (Route × Sp.Cost))) (b : Option Best) (h : First offs b) (p i : ℕ)
    (r : Route) (c : Sp.Cost) (hc : c < costOf b) : First (offs ++ [(i, some (r, c))]) (some ⟨p, r, i, c⟩) :=
  ⟨lt_of_lt_of_le hc le_top, offs, [], rfl, fun j r' c' hm => lt_of_lt_of_le hc (first_cost offs b h j r' c' hm),
    fun _ _ _ hm => by simp at hm⟩

/-- One departure of a search of driving or transit. -/
theorem inv_step (h0 : Heap) (hf : h0.Fresh) (offs : List (ℕ × Option (Route × Sp.Cost))) (s : Option Best × Heap)
    (hs : SInv h0 offs s) (i : ℕ) (gen : Heap → Res (Option New × Heap)) (o : Option (Route × Sp.Cost))
    (hg : Two gen o) :
    ∃ s', ((gen s.2).bind fun r => match r.1 with
      | none => Res.ok (s.1, r.2)
      | some x => keep s.1 x i r.2) = .ok s' ∧ SInv h0 (offs ++ [(i, o)]) s' := by
  obtain ⟨b, h⟩ := s
  obtain ⟨fresh, mono, first, owns⟩ := hs
  simp only at fresh mono first owns ⊢
  rw [hg h]
  cases o with
  | none =>
    refine ⟨(b, h), rfl, fresh, mono, first_skip offs b first i none (fun _ _ hh => by simp at hh), owns⟩
  | some x =>
    obtain ⟨r, c⟩ := x
    simp only [Res.bind_ok']
    have hn : h.objs h.next = none := fresh _ le_rfl
    have hn1 : h.objs (h.next + 1) = none := fresh _ (by omega)
    set h2 := (h.alloc .plain).alloc (.one h.next) with hh2
    have ho2 : h2.objs = upd (upd h.objs h.next (some .plain)) (h.next + 1) (some (.one h.next)) := rfl
    have hx2 : h2.next = h.next + 2 := rfl
    have fresh2 : h2.Fresh := by
      intro k hk
      rw [hx2] at hk
      rw [ho2, upd_other _ _ _ _ (by omega), upd_other _ _ _ _ (by omega)]
      exact fresh k (by omega)
    show ∃ s', keep b ⟨h.next + 1, r, c⟩ i h2 = .ok s' ∧ _
    unfold keep
    simp only
    by_cases hc : c < costOf b
    · rw [if_pos hc]
      have ft := first_take offs b first (h.next + 1) i r c hc
      cases b with
      | none =>
        exact ⟨_, rfl, fresh2, by rw [hx2]; omega, ft, h.next, mono, rfl, by rw [ho2, owns]⟩
      | some y =>
        obtain ⟨a, ha, hp, ho⟩ := owns
        have hlt : a + 1 < h.next := by
          by_contra hge
          have := fresh (a + 1) (by omega)
          rw [ho, upd_same] at this
          simp at this
        have e1 : h2.objs a = some .plain := by
          rw [ho2, upd_other _ _ _ _ (by omega), upd_other _ _ _ _ (by omega), ho, upd_other _ _ _ _ (by omega),
            upd_same]
        have e2 : h2.objs (a + 1) = some (.one a) := by
          rw [ho2, upd_other _ _ _ _ (by omega), upd_other _ _ _ _ (by omega), ho, upd_same]
        simp only [hp]
        rw [show depth = 2 + 2 from rfl, del_one h2 2 a (a + 1) e1 e2]
        have key : ((h2.drop a).drop (a + 1)).objs =
            upd (upd h0.objs h.next (some .plain)) (h.next + 1) (some (.one h.next)) := by
          simp only [Heap.drop, ho2, ho]
          funext k
          have z1 : h0.objs a = none := hf a ha
          have z2 : h0.objs (a + 1) = none := hf (a + 1) (by omega)
          by_cases k1 : k = a + 1
          · subst k1
            rw [upd_same, upd_other _ _ _ _ (by omega), upd_other _ _ _ _ (by omega), z2]
          · rw [upd_other _ _ _ _ k1]
            by_cases k2 : k = a
            · subst k2
              rw [upd_same, upd_other _ _ _ _ (by omega), upd_other _ _ _ _ (by omega), z1]
            · rw [upd_other _ _ _ _ k2]
              simp only [upd, k1, k2, if_false]
        refine ⟨_, rfl, ?_, ?_, ft, h.next, mono, rfl, key⟩
        · intro k hk
          have hk' : h.next + 2 ≤ k := hk
          show ((h2.drop a).drop (a + 1)).objs k = none
          rw [key, upd_other _ _ _ _ (by omega), upd_other _ _ _ _ (by omega)]
          exact hf k (by omega)
        · show h0.next ≤ h.next + 2
          omega
    · rw [if_neg hc]
      have fs := first_skip offs b first i (some (r, c)) (fun r' c' hh => by
        cases hh; exact not_lt.1 hc)
      have e1 : h2.objs h.next = some .plain := by rw [ho2, upd_other _ _ _ _ (by omega), upd_same]
      have e2 : h2.objs (h.next + 1) = some (.one h.next) := by rw [ho2, upd_same]
      rw [show depth = 2 + 2 from rfl, del_one h2 2 h.next (h.next + 1) e1 e2]
      have key : ((h2.drop h.next).drop (h.next + 1)).objs = h.objs := by
        simp only [Heap.drop, ho2]
        funext k
        by_cases k1 : k = h.next + 1
        · subst k1; rw [upd_same, hn1]
        · rw [upd_other _ _ _ _ k1]
          by_cases k2 : k = h.next
          · subst k2; rw [upd_same, hn]
          · simp only [upd, k1, k2, if_false]
      refine ⟨_, rfl, ?_, ?_, fs, ?_⟩
      · intro k hk
        have hk' : h.next + 2 ≤ k := hk
        show ((h2.drop h.next).drop (h.next + 1)).objs k = none
        rw [key]
        exact fresh k (by omega)
      · show h0.next ≤ h.next + 2
        omega
      · simp only
        rw [key]
        exact owns

/-- The loop of a search of driving or transit. -/
theorem search_two (h0 : Heap) (hf : h0.Fresh) (gen : ℕ → Heap → Res (Option New × Heap))
    (o : ℕ → Option (Route × Sp.Cost)) (is : List ℕ) (hg : ∀ i ∈ is, Two (gen i) (o i))
    (offs : List (ℕ × Option (Route × Sp.Cost))) (s : Option Best × Heap) (hs : SInv h0 offs s) :
    ∃ s', Res.foldlM (fun s (it : ℕ × (Heap → Res (Option New × Heap))) => (it.2 s.2).bind fun r =>
      match r.1 with
      | none => .ok (s.1, r.2)
      | some x => keep s.1 x it.1 r.2) s (is.map fun i => (i, gen i)) = .ok s' ∧
      SInv h0 (offs ++ is.map fun i => (i, o i)) s' := by
  induction is generalizing offs s with
  | nil => exact ⟨s, rfl, by simpa using hs⟩
  | cons i is ih =>
    obtain ⟨s1, h1, i1⟩ := inv_step h0 hf offs s hs i (gen i) (o i) (hg i (by simp))
    obtain ⟨s2, h2, i2⟩ := ih (fun j hj => hg j (by simp [hj])) _ s1 i1
    refine ⟨s2, ?_, by simpa using i2⟩
    rw [List.map_cons, Res.foldlM_cons]
    simp only
    rw [h1, Res.ok_bind]
    exact h2

theorem inv_init (h : Heap) (hf : h.Fresh) : SInv h [] (none, h) :=
  ⟨hf, le_rfl, fun _ _ _ hm => by simp at hm, rfl⟩

/-- Which of two results is kept. -/
def winner : Option Best → Option Best → Option Best
  | b, none => b
  | none, some x => some x
  | some y, some x => if x.cost < y.cost then some x else some y

/-- Two results are compared; the loser is deleted with its path. -/
theorem duel_two (h0 hD hB : Heap) (bD bB : Option Best) (oD oB : List (ℕ × Option (Route × Sp.Cost)))
    (hf : h0.Fresh) (iD : SInv h0 oD (bD, hD)) (iB : SInv hD oB (bB, hB)) :
    ∃ h', duel bD bB hB = .ok (winner bD bB, h') ∧ Owns h0 h' (winner bD bB) ∧ h'.Fresh := by
  obtain ⟨fD, mD, _, owD⟩ := iD
  obtain ⟨fB, mB, _, owB⟩ := iB
  simp only at fD mD owD fB mB owB
  cases bB with
  | none =>
    refine ⟨hB, by cases bD <;> rfl, ?_, fB⟩
    cases bD with
    | none => show hB.objs = h0.objs; rw [owB, owD]
    | some y =>
      obtain ⟨a, ha, hp, ho⟩ := owD
      exact ⟨a, hf a ha, by rw [hp]; exact hf _ (by omega), by omega, by rw [owB, ho, hp]⟩
  | some x =>
    obtain ⟨a', ha', hp', ho'⟩ := owB
    cases bD with
    | none =>
      refine ⟨hB, rfl, ⟨a', hf a' (by omega), by rw [hp']; exact hf _ (by omega), by omega, ?_⟩, fB⟩
      rw [ho', owD, hp']
    | some y =>
      obtain ⟨a, ha, hp, ho⟩ := owD
      have hlt : a + 1 < hD.next := by
        by_contra hge
        have := fD (a + 1) (by omega)
        rw [ho, upd_same] at this
        simp at this
      show ∃ h', (if x.cost < y.cost then (del depth hB y.ptr).bind fun h => Res.ok (some x, h)
        else (del depth hB x.ptr).bind fun h => Res.ok (some y, h)) =
          .ok (if x.cost < y.cost then some x else some y, h') ∧
          Owns h0 h' (if x.cost < y.cost then some x else some y) ∧ h'.Fresh
      have z1 : h0.objs a = none := hf a ha
      have z2 : h0.objs (a + 1) = none := hf (a + 1) (by omega)
      have z3 : h0.objs a' = none := hf a' (by omega)
      have z4 : h0.objs (a' + 1) = none := hf (a' + 1) (by omega)
      by_cases hc : x.cost < y.cost
      · simp only [if_pos hc]
        have e1 : hB.objs a = some .plain := by
          rw [ho', upd_other _ _ _ _ (by omega), upd_other _ _ _ _ (by omega), ho, upd_other _ _ _ _ (by omega),
            upd_same]
        have e2 : hB.objs (a + 1) = some (.one a) := by
          rw [ho', upd_other _ _ _ _ (by omega), upd_other _ _ _ _ (by omega), ho, upd_same]
        rw [hp, show depth = 2 + 2 from rfl, del_one hB 2 a (a + 1) e1 e2, Res.bind_ok']
        have key : ((hB.drop a).drop (a + 1)).objs =
            upd (upd h0.objs a' (some .plain)) (a' + 1) (some (.one a')) := by
          simp only [Heap.drop, ho', ho]
          funext k
          by_cases k1 : k = a + 1
          · subst k1
            rw [upd_same, upd_other _ _ _ _ (by omega), upd_other _ _ _ _ (by omega), z2]
          · rw [upd_other _ _ _ _ k1]
            by_cases k2 : k = a
            · subst k2
              rw [upd_same, upd_other _ _ _ _ (by omega), upd_other _ _ _ _ (by omega), z1]
            · rw [upd_other _ _ _ _ k2]
              simp only [upd, k1, k2, if_false]
        refine ⟨_, rfl, ⟨a', z3, by rw [hp', z4], by omega, by rw [key, hp']⟩, ?_⟩
        intro k hk
        have hk' : hB.next ≤ k := hk
        have hk2 : hB.objs k = none := fB k hk'
        simp only [Heap.drop, upd, hk2, ite_self]
      · simp only [if_neg hc]
        have e1 : hB.objs a' = some .plain := by rw [ho', upd_other _ _ _ _ (by omega), upd_same]
        have e2 : hB.objs (a' + 1) = some (.one a') := by rw [ho', upd_same]
        rw [hp', show depth = 2 + 2 from rfl, del_one hB 2 a' (a' + 1) e1 e2, Res.bind_ok']
        have key : ((hB.drop a').drop (a' + 1)).objs =
            upd (upd h0.objs a (some .plain)) (a + 1) (some (.one a)) := by
          simp only [Heap.drop, ho']
          rw [← ho]
          funext k
          by_cases k1 : k = a' + 1
          · subst k1
            rw [upd_same]
            exact (fD _ (by omega)).symm
          · rw [upd_other _ _ _ _ k1]
            by_cases k2 : k = a'
            · subst k2
              rw [upd_same]
              exact (fD _ (by omega)).symm
            · simp only [upd, k1, k2, if_false]
        refine ⟨_, rfl, ⟨a, z1, by rw [hp, z2], by omega, by rw [key, hp]⟩, ?_⟩
        intro k hk
        have hk' : hB.next ≤ k := hk
        have hk2 : hB.objs k = none := fB k hk'
        simp only [Heap.drop, upd, hk2, ite_self]

/-! ## Park and ride -/

/-- What the search of park and ride does for one departure and one lot: nothing, or six new objects. -/
def Six (gen : Heap → Res (Option New × Heap)) (off : Option (Route × Sp.Cost)) : Prop :=
  ∀ h : Heap, h.Fresh → match off with
    | none => gen h = .ok (none, ⟨h.objs, h.next + 1⟩)
    | some x => gen h = .ok (some ⟨h.next + 5, x.1, x.2⟩,
        (((((h.alloc .plain).alloc .plain).alloc (.pair h.next (h.next + 1))).alloc (.one h.next)).alloc
          (.one (h.next + 1))).alloc (.pnr (h.next + 2) (h.next + 3) (h.next + 4)))

theorem six_pnr (e : Env) (l : Lot) (i : ℕ) (o : Option (Route × Sp.Cost)) (ho : offerPnr e l i = .ok o) :
    Six (newPnr e l i) o := by
  intro h hf
  rw [offerPnr] at ho
  obtain ⟨r, hr, ho⟩ := Res.bind_eq_ok'.1 ho
  obtain ⟨q, hq, ho⟩ := Res.bind_eq_ok'.1 ho
  simp only at ho
  unfold newPnr
  simp only [hr, hq, Res.bind_ok']
  generalize (i : ℤ) + ⌈r.2.2.getD (-1)⌉ + ⌈e.cruise l.id (Ults.trunc (i + r.2.2.getD (-1)))⌉ = st at ho ⊢
  by_cases hs : st < 0
  · rw [if_pos hs] at ho; cases ho
  · rw [if_neg hs] at ho
    simp only [if_neg hs]
    generalize hx : e.treeBus.dist l.node (if st < e.mBus then st.toNat else e.mBus - 1) = x at ho ⊢
    by_cases hd : x = ⊤
    · rw [if_pos hd] at ho
      cases ho
      simp only [if_pos hd]
      have hp : (h.alloc .plain).objs h.next = some .plain := by simp [Heap.alloc]
      rw [show depth = 3 + 1 from rfl, del_plain _ _ _ hp, Res.bind_ok']
      have : ((h.alloc .plain).drop h.next) = ⟨h.objs, h.next + 1⟩ := by
        simp only [Heap.drop, Heap.alloc, Heap.mk.injEq, and_true]
        funext k
        by_cases hk : k = h.next
        · subst hk; rw [upd_same, hf _ le_rfl]
        · simp only [upd, hk, if_false]
      rw [this]
    · rw [if_neg hd] at ho
      obtain ⟨r', hr', ho⟩ := Res.bind_eq_ok'.1 ho
      obtain ⟨q', hq', ho⟩ := Res.bind_eq_ok'.1 ho
      obtain ⟨c, hc, ho⟩ := Res.bind_eq_ok'.1 ho
      cases ho
      simp only [if_neg hd, hr', hq', hc, Res.bind_ok']
      rfl

/-- The six objects of a park-and-ride path are alive. -/
def Alive (h : Heap) (n : ℕ) : Prop :=
  n + 5 < h.next ∧ h.objs n = some .plain ∧ h.objs (n + 1) = some .plain ∧ h.objs (n + 2) = some (.pair n (n + 1)) ∧
    h.objs (n + 3) = some (.one n) ∧ h.objs (n + 4) = some (.one (n + 1)) ∧
    h.objs (n + 5) = some (.pnr (n + 2) (n + 3) (n + 4))

theorem del_alive (h : Heap) (n : ℕ) (ha : Alive h n) : del depth h (n + 5) = .ub := by
  obtain ⟨_, h0, h1, h2, h3, h4, h5⟩ := ha
  exact del_pnr h n (n + 1) (n + 2) (n + 3) (n + 4) (n + 5) h0 h1 h2 h3 h4 h5 (by omega)

/-- The heap after a new park-and-ride path. -/
def six (h : Heap) : Heap :=
  (((((h.alloc .plain).alloc .plain).alloc (.pair h.next (h.next + 1))).alloc (.one h.next)).alloc
    (.one (h.next + 1))).alloc (.pnr (h.next + 2) (h.next + 3) (h.next + 4))

theorem six_next (h : Heap) : (six h).next = h.next + 6 := rfl

theorem six_objs (h : Heap) : (six h).objs = upd (upd (upd (upd (upd (upd h.objs h.next (some .plain)) (h.next + 1)
    (some .plain)) (h.next + 2) (some (.pair h.next (h.next + 1)))) (h.next + 3) (some (.one h.next))) (h.next + 4)
    (some (.one (h.next + 1)))) (h.next + 5) (some (.pnr (h.next + 2) (h.next + 3) (h.next + 4))) := rfl

theorem six_alive (h : Heap) : Alive (six h) h.next := by
  refine ⟨by rw [six_next]; omega, ?_⟩
  rw [six_objs]
  simp [upd]

theorem six_old (h : Heap) (k : ℕ) (hk : k < h.next) : (six h).objs k = h.objs k := by
  rw [six_objs, upd_other _ _ _ _ (by omega), upd_other _ _ _ _ (by omega), upd_other _ _ _ _ (by omega),
    upd_other _ _ _ _ (by omega), upd_other _ _ _ _ (by omega), upd_other _ _ _ _ (by omega)]

theorem six_fresh (h : Heap) (hf : h.Fresh) : (six h).Fresh := by
  intro k hk
  rw [six_next] at hk
  rw [six_objs, upd_other _ _ _ _ (by omega), upd_other _ _ _ _ (by omega), upd_other _ _ _ _ (by omega),
    upd_other _ _ _ _ (by omega), upd_other _ _ _ _ (by omega), upd_other _ _ _ _ (by omega)]
  exact hf k (by omega)

theorem alive_six (h : Heap) (n : ℕ) (ha : Alive h n) : Alive (six h) n := by
  obtain ⟨hn, h0, h1, h2, h3, h4, h5⟩ := ha
  refine ⟨by rw [six_next]; omega, ?_⟩
  rw [six_old h _ (by omega), six_old h _ (by omega), six_old h _ (by omega), six_old h _ (by omega),
    six_old h _ (by omega), six_old h _ (by omega)]
  exact ⟨h0, h1, h2, h3, h4, h5⟩

theorem alive_mono (h : Heap) (n : ℕ) (ha : Alive h n) : Alive ⟨h.objs, h.next + 1⟩ n := by
  obtain ⟨hn, h0⟩ := ha
  exact ⟨Nat.lt_succ_of_lt hn, h0⟩

/-- The step of the loop of the three searches. -/
def step (s : Option Best × Heap) (it : ℕ × (Heap → Res (Option New × Heap))) : Res (Option Best × Heap) :=
  (it.2 s.2).bind fun r =>
    match r.1 with
    | none => .ok (s.1, r.2)
    | some x => keep s.1 x it.1 r.2

/-- Once a park-and-ride path is held, the next one makes the search undefined. -/
theorem search_held (items : List (ℕ × (Heap → Res (Option New × Heap)))) (offs : List (Option (Route × Sp.Cost)))
    (hg : List.Forall₂ (fun it o => Six it.2 o) items offs) (b : Best) (h : Heap) (hf : h.Fresh) (n : ℕ)
    (hn : b.ptr = n + 5) (ha : Alive h n) :
    (offs.countP Option.isSome = 0 → ∃ h', Res.foldlM step (some b, h) items = .ok (some b, h') ∧ Alive h' n ∧ h'.Fresh) ∧
    (0 < offs.countP Option.isSome → Res.foldlM step (some b, h) items = .ub) := by
  induction hg generalizing h with
  | nil => exact ⟨fun _ => ⟨h, rfl, ha, hf⟩, fun hh => by simp at hh⟩
  | @cons it o items offs hio _ ih =>
    rw [Res.foldlM_cons]
    have hh := hio h hf
    cases o with
    | none =>
      simp only at hh
      have : step (some b, h) it = .ok (some b, ⟨h.objs, h.next + 1⟩) := by
        unfold step; rw [hh]; rfl
      rw [this, Res.ok_bind, List.countP_cons_of_neg (by simp)]
      exact ih _ (fun k hk => hf k (by have : h.next + 1 ≤ k := hk; omega)) (alive_mono h n ha)
    | some x =>
      simp only at hh
      have : step (some b, h) it = .ub := by
        unfold step
        rw [hh]
        show keep (some b) ⟨h.next + 5, x.1, x.2⟩ it.1 (six h) = .ub
        unfold keep
        simp only
        rw [hn, del_alive _ n (alive_six h n ha), del_alive _ _ (six_alive h)]
        split_ifs <;> rfl
      rw [this]
      refine ⟨fun h0 => by simp at h0, fun _ => rfl⟩

/-- The search of park and ride: nothing offered, one finite offer, or undefined. -/
theorem search_six (items : List (ℕ × (Heap → Res (Option New × Heap)))) (offs : List (Option (Route × Sp.Cost)))
    (hg : List.Forall₂ (fun it o => Six it.2 o) items offs) (h : Heap) (hf : h.Fresh) :
    (offs.countP Option.isSome = 0 → ∃ h', Res.foldlM step (none, h) items = .ok (none, h') ∧ h'.objs = h.objs ∧ h'.Fresh) ∧
    (2 ≤ offs.countP Option.isSome → Res.foldlM step (none, h) items = .ub) ∧
    ((∃ r, some (r, ⊤) ∈ offs) → Res.foldlM step (none, h) items = .ub) := by
  induction hg generalizing h with
  | nil => exact ⟨fun _ => ⟨h, rfl, rfl, hf⟩, fun hh => by simp at hh, fun ⟨_, hh⟩ => by simp at hh⟩
  | @cons it o items offs hio hrest ih =>
    rw [Res.foldlM_cons]
    have hh := hio h hf
    cases o with
    | none =>
      simp only at hh
      have : step (none, h) it = .ok (none, ⟨h.objs, h.next + 1⟩) := by
        unfold step; rw [hh]; rfl
      rw [this, Res.ok_bind, List.countP_cons_of_neg (by simp)]
      have := ih ⟨h.objs, h.next + 1⟩ (fun k hk => hf k (by have : h.next + 1 ≤ k := hk; omega))
      simpa using this
    | some x =>
      simp only at hh
      refine ⟨fun h0 => by simp at h0, ?_⟩
      by_cases hx : x.2 < ⊤
      · have hst : step (none, h) it = .ok (some ⟨h.next + 5, x.1, it.1, x.2⟩, six h) := by
          unfold step
          rw [hh]
          show keep none ⟨h.next + 5, x.1, x.2⟩ it.1 (six h) = _
          unfold keep
          simp only
          rw [if_pos (show x.2 < costOf none from hx)]
          rfl
        rw [hst, Res.ok_bind]
        have := search_held items offs hrest ⟨h.next + 5, x.1, it.1, x.2⟩ (six h) (six_fresh h hf) h.next rfl
          (six_alive h)
        refine ⟨fun h2 => this.2 ?_, fun ⟨r, hr⟩ => this.2 ?_⟩
        · rw [List.countP_cons_of_pos (by simp)] at h2
          omega
        · rw [List.mem_cons] at hr
          rcases hr with hr | hr
          · cases hr; simp at hx
          · exact List.countP_pos_iff.2 ⟨_, hr, by simp⟩
      · have hst : step (none, h) it = .ub := by
          unfold step
          rw [hh]
          show keep none ⟨h.next + 5, x.1, x.2⟩ it.1 (six h) = _
          unfold keep
          simp only
          rw [if_neg (show ¬ x.2 < costOf none from hx), del_alive _ _ (six_alive h)]
          rfl
        rw [hst]
        exact ⟨fun _ => rfl, fun _ => rfl⟩

/-- A single finite offer of park and ride is the result. -/
theorem search_single (items : List (ℕ × (Heap → Res (Option New × Heap)))) (offs : List (Option (Route × Sp.Cost)))
    (hg : List.Forall₂ (fun it o => Six it.2 o) items offs) (h : Heap) (hf : h.Fresh)
    (h1 : offs.countP Option.isSome = 1) (r : Route) (c : Sp.Cost) (hm : some (r, c) ∈ offs) (hc : c < ⊤) :
    ∃ b h' n, Res.foldlM step (none, h) items = .ok (some b, h') ∧ b.ptr = n + 5 ∧ Alive h' n ∧ b.route = r ∧
      b.cost = c := by
  induction hg generalizing h with
  | nil => simp at hm
  | @cons it o items offs hio hrest ih =>
    rw [Res.foldlM_cons]
    have hh := hio h hf
    cases o with
    | none =>
      simp only at hh
      have : step (none, h) it = .ok (none, ⟨h.objs, h.next + 1⟩) := by
        unfold step; rw [hh]; rfl
      rw [this, Res.ok_bind]
      rw [List.countP_cons_of_neg (by simp)] at h1
      exact ih _ (fun k hk => hf k (by have : h.next + 1 ≤ k := hk; omega)) h1 (by simpa using hm)
    | some x =>
      simp only at hh
      rw [List.countP_cons_of_pos (by simp)] at h1
      have hx : x = (r, c) := by
        rw [List.mem_cons] at hm
        rcases hm with hm | hm
        · exact (Option.some.inj hm).symm
        · have := List.countP_pos_iff.2 ⟨_, hm, (by simp : Option.isSome (some (r, c)) = true)⟩
          omega
      subst hx
      have hst : step (none, h) it = .ok (some ⟨h.next + 5, r, it.1, c⟩, six h) := by
        unfold step
        rw [hh]
        show keep none ⟨h.next + 5, r, c⟩ it.1 (six h) = _
        unfold keep
        simp only
        rw [if_pos (show c < costOf none from hc)]
        rfl
      rw [hst, Res.ok_bind]
      obtain ⟨h', g1, g2, _⟩ := (search_held items offs hrest ⟨h.next + 5, r, it.1, c⟩ (six h) (six_fresh h hf) h.next
        rfl (six_alive h)).1 (by omega)
      exact ⟨_, h', h.next, g1, rfl, g2, rfl, rfl⟩

end Verif.MmBest

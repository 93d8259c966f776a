import Verif.Model.PreRoute
import Mathlib.Tactic.Linarith
import Mathlib.Tactic.Ring
import Mathlib.Algebra.BigOperators.Ring.List
import Mathlib.Data.List.Nodup
import Mathlib.Algebra.Order.BigOperators.Group.List

/-! # C149: the table of predetermined routes -/

namespace Verif
open Pre

theorem addPairs_spec (paths : PathTable) (d : ℤ) : ∀ (os : List Origin) (t : Table),
    (os.map (·.node)).Nodup → (∀ o ∈ os, t o.node d = none) →
    (∀ o ∈ os, Store.get o.demand d ≠ none → paths o.node d ≠ none) →
    ∃ t', Res.foldlM (addPair paths d) t os = .ok t' ∧
      (∀ o ∈ os, t' o.node d =
        (Store.get o.demand d).map fun x => pairEntries x ((paths o.node d).getD []).length) ∧
      ∀ o' d', d' ≠ d ∨ o' ∉ os.map (·.node) → t' o' d' = t o' d'
  | [], t, _, _, _ => ⟨t, rfl, by simp, fun _ _ _ => rfl⟩
  | o :: os, t, hn, ht, hp => by
    simp only [List.map_cons, List.nodup_cons, List.mem_map, not_exists, not_and] at hn
    have hstep : ∃ t1, addPair paths d t o = .ok t1 ∧ t1 o.node d =
        ((Store.get o.demand d).map fun x => pairEntries x ((paths o.node d).getD []).length) ∧
        ∀ o' d', d' ≠ d ∨ o' ≠ o.node → t1 o' d' = t o' d' := by
      unfold addPair
      cases e : Store.get o.demand d with
      | none => exact ⟨t, rfl, by rw [ht o (by simp)]; rfl, fun _ _ _ => rfl⟩
      | some x =>
        cases e2 : paths o.node d with
        | none => exact absurd e2 (hp o (by simp) (by rw [e]; simp))
        | some ps =>
          have h0 := ht o (by simp)
          refine ⟨fun o' d' => if o' = o.node ∧ d' = d then some (pairEntries x ps.length) else t o' d',
            by simp [h0], by simp, fun o' d' h => ?_⟩
          simp only
          rw [if_neg]
          rintro ⟨rfl, rfl⟩
          rcases h with h | h <;> exact h rfl
    obtain ⟨t1, h1, h2, h3⟩ := hstep
    obtain ⟨t2, g1, g2, g3⟩ := addPairs_spec paths d os t1 hn.2
      (fun o' ho' => by
        rw [h3 o'.node d (Or.inr (fun h => hn.1 o' ho' h))]
        exact ht o' (by simp [ho']))
      (fun o' ho' => hp o' (by simp [ho']))
    refine ⟨t2, ?_, ?_, ?_⟩
    · rw [Res.foldlM_cons, h1]; exact g1
    · intro o' ho'
      rcases List.mem_cons.1 ho' with rfl | ho'
      · rw [g3 _ _ (Or.inr (by simpa using fun x hx => hn.1 x hx)), h2]
      · exact g2 o' ho'
    · intro o' d' h
      rw [g3 o' d', h3 o' d']
      · rcases h with h | h
        · exact Or.inl h
        · exact Or.inr (fun h' => h (by simp [h']))
      · rcases h with h | h
        · exact Or.inl h
        · exact Or.inr (fun h' => h (by rw [List.map_cons]; exact List.mem_cons_of_mem _ h'))

theorem construct_spec (paths : PathTable) (os : List Origin) (hn : (os.map (·.node)).Nodup) :
    ∀ (ds : List ℤ) (t : Table), ds.Nodup → (∀ o ∈ os, ∀ d ∈ ds, t o.node d = none) →
    (∀ o ∈ os, ∀ d ∈ ds, Store.get o.demand d ≠ none → paths o.node d ≠ none) →
    ∃ t', Res.foldlM (fun t d => Res.foldlM (addPair paths d) t os) t ds = .ok t' ∧
      (∀ o ∈ os, ∀ d ∈ ds, t' o.node d =
        (Store.get o.demand d).map fun x => pairEntries x ((paths o.node d).getD []).length) ∧
      ∀ o' d', d' ∉ ds ∨ o' ∉ os.map (·.node) → t' o' d' = t o' d'
  | [], t, _, _, _ => ⟨t, rfl, by simp, fun _ _ _ => rfl⟩
  | d :: ds, t, hd, ht, hp => by
    rw [List.nodup_cons] at hd
    obtain ⟨t1, h1, h2, h3⟩ := addPairs_spec paths d os t hn (fun o ho => ht o ho d (by simp))
      (fun o ho => hp o ho d (by simp))
    obtain ⟨t2, g1, g2, g3⟩ := construct_spec paths os hn ds t1 hd.2
      (fun o ho d' hd' => by
        rw [h3 _ _ (Or.inl (fun h => hd.1 (h ▸ hd')))]
        exact ht o ho d' (by simp [hd']))
      (fun o ho d' hd' => hp o ho d' (by simp [hd']))
    refine ⟨t2, ?_, ?_, ?_⟩
    · rw [Res.foldlM_cons, h1]; exact g1
    · intro o ho d' hd'
      rcases List.mem_cons.1 hd' with rfl | hd'
      · rw [g3 _ _ (Or.inl hd.1), h2 o ho]
      · exact g2 o ho d' hd'
    · intro o' d' h
      rw [g3 o' d', h3 o' d']
      · rcases h with h | h
        · exact Or.inl (fun h' => h (by simp [h']))
        · exact Or.inr h
      · rcases h with h | h
        · exact Or.inl (fun h' => h (by simp [h']))
        · exact Or.inr h

theorem tail_get (x : List ℚ) (k : ℕ) : ∀ (m a : ℕ),
    Store.get ((List.range' a m).map fun (j : ℕ) => ((j : ℤ), x.map fun _ => (0 : ℚ))) (k : ℤ) =
      if a ≤ k ∧ k < a + m then some (x.map fun _ => (0 : ℚ)) else none
  | 0, a => by
    rw [if_neg (by omega)]
    rfl
  | m + 1, a => by
    rw [List.range'_succ, List.map_cons]
    unfold Store.get
    rw [tail_get x k m (a + 1)]
    by_cases h : (a : ℤ) = k
    · rw [if_pos h, if_pos (by omega)]
    · rw [if_neg h]
      by_cases h2 : a + 1 ≤ k ∧ k < a + 1 + m
      · rw [if_pos h2, if_pos (by omega)]
      · rw [if_neg h2, if_neg (by omega)]

theorem pairEntries_get (x : List ℚ) (n k : ℕ) :
    Store.get (pairEntries x n) (k : ℤ) =
      if k = 0 then some x else if k < n then some (x.map fun _ => (0 : ℚ)) else none := by
  unfold pairEntries Store.get
  rw [tail_get]
  by_cases h : k = 0
  · rw [if_pos h, if_pos (by omega)]
  · rw [if_neg h, if_neg (by omega)]
    by_cases h2 : k < n
    · rw [if_pos h2, if_pos (by omega)]
    · rw [if_neg h2, if_neg (by omega)]

/-- **C149.**  The table is made from the demands and the path table: it succeeds exactly if every pair of
a listed origin and destination with demand has a path set.  Then such a pair has the whole demand on its
first path and nothing on each of the others, and all other pairs have no entry. -/
theorem C149_initial_table (paths : PathTable) (os : List Origin) (ds : List ℤ)
    (ho : (os.map (·.node)).Nodup) (hd : ds.Nodup)
    (hp : ∀ o ∈ os, ∀ d ∈ ds, Store.get o.demand d ≠ none → paths o.node d ≠ none) :
    ∃ t, construct paths ds os = .ok t ∧
      (∀ o ∈ os, ∀ d ∈ ds, ∀ x ps, Store.get o.demand d = some x → paths o.node d = some ps →
        ∃ st, t o.node d = some st ∧ ∀ k : ℕ, Store.get st (k : ℤ) =
          if k = 0 then some x else if k < ps.length then some (x.map fun _ => 0) else none) ∧
      (∀ o ∈ os, ∀ d ∈ ds, Store.get o.demand d = none → t o.node d = none) ∧
      ∀ o' d', d' ∉ ds ∨ o' ∉ os.map (·.node) → t o' d' = none := by
  obtain ⟨t, h1, h2, h3⟩ := construct_spec paths os ho ds (fun _ _ => none) hd (fun _ _ _ _ => rfl) hp
  refine ⟨t, h1, fun o ho' d hd' x ps hx hps => ⟨pairEntries x ps.length, ?_, fun k => pairEntries_get x _ k⟩,
    fun o ho' d hd' hx => ?_, h3⟩
  · rw [h2 o ho' d hd', hx, hps]; rfl
  · rw [h2 o ho' d hd', hx]; rfl

theorem foldlM_throws {α β : Type} {f : β → α → Res β} {as : List α} (a : α) (ha : a ∈ as)
    (h : ∀ b, (f b a).isOk = false) : ∀ b, (Res.foldlM f b as).isOk = false := by
  induction as with
  | nil => cases ha
  | cons x xs ih =>
    intro b
    rw [Res.foldlM_cons]
    rcases List.mem_cons.1 ha with rfl | ha
    · have := h b
      cases e : f b a with
      | ok c => rw [e] at this; cases this
      | throw m => rfl
      | ub => rfl
      | diverge => rfl
    · cases e : f b x with
      | ok c => exact ih ha c
      | throw m => rfl
      | ub => rfl
      | diverge => rfl

/-- The other half: a pair with demand and without a path set is an error. -/
theorem C149_missing_paths (paths : PathTable) (os : List Origin) (ds : List ℤ) (o : Origin) (ho : o ∈ os)
    (d : ℤ) (hd : d ∈ ds) (hx : Store.get o.demand d ≠ none) (hp : paths o.node d = none) :
    (construct paths ds os).isOk = false := by
  unfold construct
  refine foldlM_throws d hd (fun t => foldlM_throws o ho (fun t => ?_) t) _
  unfold addPair
  cases e : Store.get o.demand d with
  | none => exact absurd e hx
  | some x => rw [hp]; rfl

/-- What the paths of a pair carry together in interval `i`. -/
def pairTotal (st : Store ℤ (List ℚ)) (i : ℕ) : ℚ := (st.map fun e => e.2.getD i 0).sum

theorem getD_set (xs : List ℚ) (i j : ℕ) (y : ℚ) (hi : i < xs.length) :
    (xs.set i y).getD j 0 = if j = i then y else xs.getD j 0 := by
  simp only [List.getD_eq_getElem?_getD, List.getElem?_set]
  by_cases h : i = j
  · subst h; simp [hi]
  · rw [if_neg h, if_neg (fun h' => h h'.symm)]

theorem reassigned_getD (pid : ℤ) (i j : ℕ) (lam total : ℚ) (e : ℤ × List ℚ) (hi : i < e.2.length) :
    (reassigned pid i lam total e).2.getD j 0 =
      if j = i then (1 - lam) * e.2.getD i 0 + (if e.1 = pid then lam * total else 0) else e.2.getD j 0 := by
  unfold reassigned
  by_cases h : e.1 = pid
  · rw [if_pos h, if_pos h]; exact getD_set _ _ _ _ hi
  · rw [if_neg h, if_neg h, add_zero]; exact getD_set _ _ _ _ hi

theorem reassigned_key (pid : ℤ) (i : ℕ) (lam total : ℚ) (e : ℤ × List ℚ) :
    (reassigned pid i lam total e).1 = e.1 ∧ (reassigned pid i lam total e).2.length = e.2.length := by
  unfold reassigned
  split <;> simp

theorem sum_reassigned (pid : ℤ) (i : ℕ) (lam total : ℚ) : ∀ (st : Store ℤ (List ℚ)),
    (st.map (·.1)).Nodup → (∀ e ∈ st, i < e.2.length) →
    pairTotal (st.map (reassigned pid i lam total)) i =
      (1 - lam) * pairTotal st i + if pid ∈ st.map (·.1) then lam * total else 0
  | [], _, _ => by simp [pairTotal]
  | e :: st, hn, hl => by
    simp only [List.map_cons, List.nodup_cons] at hn
    have ih := sum_reassigned pid i lam total st hn.2 (fun x hx => hl x (by simp [hx]))
    unfold pairTotal at ih ⊢
    simp only [List.map_cons, List.sum_cons, ih, reassigned_getD pid i i lam total e (hl e (by simp)), if_true]
    by_cases h : e.1 = pid
    · have : pid ∉ st.map (·.1) := by rw [← h]; exact hn.1
      rw [if_pos h, if_neg this, if_pos (by simp [h])]
      ring
    · rw [if_neg h]
      have : (pid ∈ e.1 :: st.map (·.1)) ↔ pid ∈ st.map (·.1) := by
        rw [List.mem_cons]
        exact ⟨fun h' => h'.resolve_left (fun h'' => h h''.symm), Or.inr⟩
      simp only [this]
      ring

/-- **C149.**  Moving a share `lam` of the demand of a pair in interval `i` to path `pid`: the pair keeps
its paths, the path gets `(1 - lam)` of what it had and `lam` of the total, the others keep `(1 - lam)`,
nothing changes in other intervals or for other pairs, and the total of the pair is kept if the path is
one of its paths — otherwise the share is lost. -/
theorem C149_reassign (t : Table) (o d pid : ℤ) (i : ℕ) (lam : ℚ) (st : Store ℤ (List ℚ))
    (h : t o d = some st) (hn : (st.map (·.1)).Nodup) (hl : ∀ e ∈ st, i < e.2.length) :
    ∃ t' st', reassign t o d pid i lam = .ok t' ∧ t' o d = some st' ∧ st'.map (·.1) = st.map (·.1) ∧
      (∀ o' d', (o' ≠ o ∨ d' ≠ d) → t' o' d' = t o' d') ∧
      (∀ e ∈ st, ∃ e' ∈ st', e'.1 = e.1 ∧ e'.2.length = e.2.length ∧ ∀ j, e'.2.getD j 0 =
        if j ≠ i then e.2.getD j 0
        else if e.1 = pid then (1 - lam) * e.2.getD i 0 + lam * pairTotal st i else (1 - lam) * e.2.getD i 0) ∧
      pairTotal st' i = if pid ∈ st.map (·.1) then pairTotal st i else (1 - lam) * pairTotal st i := by
  refine ⟨fun o' d' => if o' = o ∧ d' = d then some (st.map (reassigned pid i lam (pairTotal st i))) else t o' d',
    st.map (reassigned pid i lam (pairTotal st i)), ?_, by simp, ?_, ?_, ?_, ?_⟩
  · unfold reassign
    rw [h]
    simp only
    rw [if_neg]
    · rfl
    · simp only [List.any_eq_true, decide_eq_true_eq, not_exists, not_and, not_le]
      exact hl
  · rw [List.map_map]
    exact List.map_congr_left fun e _ => (reassigned_key pid i lam _ e).1
  · intro o' d' h'
    simp only
    rw [if_neg]
    rintro ⟨rfl, rfl⟩
    rcases h' with h' | h' <;> exact h' rfl
  · intro e he
    refine ⟨_, List.mem_map_of_mem he, (reassigned_key pid i lam _ e).1, (reassigned_key pid i lam _ e).2,
      fun j => ?_⟩
    rw [reassigned_getD pid i j lam _ e (hl e he)]
    by_cases hj : j = i
    · rw [if_pos hj, if_neg (not_not.2 hj)]
      split <;> simp
    · rw [if_neg hj, if_pos hj]
  · rw [sum_reassigned pid i lam _ st hn hl]
    split <;> ring

/-- A change of the table. -/
structure Move where
  o : ℤ
  d : ℤ
  pid : ℤ
  i : ℕ
  lam : ℚ

/-- The demand `x` of a pair, split among its `n` paths. -/
structure Split (x : List ℚ) (n : ℕ) (st : Store ℤ (List ℚ)) : Prop where
  keys : st.map (·.1) = (pairEntries x n).map (·.1)
  len : ∀ e ∈ st, e.2.length = x.length
  total : ∀ i, pairTotal st i = x.getD i 0
  nonneg : (∀ y ∈ x, 0 ≤ y) → ∀ e ∈ st, ∀ y ∈ e.2, 0 ≤ y

theorem pairEntries_keys (x : List ℚ) (n : ℕ) :
    (pairEntries x n).map (·.1) = 0 :: (List.range' 1 (n - 1)).map fun (k : ℕ) => (k : ℤ) := by
  simp [pairEntries, Function.comp_def]

theorem pairEntries_nodup (x : List ℚ) (n : ℕ) : ((pairEntries x n).map (·.1)).Nodup := by
  rw [pairEntries_keys, List.nodup_cons]
  refine ⟨?_, (List.nodup_range' (step := 1)).map fun a b h => by simpa using h⟩
  simp only [List.mem_map, List.mem_range'_1, not_exists, not_and]
  intro a ha h
  omega

theorem mem_pairKeys (x : List ℚ) (n : ℕ) (k : ℤ) :
    k ∈ (pairEntries x n).map (·.1) ↔ 0 ≤ k ∧ k < max 1 n := by
  rw [pairEntries_keys, List.mem_cons]
  simp only [List.mem_map, List.mem_range'_1]
  constructor
  · rintro (rfl | ⟨a, h, rfl⟩)
    · omega
    · omega
  · intro h
    by_cases hk : k = 0
    · exact Or.inl hk
    · exact Or.inr ⟨k.toNat, by omega, by omega⟩

theorem split_init (x : List ℚ) (n : ℕ) : Split x n (pairEntries x n) where
  keys := rfl
  len := by
    intro e he
    unfold pairEntries at he
    rcases List.mem_cons.1 he with rfl | he
    · rfl
    · obtain ⟨k, _, rfl⟩ := List.mem_map.1 he
      simp
  total := by
    intro i
    have h0 : ∀ (ks : List ℕ), ((ks.map fun (k : ℕ) => ((k : ℤ), x.map fun _ => (0 : ℚ))).map
        fun e => e.2.getD i 0).sum = 0 := by
      intro ks
      induction ks with
      | nil => rfl
      | cons k ks ih =>
        rw [List.map_cons, List.map_cons, List.sum_cons, ih, add_zero]
        simp only [List.getD_eq_getElem?_getD, List.getElem?_map]
        cases x[i]? <;> rfl
    unfold pairTotal pairEntries
    rw [List.map_cons, List.sum_cons, h0, add_zero]
  nonneg := by
    intro hx e he y hy
    unfold pairEntries at he
    rcases List.mem_cons.1 he with rfl | he
    · exact hx y hy
    · obtain ⟨k, _, rfl⟩ := List.mem_map.1 he
      simp only [List.mem_map] at hy
      obtain ⟨_, _, rfl⟩ := hy
      exact le_refl _

theorem pairTotal_nonneg {st : Store ℤ (List ℚ)} (h : ∀ e ∈ st, ∀ y ∈ e.2, 0 ≤ y) (i : ℕ) : 0 ≤ pairTotal st i := by
  unfold pairTotal
  refine List.sum_nonneg ?_
  intro y hy
  obtain ⟨e, he, rfl⟩ := List.mem_map.1 hy
  rw [List.getD_eq_getElem?_getD]
  cases hi : e.2[i]? with
  | none => exact le_refl _
  | some z => exact h e he z (List.mem_of_getElem? hi)

theorem split_move {x : List ℚ} {n : ℕ} {st : Store ℤ (List ℚ)} (hs : Split x n st) (pid : ℤ)
    (hp : 0 ≤ pid ∧ pid < max 1 n) (i : ℕ) (hi : i < x.length) (lam : ℚ) (h0 : 0 ≤ lam) (h1 : lam ≤ 1) :
    Split x n (st.map (reassigned pid i lam (pairTotal st i))) := by
  have hn : (st.map (·.1)).Nodup := by rw [hs.keys]; exact pairEntries_nodup x n
  have hl : ∀ e ∈ st, i < e.2.length := fun e he => by rw [hs.len e he]; exact hi
  refine ⟨?_, ?_, ?_, ?_⟩
  · rw [List.map_map, ← hs.keys]
    exact List.map_congr_left fun e _ => (reassigned_key pid i lam _ e).1
  · intro e he
    obtain ⟨e', he', rfl⟩ := List.mem_map.1 he
    rw [(reassigned_key pid i lam _ e').2, hs.len e' he']
  · intro j
    by_cases hj : j = i
    · subst hj
      rw [sum_reassigned pid j lam _ st hn hl, if_pos (by rw [hs.keys, mem_pairKeys]; exact hp), ← hs.total j]
      ring
    · rw [← hs.total j]
      unfold pairTotal
      rw [List.map_map]
      refine congrArg List.sum (List.map_congr_left fun e he => ?_)
      simp only [Function.comp]
      rw [reassigned_getD pid i j lam _ e (hl e he), if_neg hj]
  · intro hx e he y hy
    have ht := pairTotal_nonneg (hs.nonneg hx) i
    obtain ⟨e', he', rfl⟩ := List.mem_map.1 he
    obtain ⟨j, hj⟩ := List.mem_iff_getElem?.1 hy
    have hy' : y = (reassigned pid i lam (pairTotal st i) e').2.getD j 0 := by
      rw [List.getD_eq_getElem?_getD, hj]; rfl
    have hold : ∀ j, 0 ≤ e'.2.getD j 0 := by
      intro j
      rw [List.getD_eq_getElem?_getD]
      cases hz : e'.2[j]? with
      | none => exact le_refl _
      | some z => exact hs.nonneg hx e' he' z (List.mem_of_getElem? hz)
    rw [hy', reassigned_getD pid i j lam _ e' (hl e' he')]
    split
    · have := hold i
      have h2 : 0 ≤ (1 - lam) * e'.2.getD i 0 := mul_nonneg (by linarith) this
      split
      · exact add_nonneg h2 (mul_nonneg h0 ht)
      · simpa using h2
    · exact hold j

/-- **C149.**  After the table is made and any number of changes with shares between 0 and 1, each to a
path of the pair: the paths of a pair together carry exactly its demand in every interval, and no path
carries a negative number if no demand is negative. -/
theorem C149_total_kept (paths : PathTable) (os : List Origin) (ds : List ℤ)
    (ho : (os.map (·.node)).Nodup) (hd : ds.Nodup) (t0 : Table) (h0 : construct paths ds os = .ok t0)
    (moves : List Move)
    (hm : ∀ m ∈ moves, 0 ≤ m.lam ∧ m.lam ≤ 1 ∧ 0 ≤ m.pid ∧
      m.pid < max 1 ((paths m.o m.d).getD []).length)
    (t : Table) (h : Res.foldlM (fun t m => reassign t m.o m.d m.pid m.i m.lam) t0 moves = .ok t)
    (o : Origin) (ho' : o ∈ os) (d : ℤ) (hd' : d ∈ ds) (x : List ℚ) (hx : Store.get o.demand d = some x) :
    ∃ st, t o.node d = some st ∧ (∀ i, (st.map fun e => e.2.getD i 0).sum = x.getD i 0) ∧
      ((∀ y ∈ x, 0 ≤ y) → ∀ e ∈ st, ∀ y ∈ e.2, 0 ≤ y) := by
  have hp : ∀ o ∈ os, ∀ d ∈ ds, Store.get o.demand d ≠ none → paths o.node d ≠ none := by
    intro o ho d hd hx hp
    have := C149_missing_paths paths os ds o ho d hd hx hp
    rw [h0] at this
    cases this
  obtain ⟨t0', e1, e2, _⟩ := construct_spec paths os ho ds (fun _ _ => none) hd (fun _ _ _ _ => rfl) hp
  have e1' : construct paths ds os = .ok t0' := e1
  rw [h0] at e1'
  cases e1'
  have key : ∃ st, t o.node d = some st ∧ Split x ((paths o.node d).getD []).length st := by
    refine Res.foldlM_inv_mem (P := fun t : Table =>
      ∃ st, t o.node d = some st ∧ Split x ((paths o.node d).getD []).length st) moves ?_ t0 t ?_ h
    · intro t m t' hmem ⟨st, a, b⟩ hr
      obtain ⟨m1, m2, m3, m4⟩ := hm m hmem
      unfold reassign at hr
      by_cases hpair : m.o = o.node ∧ m.d = d
      · obtain ⟨r1, r2⟩ := hpair
        rw [r1, r2, a] at hr
        simp only at hr
        split at hr
        · cases hr
        · rename_i hany
          cases hr
          refine ⟨st.map (reassigned m.pid m.i m.lam (pairTotal st m.i)), by simp [pairTotal], ?_⟩
          have hl : m.i < x.length := by
            simp only [List.any_eq_true, decide_eq_true_eq, not_exists, not_and, not_le] at hany
            have h0m : ((0 : ℤ)) ∈ st.map (·.1) := by rw [b.keys, mem_pairKeys]; omega
            obtain ⟨e, he, _⟩ := List.mem_map.1 h0m
            rw [← b.len e he]
            exact hany e he
          rw [r1, r2] at m4
          exact split_move b m.pid ⟨m3, m4⟩ m.i hl m.lam m1 m2
      · cases e : t m.o m.d with
        | none => rw [e] at hr; cases hr
        | some st' =>
          rw [e] at hr
          simp only at hr
          split at hr
          · cases hr
          · cases hr
            refine ⟨st, ?_, b⟩
            simp only
            rw [if_neg, a]
            rintro ⟨h1, h2⟩
            exact hpair ⟨h1.symm, h2.symm⟩
    · exact ⟨_, by rw [e2 o ho' d hd', hx]; rfl, split_init _ _⟩
  obtain ⟨st, a, b⟩ := key
  exact ⟨st, a, b.total, b.nonneg⟩

/-- An origin at node 1 with demands 4 and 6 to node 3 and 5, 5 to node 4. -/
def exPreOrigin : Origin := ⟨1, [(3, [4, 6]), (4, [5, 5])]⟩

/-- Two paths to node 3 and one to node 4. -/
def exPrePaths : PathTable := fun o d =>
  if o = 1 ∧ d = 3 then some [[10, 11], [10, 12, 13]] else if o = 1 ∧ d = 4 then some [[10, 14]] else none

set_option synthInstance.maxSize 1024 in
example : (([exPreOrigin].map (·.node)).Nodup ∧ [3, 4, 5].Nodup ∧
    (∀ o ∈ [exPreOrigin], ∀ d ∈ [3, 4, 5], Store.get o.demand d ≠ none → exPrePaths o.node d ≠ none)) ∧
    ((construct exPrePaths [3, 4, 5] [exPreOrigin]).bind fun t => .ok (t 1 3, t 1 4, t 1 5)) =
      .ok (some [(0, [4, 6]), (1, [0, 0])], some [(0, [5, 5])], none) ∧
    ((construct exPrePaths [3, 4, 5] [exPreOrigin]).bind fun t =>
      (Res.foldlM (fun t (m : Move) => reassign t m.o m.d m.pid m.i m.lam) t
        [⟨1, 3, 1, 0, 1 / 2⟩, ⟨1, 3, 0, 0, 1 / 4⟩]).bind fun t => .ok (t 1 3)) =
      .ok (some [(0, [5 / 2, 6]), (1, [3 / 2, 0])]) := by
  refine ⟨⟨by decide, by decide, by decide⟩, by decide +kernel, by decide +kernel⟩

end Verif

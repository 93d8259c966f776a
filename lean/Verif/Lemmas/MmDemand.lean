import Verif.Lemmas.MmDue

/-! # Lemmas on the demand of the loading and the path tables made from passenger paths -/

namespace Verif.MmDue

/-! ## Spreading over the intervals of the loading -/

theorem minutesFrom_spec (n : ℕ) (σ d : ℚ) : ∀ k, k ≤ n →
    (1 ≤ minutesFrom n σ d k ∧ minutesFrom n σ d k ≤ k ∧ 1 ≤ ⌊d / (minutesFrom n σ d k : ℚ) * σ⌋ ∧
      ∀ j, minutesFrom n σ d k < j → j ≤ k → ¬ 1 ≤ ⌊d / (j : ℚ) * σ⌋) ∨
    (minutesFrom n σ d k = n ∧ ∀ j, 1 ≤ j → j ≤ k → ¬ 1 ≤ ⌊d / (j : ℚ) * σ⌋) := by
  intro k
  induction k with
  | zero => intro _; exact Or.inr ⟨rfl, fun j h1 h2 => by omega⟩
  | succ k ih =>
    intro hk
    unfold minutesFrom
    by_cases hc : 1 ≤ ⌊d / ((k + 1 : ℕ) : ℚ) * σ⌋
    · rw [if_pos hc]
      exact Or.inl ⟨by omega, le_refl _, hc, fun j h1 h2 => by omega⟩
    · rw [if_neg hc]
      rcases ih (by omega) with ⟨h1, h2, h3, h4⟩ | ⟨h1, h2⟩
      · refine Or.inl ⟨h1, by omega, h3, fun j hj hj' => ?_⟩
        by_cases e : j = k + 1
        · subst e; exact hc
        · exact h4 j hj (by omega)
      · refine Or.inr ⟨h1, fun j hj hj' => ?_⟩
        by_cases e : j = k + 1
        · subst e; exact hc
        · exact h2 j hj (by omega)

theorem minutes_range {n : ℕ} (hn : 0 < n) (σ d : ℚ) : 1 ≤ minutes n σ d ∧ minutes n σ d ≤ n := by
  unfold minutes
  rcases minutesFrom_spec n σ d n (le_refl _) with ⟨h1, h2, _⟩ | ⟨h1, _⟩ <;> omega

theorem sum_replicate_zero (n : ℕ) : (List.replicate n (0 : ℚ)).sum = 0 := by simp

theorem spread_ok {split : ℤ} {n : ℕ} (hn : 0 < n) {σ d : ℚ} {xs : List ℚ} (h : spread split n σ d = .ok xs) :
    xs.length = n ∧ xs.sum = d := by
  unfold spread at h
  split at h
  · cases h
    refine ⟨by simp; omega, by simp⟩
  · split at h
    · cases h
      obtain ⟨h1, h2⟩ := minutes_range hn σ d
      have : ((minutes n σ d : ℕ) : ℚ) ≠ 0 := by exact_mod_cast (by omega)
      refine ⟨by simp; omega, ?_⟩
      rw [List.sum_append, List.sum_replicate, List.sum_replicate, nsmul_eq_mul, nsmul_eq_mul,
        mul_div_cancel₀ _ this, mul_zero, add_zero]
    · cases h

theorem spread_isOk {split : ℤ} (hs : split = 0 ∨ split = 1) (n : ℕ) (σ d : ℚ) : ∃ xs, spread split n σ d = .ok xs := by
  unfold spread
  rcases hs with rfl | rfl
  · exact ⟨_, rfl⟩
  · exact ⟨_, rfl⟩

theorem spread_nonneg {split : ℤ} {n : ℕ} {σ d : ℚ} (hd : 0 ≤ d) {xs : List ℚ} (h : spread split n σ d = .ok xs) :
    ∀ x ∈ xs, 0 ≤ x := by
  unfold spread at h
  split at h
  · cases h
    intro x hx
    rw [List.mem_cons, List.mem_replicate] at hx
    rcases hx with rfl | ⟨_, rfl⟩
    · exact hd
    · exact le_refl _
  · split at h
    · cases h
      intro x hx
      rw [List.mem_append, List.mem_replicate, List.mem_replicate] at hx
      rcases hx with ⟨_, rfl⟩ | ⟨_, rfl⟩
      · positivity
      · exact le_refl _
    · cases h

theorem fold_blocks {split : ℤ} {n : ℕ} (hn : 0 < n) {σ : ℚ} {ps : List PPath} : ∀ (T : ℕ) (w : List ℚ),
    Res.foldlM (fun acc c => (spread split n σ (load ps c)).bind fun xs => .ok (acc ++ xs)) [] (List.range T) = .ok w →
    w.length = T * n ∧ ∀ c < T, spread split n σ (load ps c) = .ok (block n c w) := by
  intro T
  induction T with
  | zero => intro w h; cases h; exact ⟨by simp, fun c hc => by omega⟩
  | succ T ih =>
    intro w h
    rw [List.range_succ, Res.foldlM_append, Res.bind_eq_ok] at h
    obtain ⟨u, hu, h⟩ := h
    obtain ⟨h1, h2⟩ := ih u hu
    rw [Res.foldlM_cons, Res.bind_eq_ok] at h
    obtain ⟨v, hv, h⟩ := h
    rw [Res.bind_eq_ok'] at hv
    obtain ⟨xs, hxs, hv⟩ := hv
    cases hv
    cases h
    obtain ⟨h3, _⟩ := spread_ok hn hxs
    refine ⟨by rw [List.length_append, h1, h3]; ring, ?_⟩
    intro c hc
    by_cases e : c = T
    · subst e
      rw [hxs]
      unfold block
      rw [← h1, List.drop_left, ← h3, List.take_length]
    · rw [h2 c (by omega)]
      unfold block
      have hle : c * n + n ≤ u.length := by
        rw [h1]
        calc c * n + n = (c + 1) * n := by ring
          _ ≤ T * n := Nat.mul_le_mul_right n (by omega)
      rw [List.drop_append_of_le_length (by omega), List.take_append_of_le_length (by rw [List.length_drop]; omega)]

theorem fold_blocks_isOk {split : ℤ} (hs : split = 0 ∨ split = 1) {n : ℕ} {σ : ℚ} {ps : List PPath} :
    ∀ (cs : List ℕ) (acc : List ℚ), ∃ w, Res.foldlM (fun acc c => (spread split n σ (load ps c)).bind fun xs =>
      .ok (acc ++ xs)) acc cs = .ok w := by
  intro cs
  induction cs with
  | nil => intro acc; exact ⟨acc, rfl⟩
  | cons c cs ih =>
    intro acc
    obtain ⟨xs, hxs⟩ := spread_isOk hs n σ (load ps c)
    obtain ⟨w, hw⟩ := ih (acc ++ xs)
    refine ⟨w, ?_⟩
    rw [Res.foldlM_cons, hxs]
    exact hw

/-! ## Logit -/

theorem sum_range_getD (xs : List ℚ) : ((List.range xs.length).map fun i => xs.getD i 0).sum = xs.sum := by
  congr 1
  apply List.ext_getElem
  · simp
  · intro i h1 h2
    simp [List.getD_eq_getElem?_getD, h2]

theorem slotSum_writeAt {n a : ℕ} {f : ℕ → ℚ} {xs : List ℚ} (h : xs.length = n) : slotSum n a (writeAt n a f xs) = xs.sum := by
  unfold slotSum
  rw [← sum_range_getD xs, h]
  congr 1
  apply List.map_congr_left
  intro i hi
  rw [List.mem_range] at hi
  unfold writeAt
  rw [if_pos ⟨by omega, by omega⟩, Nat.add_sub_cancel_left]

theorem writeAt_out {n a : ℕ} {f : ℕ → ℚ} {xs : List ℚ} {i : ℕ} (h : i < a * n ∨ a * n + n ≤ i) :
    writeAt n a f xs i = f i := by
  unfold writeAt
  rw [if_neg (by omega)]

theorem logitMode_other {split : ℤ} {n : ℕ} {σ tot : ℚ} {a : ℕ} {on : Bool} {x : Option ℚ} {m : Mode} {s s' : LState}
    (h : logitMode split n σ tot a on x m s = .ok s') (k : Mode) (hk : k ≠ m) :
    s'.vec k = s.vec k ∧ s'.share k = s.share k := by
  unfold logitMode at h
  split at h
  · simp only at h
    rw [Res.bind_eq_ok'] at h
    obtain ⟨xs, _, h⟩ := h
    cases h
    exact ⟨upd_other _ _ _ _ hk, upd_other _ _ _ _ hk⟩
  · split at h
    · cases h; exact ⟨rfl, rfl⟩
    · split at h
      · split at h
        · cases h
        · cases h; exact ⟨upd_other _ _ _ _ hk, rfl⟩
      · cases h; exact ⟨upd_other _ _ _ _ hk, rfl⟩

theorem logitMode_on {split : ℤ} {n : ℕ} (hn : 0 < n) {σ tot : ℚ} {a : ℕ} {y : ℚ} {m : Mode} {s s' : LState}
    (h : logitMode split n σ tot a true (some y) m s = .ok s') :
    ∃ f xs, s'.vec m = some f ∧ spread split n σ (y * tot) = .ok xs ∧ slotSum n a f = y * tot ∧
      s'.share m = s.share m + y * tot ∧
      (∀ i < n, f (a * n + i) = xs.getD i 0) ∧
      ∀ i, (i < a * n ∨ a * n + n ≤ i) → f i = (s.vec m).getD (fun _ => 0) i := by
  unfold logitMode at h
  simp only at h
  rw [Res.bind_eq_ok'] at h
  obtain ⟨xs, hxs, h⟩ := h
  cases h
  obtain ⟨h1, h2⟩ := spread_ok hn hxs
  refine ⟨_, xs, upd_same _ _ _, hxs, ?_, upd_same _ _ _, ?_, ?_⟩
  · rw [slotSum_writeAt h1, h2]
  · intro i hi
    unfold writeAt
    rw [if_pos ⟨by omega, by omega⟩, Nat.add_sub_cancel_left]
  · intro i hi
    exact writeAt_out hi

theorem logitMode_off {split : ℤ} {n : ℕ} {σ tot : ℚ} {a : ℕ} {on : Bool} {x : Option ℚ} {m : Mode} {s s' : LState}
    (hoff : on = false ∨ x = none) (hm : m ≠ .transit ∨ s.vec m = none)
    (h : logitMode split n σ tot a on x m s = .ok s') :
    s'.share m = s.share m ∧ (s.vec m = none → s'.vec m = none) ∧
    ∀ f, s.vec m = some f → ∃ g, s'.vec m = some g ∧ (∀ i < n, g (a * n + i) = 0) ∧
      ∀ i, (i < a * n ∨ a * n + n ≤ i) → g i = f i := by
  unfold logitMode at h
  split at h
  · rcases hoff with e | e <;> cases e
  · cases hv : s.vec m with
    | none =>
      rw [hv] at h
      cases h
      exact ⟨rfl, fun _ => hv, fun f e => by cases e⟩
    | some f =>
      rw [hv] at h hm
      have hm : m ≠ .transit := by rcases hm with h | h; exact h; cases h
      simp only [if_neg hm] at h
      cases h
      refine ⟨rfl, fun e => (by cases e), ?_⟩
      intro f' e
      cases e
      refine ⟨_, upd_same _ _ _, ?_, fun i hi => writeAt_out hi⟩
      intro i hi
      unfold writeAt
      rw [if_pos ⟨by omega, by omega⟩, Nat.add_sub_cancel_left]
      simp [List.getD_eq_getElem?_getD, hi]

theorem logitMode_isOk {split : ℤ} (hs : split = 0 ∨ split = 1) {n : ℕ} {σ tot : ℚ} {a : ℕ} {on : Bool} {x : Option ℚ}
    {m : Mode} {s : LState} (hm : m ≠ .transit ∨ s.vec m = none ∨ (on = true ∧ x ≠ none)) :
    ∃ s', logitMode split n σ tot a on x m s = .ok s' := by
  unfold logitMode
  split
  · rename_i y
    obtain ⟨xs, hxs⟩ := spread_isOk hs n σ (y * tot)
    simp only [hxs]
    exact ⟨_, rfl⟩
  · rename_i hne
    cases hv : s.vec m with
    | none => exact ⟨_, rfl⟩
    | some f =>
      rcases hm with h | h | ⟨h1, h2⟩
      · simp only [if_neg h]; exact ⟨_, rfl⟩
      · rw [hv] at h; cases h
      · cases x with
        | none => exact absurd rfl h2
        | some y => exact absurd rfl (hne y h1)

/-! ## Path tables -/

theorem put_keys {K : Type} [DecidableEq K] (k : K) (more fresh : ℕ → ℚ) (xs : List (VPath K)) :
    (put k more fresh xs).map VPath.key = if k ∈ xs.map VPath.key then xs.map VPath.key else xs.map VPath.key ++ [k] := by
  induction xs with
  | nil => simp [put]
  | cons x xs ih =>
    unfold put
    by_cases h : x.key = k
    · rw [if_pos h, if_pos (by simp [h])]; simp [h]
    · rw [if_neg h, List.map_cons, ih]
      have : (k ∈ (x :: xs).map VPath.key) ↔ k ∈ xs.map VPath.key := by
        rw [List.map_cons, List.mem_cons]
        exact or_iff_right fun e => h e.symm
      by_cases hk : k ∈ xs.map VPath.key
      · rw [if_pos hk, if_pos (this.2 hk)]; rfl
      · rw [if_neg hk, if_neg (fun e => hk (this.1 e))]; rfl

theorem put_nodup {K : Type} [DecidableEq K] {k : K} {more fresh : ℕ → ℚ} {xs : List (VPath K)}
    (h : (xs.map VPath.key).Nodup) : ((put k more fresh xs).map VPath.key).Nodup := by
  rw [put_keys]
  split
  · exact h
  · rename_i hk
    rw [List.nodup_append]
    exact ⟨h, by simp, fun a ha b hb => by rw [List.mem_singleton] at hb; subst hb; intro e; subst e; exact hk ha⟩

theorem flowOf_cons {K : Type} [DecidableEq K] (x : VPath K) (xs : List (VPath K)) (k : K) (i : ℕ) :
    flowOf (x :: xs) k i = (if x.key = k then x.buf i else 0) + flowOf xs k i := by
  unfold flowOf
  rw [List.filter_cons]
  by_cases h : x.key = k
  · simp [h]
  · simp [h]

theorem flowOf_none {K : Type} [DecidableEq K] {xs : List (VPath K)} {k : K} (h : k ∉ xs.map VPath.key) (i : ℕ) :
    flowOf xs k i = 0 := by
  unfold flowOf
  rw [List.filter_eq_nil_iff.2]
  · rfl
  · intro x hx
    simp only [decide_eq_true_eq]
    intro e
    exact h (List.mem_map.2 ⟨x, hx, e⟩)

theorem put_flow {K : Type} [DecidableEq K] (k : K) (more fresh : ℕ → ℚ) (xs : List (VPath K)) (k' : K) (i : ℕ) :
    flowOf (put k more fresh xs) k' i = flowOf xs k' i +
      if k' = k then (if k ∈ xs.map VPath.key then more i else fresh i) else 0 := by
  induction xs with
  | nil =>
    unfold put
    rw [flowOf_cons]
    by_cases h : k' = k
    · subst h; simp [flowOf]
    · rw [if_neg (fun e => h e.symm), if_neg h]; simp [flowOf]
  | cons x xs ih =>
    unfold put
    by_cases h : x.key = k
    · rw [if_pos h, flowOf_cons, flowOf_cons]
      by_cases hk : k' = k
      · subst hk
        rw [if_pos rfl, if_pos h, if_pos rfl, if_pos (by simp [h])]; ring
      · rw [if_neg (fun e => hk e.symm), if_neg (fun e => hk (e.symm.trans h)), if_neg hk]; ring
    · rw [if_neg h, flowOf_cons, flowOf_cons, ih]
      have : (k ∈ (x :: xs).map VPath.key) ↔ k ∈ xs.map VPath.key := by
        rw [List.map_cons, List.mem_cons]
        exact or_iff_right fun e => h e.symm
      by_cases hk : k' = k
      · rw [if_pos hk, if_pos hk]
        by_cases hm : k ∈ xs.map VPath.key
        · rw [if_pos hm, if_pos (this.2 hm)]; ring
        · rw [if_neg hm, if_neg (fun e => hm (this.1 e))]; ring
      · rw [if_neg hk, if_neg hk]; ring

/-- Folding passenger paths into a table. -/
theorem fold_put {K A : Type} [DecidableEq K] (key : A → K) (flow : A → ℕ → ℚ) : ∀ (ps : List A) (xs : List (VPath K)),
    (xs.map VPath.key).Nodup →
    ((ps.foldl (fun acc p => put (key p) (flow p) (flow p) acc) xs).map VPath.key).Nodup ∧
    (∀ k, k ∈ (ps.foldl (fun acc p => put (key p) (flow p) (flow p) acc) xs).map VPath.key ↔
      k ∈ xs.map VPath.key ∨ ∃ p ∈ ps, key p = k) ∧
    ∀ k i, flowOf (ps.foldl (fun acc p => put (key p) (flow p) (flow p) acc) xs) k i =
      flowOf xs k i + ((ps.filter fun p => decide (key p = k)).map fun p => flow p i).sum := by
  intro ps
  induction ps with
  | nil => intro xs h; exact ⟨h, by simp, by simp⟩
  | cons p ps ih =>
    intro xs h
    rw [List.foldl_cons]
    obtain ⟨h1, h2, h3⟩ := ih _ (put_nodup (k := key p) (more := flow p) (fresh := flow p) h)
    refine ⟨h1, ?_, ?_⟩
    · intro k
      rw [h2 k, put_keys]
      by_cases hk : key p ∈ xs.map VPath.key
      · rw [if_pos hk]
        constructor
        · rintro (a | ⟨q, hq, e⟩)
          · exact Or.inl a
          · exact Or.inr ⟨q, by simp [hq], e⟩
        · rintro (a | ⟨q, hq, e⟩)
          · exact Or.inl a
          · rw [List.mem_cons] at hq
            rcases hq with rfl | hq
            · exact Or.inl (e ▸ hk)
            · exact Or.inr ⟨q, hq, e⟩
      · rw [if_neg hk, List.mem_append, List.mem_singleton]
        constructor
        · rintro ((a | rfl) | ⟨q, hq, e⟩)
          · exact Or.inl a
          · exact Or.inr ⟨p, by simp, rfl⟩
          · exact Or.inr ⟨q, by simp [hq], e⟩
        · rintro (a | ⟨q, hq, e⟩)
          · exact Or.inl (Or.inl a)
          · rw [List.mem_cons] at hq
            rcases hq with rfl | hq
            · exact Or.inl (Or.inr e.symm)
            · exact Or.inr ⟨q, hq, e⟩
    · intro k i
      rw [h3 k i, put_flow, ite_self, List.filter_cons]
      by_cases hk : k = key p
      · subst hk
        simp only [if_true, decide_true, List.map_cons, List.sum_cons]; ring
      · rw [if_neg hk]
        have : ¬ key p = k := fun e => hk e.symm
        simp [this]

theorem fold_trucks (T : ℕ) : ∀ (vs : List (VPath (List ℤ))) (xs : List (VPath (List ℤ))),
    (xs.map VPath.key).Nodup →
    let r := vs.foldl (fun acc v => put v.key (fun i => if T ≤ i ∧ i < 2 * T then v.buf i else 0)
      (fun i => if i < 2 * T then v.buf i else 0) acc) xs
    (r.map VPath.key).Nodup ∧
    (∀ k i, T ≤ i → i < 2 * T → flowOf r k i = flowOf xs k i + flowOf vs k i) ∧
    ((∀ v ∈ vs, ∀ i < T, v.buf i = 0) → ∀ k i, i < T → flowOf r k i = flowOf xs k i) := by
  intro vs
  induction vs with
  | nil => intro xs h; exact ⟨h, by simp [flowOf], by simp⟩
  | cons v vs ih =>
    intro xs h
    simp only [List.foldl_cons]
    obtain ⟨h1, h2, h3⟩ := ih _ (put_nodup (k := v.key) (more := fun i => if T ≤ i ∧ i < 2 * T then v.buf i else 0)
      (fresh := fun i => if i < 2 * T then v.buf i else 0) h)
    refine ⟨h1, ?_, ?_⟩
    · intro k i hi hi'
      have c1 : (if T ≤ i ∧ i < 2 * T then v.buf i else 0) = v.buf i := if_pos ⟨hi, hi'⟩
      have c2 : (if i < 2 * T then v.buf i else 0) = v.buf i := if_pos hi'
      rw [h2 k i hi hi', put_flow]
      simp only [c1, c2, ite_self]
      rw [flowOf_cons v vs]
      by_cases hk : k = v.key
      · rw [if_pos hk, if_pos hk.symm]; ring
      · rw [if_neg hk, if_neg (fun e => hk e.symm)]; ring
    · intro hz k i hi
      rw [h3 (fun w hw => hz w (by simp [hw])) k i hi, put_flow]
      have c1 : (if T ≤ i ∧ i < 2 * T then v.buf i else 0) = 0 := if_neg (by omega)
      have c2 : (if i < 2 * T then v.buf i else 0) = 0 := by rw [hz v (by simp) i hi, ite_self]
      simp only [c1, c2, ite_self, add_zero]

end Verif.MmDue

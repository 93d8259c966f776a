import Verif.Lemmas.Query
import Verif.Spec.Marginal

/-!
# Lemmas about arrival times
-/

namespace Verif.Query
open Curve Tt

/-- The arrival interval read from the departures of a link for the `n`-th vehicle. -/
theorem reported_arrival {outs : List (ℕ × ℕ)} {s n : ℕ} {f r : ℚ} (hn : 0 < n) (h : Reported outs s n f r) :
    ∃ e a : ℕ, IsLeast {e | n ≤ upTo outs e} e ∧ a ≤ e ∧ (upTo outs e = n → a = e) ∧
      (upTo outs e ≠ n → IsLeast {q | upTo outs (e - 1) ≤ upTo outs q} a) ∧ r = max f ((a : ℚ) - s) := by
  obtain ⟨e, he, h1, h2⟩ := h.2 hn
  by_cases hx : upTo outs e = n
  · exact ⟨e, e, he, le_refl _, fun _ => rfl, fun h => absurd hx h, h1 hx⟩
  · obtain ⟨q, hq, h3⟩ := h2 hx
    exact ⟨e, q, he, le_trans (hq.2 (show e - 1 ∈ _ from Set.mem_setOf.2 (le_refl _))) (Nat.sub_le e 1), fun h => absurd h hx, fun _ => hq, h3⟩

theorem reported_mono {outs : List (ℕ × ℕ)} {s s' n n' : ℕ} {f r r' : ℚ} (hs : s ≤ s') (hn : n ≤ n')
    (h : Reported outs s n f r) (h' : Reported outs s' n' f r') : (s : ℚ) + r ≤ s' + r' := by
  have hsq : (s : ℚ) ≤ s' := by exact_mod_cast hs
  rcases Nat.eq_zero_or_pos n with h0 | h0
  · rw [h.1 h0]
    have : f ≤ r' := by
      rcases Nat.eq_zero_or_pos n' with h0' | h0'
      · rw [h'.1 h0']
      · obtain ⟨_, _, _, _, _, _, e⟩ := reported_arrival h0' h'
        rw [e]; exact le_max_left _ _
    linarith
  · obtain ⟨e, a, h1, h2, h3, h4, h5⟩ := reported_arrival h0 h
    obtain ⟨e', a', g1, g2, g3, g4, g5⟩ := reported_arrival (lt_of_lt_of_le h0 hn) h'
    have hee : e ≤ e' := h1.2 (le_trans hn g1.1)
    have key : a ≤ a' := by
      rcases Nat.lt_or_ge e e' with hlt | hge
      · by_cases hx : upTo outs e' = n'
        · rw [g3 hx]; omega
        · have := (g4 hx).1
          have m : upTo outs e ≤ upTo outs (e' - 1) := upTo_mono outs (by omega)
          have : e ≤ a' := h1.2 (le_trans h1.1 (le_trans m this))
          omega
      · have : e = e' := le_antisymm hee hge
        subst this
        by_cases hx : upTo outs e = n'
        · rw [g3 hx]; exact h2
        · have hlt : n' < upTo outs e := lt_of_le_of_ne g1.1 (Ne.symm hx)
          have := (h4 (by omega)).unique (g4 hx)
          omega
    have hq : (a : ℚ) ≤ a' := by exact_mod_cast key
    have b1 := le_max_left f ((a' : ℚ) - s')
    have b2 := le_max_right f ((a' : ℚ) - s')
    rw [h5, g5]
    rcases max_cases f ((a : ℚ) - s) with ⟨e, _⟩ | ⟨e, _⟩ <;> rw [e] <;> linarith

theorem linkTime_fifo {T : ℕ} {ins outs : List (ℕ × ℕ)} {f : ℚ} {s s' : ℕ} {r r' : ℚ} (hs : s ≤ s')
    (h : LinkTime T ins outs f s r) (h' : LinkTime T ins outs f s' r') : (s : ℚ) + r ≤ s' + r' := by
  obtain ⟨S, hS, a⟩ := h
  obtain ⟨S', hS', a'⟩ := h'
  have := hS.unique hS'
  subst this
  have hm : min s S ≤ min s' S := by omega
  have m := reported_mono hm (upTo_mono ins hm) a a'
  have d : s + min s' S ≤ s' + min s S := by omega
  have d' : (s : ℚ) + (min s' S : ℕ) ≤ s' + (min s S : ℕ) := by exact_mod_cast d
  linarith

theorem linkTime_ge {T : ℕ} {ins outs : List (ℕ × ℕ)} {f : ℚ} {s : ℕ} {r : ℚ} (h : LinkTime T ins outs f s r) :
    f ≤ r := by
  obtain ⟨S, _, a⟩ := h
  rcases Nat.eq_zero_or_pos (upTo ins (min s S)) with h0 | h0
  · rw [a.1 h0]
  · obtain ⟨_, _, _, _, _, _, e⟩ := reported_arrival h0 a
    rw [e]; exact le_max_left _ _

theorem ticks_mono {x y : ℚ} (h : x ≤ y) : Sp.ticks x ≤ Sp.ticks y := by
  unfold Sp.ticks
  by_cases hy : y < 1
  · rw [if_pos hy, if_pos (lt_of_le_of_lt h hy)]
  · rw [if_neg hy]
    have fy : (1 : ℤ) ≤ ⌊y⌋ := Int.le_floor.2 (by push_cast; linarith)
    by_cases hx : x < 1
    · rw [if_pos hx]; split <;> omega
    · rw [if_neg hx]
      have fx : (1 : ℤ) ≤ ⌊x⌋ := Int.le_floor.2 (by push_cast; linarith)
      have hf : ⌊x⌋ ≤ ⌊y⌋ := Int.floor_mono h
      rcases lt_or_eq_of_le hf with hlt | heq
      · split <;> split <;> omega
      · rw [heq]
        have e1 : (⌊y⌋ : ℚ) ≤ y := Int.floor_le y
        have e2 : (⌊y⌋ : ℚ) ≤ x := heq ▸ Int.floor_le x
        have e3 : (0 : ℚ) < ⌊y⌋ := by exact_mod_cast fy
        have m1 : max |x| |(⌊y⌋ : ℚ)| = x := by
          rw [abs_of_nonneg (by linarith), abs_of_nonneg e3.le, max_eq_left e2]
        have m2 : max |y| |(⌊y⌋ : ℚ)| = y := by
          rw [abs_of_nonneg (by linarith), abs_of_nonneg e3.le, max_eq_left e1]
        rw [m1, m2, abs_of_nonneg (by linarith), abs_of_nonneg (by linarith)]
        split_ifs with c1 c2 c2 <;> try omega
        exfalso; apply c1; linarith

theorem ticks_add {x : ℚ} (k : ℕ) : Sp.ticks (x + k) ≤ Sp.ticks x + k := by
  have hk : (0 : ℚ) ≤ k := by positivity
  by_cases hx : x < 1
  · have h1 : Sp.ticks x = 1 := by unfold Sp.ticks; rw [if_pos hx]
    rw [h1]
    have : Sp.ticks (x + k) ≤ Sp.ticks ((1 + k : ℕ) : ℚ) := ticks_mono (by push_cast; linarith)
    refine le_trans this ?_
    unfold Sp.ticks
    rw [if_neg (by push_cast; linarith), Int.floor_natCast, if_pos (by
      simp only [Int.cast_natCast, sub_self, abs_zero]; positivity)]
    simp
  · have fx : (1 : ℤ) ≤ ⌊x⌋ := Int.le_floor.2 (by push_cast; linarith)
    have ff : ⌊x + (k : ℚ)⌋ = ⌊x⌋ + k := Int.floor_add_natCast x k
    unfold Sp.ticks
    rw [if_neg hx, if_neg (by linarith), ff]
    have e1 : (⌊x⌋ : ℚ) ≤ x := Int.floor_le x
    have e3 : (0 : ℚ) < ⌊x⌋ := by exact_mod_cast fx
    have m1 : max |x| |(⌊x⌋ : ℚ)| = x := by
      rw [abs_of_nonneg (by linarith), abs_of_nonneg e3.le, max_eq_left e1]
    have m2 : max |x + k| |((⌊x⌋ + k : ℤ) : ℚ)| = x + k := by
      push_cast
      rw [abs_of_nonneg (by linarith), abs_of_nonneg (by linarith), max_eq_left (by linarith)]
    rw [m1, m2]
    push_cast
    rw [abs_of_nonneg (by linarith), abs_of_nonneg (by linarith)]
    split_ifs with c1 c2 c2
    · omega
    · omega
    · exfalso; apply c1; linarith
    · omega

theorem ticks_fifo {s s' : ℕ} {x y : ℚ} (hs : s ≤ s') (h : (s : ℚ) + x ≤ s' + y) :
    s + Sp.ticks x ≤ s' + Sp.ticks y := by
  have h1 : Sp.ticks x ≤ Sp.ticks (y + (s' - s : ℕ)) := ticks_mono (by push_cast [Nat.cast_sub hs]; linarith)
  have h2 := ticks_add (x := y) (s' - s)
  omega

theorem tripTime_fifo {M : ℕ} {τ : ℤ → ℕ → ℚ} : ∀ (ls : List ℤ) (t t' : ℕ), t ≤ t' →
    (∀ l ∈ ls, ∀ s s', s ≤ s' → s' < M → (s : ℚ) + τ l s ≤ s' + τ l s') → 0 < M →
    t + tripTime M τ t ls ≤ t' + tripTime M τ t' ls := by
  intro ls
  induction ls with
  | nil => intro t t' h _ _; simpa [tripTime] using h
  | cons l ls ih =>
    intro t t' h hf hM
    have h1 := hf l (by simp) (min t (M - 1)) (min t' (M - 1)) (by omega) (by omega)
    have h2 : t + Sp.ticks (τ l (min t (M - 1))) ≤ t' + Sp.ticks (τ l (min t' (M - 1))) := by
      refine ticks_fifo h ?_
      have d : t + min t' (M - 1) ≤ t' + min t (M - 1) := by omega
      have d' : (t : ℚ) + (min t' (M - 1) : ℕ) ≤ t' + (min t (M - 1) : ℕ) := by exact_mod_cast d
      linarith
    have h3 := ih _ _ h2 (fun l hl => hf l (by simp [hl])) hM
    simp only [tripTime]
    omega

end Verif.Query

namespace Verif.Marg
open Curve Tt Query Ults Lnk

variable {V : Type}

theorem getResult_all {σ : ℚ} (hσ : 0 < σ) {T : ℕ} (hT : T < 10000) {h : List (ℕ × ℕ)} (hh : History T h)
    {c : Curve} (hc : Holds σ T h c) (t : ℕ) : getResult c (t : ℚ) = .ok ((upTo h t : ℚ) / σ) := by
  by_cases ht : t < 10000
  · exact hc.get t ht
  · obtain ⟨d, b, hd⟩ := exists_last hc.ok.ne
    have hb : c.getLast? = some b := by rw [hd]; simp
    obtain ⟨b', h1, h2⟩ := back_holds hσ hc
    have e : b' = b := by
      have : back c = .ok b := by unfold back; rw [hb]
      rw [this] at h1; exact (Res.ok.inj h1).symm
    subst e
    obtain ⟨n, hn, e1, _⟩ := hc.recs b' (by rw [hd]; simp)
    rw [getResult_after_last hc.ok hb (by rw [e1]; exact_mod_cast (by omega : n ≤ t)), h2]
    have : upTo h t = upTo h T := le_antisymm (upTo_le_total hh t) (upTo_mono h (by omega))
    rw [this]

theorem toInt_int {n : ℤ} (h0 : 0 ≤ n) (h1 : n ≤ 2147483647) : toInt (n : ℚ) = .ok n := by
  rw [toInt_ok_of (by exact_mod_cast h0) (by exact_mod_cast (by omega : n < 2147483648)), Int.floor_intCast]

theorem slope_eq {σ : ℚ} (hσ : 0 < σ) {T : ℕ} (hT : T < 10000) {h : List (ℕ × ℕ)} (hh : History T h)
    {c : Curve} (hc : Holds σ T h c) (j : ℕ) (hj : j + 1 ≤ 2147483647) :
    slope c ((j : ℤ) : ℚ) (((j : ℤ) + 1 : ℤ) : ℚ) = .ok (some ((during h j : ℚ) / σ)) := by
  obtain ⟨b, h1, h2⟩ := back_holds hσ hc
  have hmono := upTo_mono h (Nat.le_succ j)
  unfold slope
  rw [h1, Res.bind_ok']
  by_cases hx : ((j : ℤ) : ℚ) > b.1
  · rw [if_pos hx]
    have hb : c.getLast? = some b := by
      unfold back at h1
      revert h1
      cases c.getLast? with
      | none => intro h; cases h
      | some x => intro h; rw [Res.ok.inj h]
    obtain ⟨n, hn, e1, e2⟩ := hc.recs b (List.mem_of_getLast? hb)
    rw [e1] at hx
    have hx' : n < j := by exact_mod_cast hx
    rw [h2] at e2
    have e3 : upTo h n = upTo h T := by
      have := (div_left_inj' hσ.ne').1 e2
      exact_mod_cast this.symm
    have e4 := upTo_le_total hh (j + 1)
    have e5 := upTo_mono h (show n ≤ j by omega)
    have : during h j = 0 := by unfold during; omega
    rw [this]; simp
  · rw [if_neg hx]
    have t1 : toInt (((j : ℤ) + 1 : ℤ) : ℚ) = .ok ((j : ℤ) + 1) := toInt_int (by omega) (by omega)
    have t2 : toInt (((j : ℤ) : ℚ)) = .ok (j : ℤ) := toInt_int (by omega) (by omega)
    rw [t1, Res.bind_ok', t2, Res.bind_ok']
    have : ((j : ℤ) + 1 - j).toNat = 1 := by omega
    rw [this]
    simp only [List.range_one, slopeSum]
    have g1 := getResult_all hσ hT hh hc j
    have g2 := getResult_all hσ hT hh hc (j + 1)
    rw [show (((j : ℤ) : ℚ) + ((0 : ℕ) : ℚ)) = (j : ℚ) by push_cast; ring, g1, Res.bind_ok',
      show ((j : ℚ) + 1) = ((j + 1 : ℕ) : ℚ) by push_cast; ring, g2, Res.bind_ok', Res.bind_ok', Res.bind_ok']
    unfold divO
    rw [if_neg (by simp)]
    unfold during
    push_cast [Nat.cast_sub hmono]
    congr 2
    field_simp
    ring

theorem rateEq_iff {σ : ℚ} (hσ : 0 < σ) {a : ℕ} {n : ℤ} (ha : a < 10000) (hn : 0 ≤ n) (hn' : n < 10000) :
    rateEq (some ((a : ℚ) / σ)) σ n = true ↔ (a : ℤ) = n := by
  unfold rateEq
  have : (a : ℚ) / σ * σ = (a : ℚ) := by field_simp
  simp only [this]
  lift n to ℕ using hn
  have := countEq (σ := 1) one_pos ha (show n < 10000 by omega)
  simp only [div_one] at this
  rw [Int.cast_natCast, this]
  exact_mod_cast Iff.rfl

theorem rateLt_iff {σ : ℚ} (hσ : 0 < σ) {a : ℕ} {n : ℤ} (ha : a < 10000) (hn : 0 ≤ n) (hn' : n < 10000) :
    rateLt (some ((a : ℚ) / σ)) σ n = true ↔ (a : ℤ) < n := by
  unfold rateLt
  have : (a : ℚ) / σ * σ = (a : ℚ) := by field_simp
  simp only [this]
  lift n to ℕ using hn
  have := countLt (σ := 1) one_pos ha (show n < 10000 by omega)
  simp only [div_one] at this
  rw [Int.cast_natCast, this]
  exact_mod_cast Iff.rfl

/-- The marks of a table. -/
theorem rd_marks {tt : List ℚ} {τ : ℕ → ℚ} {f T : ℕ} (h : ∀ t < T, tt[t]? = some (τ t)) {t : ℕ} (ht : t < T) :
    rd (marks f tt) t = .ok (decide ((f : ℚ) < τ t)) := by
  unfold rd marks
  rw [List.getElem?_map, h t ht]
  simp

theorem endScan_eq {cong : List Bool} {τ : ℕ → ℚ} {f : ℚ} {T : ℕ}
    (h : ∀ t < T, rd cong t = .ok (decide (f < τ t))) : ∀ (n a : ℕ), 1 ≤ a → a + n = T →
    ∃ r, endScan cong (List.range' a n) = .ok r ∧
      ((∃ k, r = some k ∧ IsLeast {k | a ≤ k ∧ k < T ∧ f < τ (k - 1) ∧ τ k ≤ f} k) ∨
        (r = none ∧ ∀ k, a ≤ k → k < T → f < τ (k - 1) → f < τ k)) := by
  intro n
  induction n with
  | zero =>
    intro a _ e
    exact ⟨none, rfl, Or.inr ⟨rfl, fun k h1 h2 => by omega⟩⟩
  | succ n ih =>
    intro a ha e
    obtain ⟨r, h1, h2⟩ := ih (a + 1) (by omega) (by omega)
    rw [List.range'_succ]
    unfold endScan
    rw [h (a - 1) (by omega), Res.bind_ok']
    have lift : ¬ (f < τ (a - 1) ∧ τ a ≤ f) → ((∃ k, r = some k ∧ IsLeast {k | a ≤ k ∧ k < T ∧ f < τ (k - 1) ∧ τ k ≤ f} k) ∨
        (r = none ∧ ∀ k, a ≤ k → k < T → f < τ (k - 1) → f < τ k)) := by
      intro hn
      rcases h2 with ⟨k, rfl, hk⟩ | ⟨rfl, hk⟩
      · refine Or.inl ⟨k, rfl, ⟨by have := hk.1.1; omega, hk.1.2⟩, fun y hy => ?_⟩
        rcases Nat.lt_or_ge a y with hlt | hge
        · exact hk.2 ⟨hlt, hy.2⟩
        · have : y = a := le_antisymm hge hy.1
          subst this
          exact absurd ⟨hy.2.2.1, hy.2.2.2⟩ hn
      · refine Or.inr ⟨rfl, fun k k1 k2 k3 => ?_⟩
        rcases Nat.lt_or_ge a k with hlt | hge
        · exact hk k hlt k2 k3
        · have : k = a := le_antisymm hge k1
          subst this
          by_contra hc
          exact hn ⟨k3, not_lt.1 hc⟩
    by_cases c1 : f < τ (a - 1)
    · simp only [c1, decide_true, if_true]
      rw [h a (by omega), Res.bind_ok']
      by_cases c2 : f < τ a
      · simp only [c2, decide_true, if_true]
        exact ⟨r, h1, lift fun hn => absurd hn.2 (not_le.2 c2)⟩
      · simp only [c2, decide_false, Bool.false_eq_true, if_false]
        exact ⟨some a, rfl, Or.inl ⟨a, rfl, ⟨le_refl _, by omega, c1, not_lt.1 c2⟩, fun y hy => hy.1⟩⟩
    · simp only [c1, decide_false, Bool.false_eq_true, if_false]
      exact ⟨r, h1, lift fun hn => c1 hn.1⟩

theorem congEnd_eq {cong : List Bool} {τ : ℕ → ℚ} {f : ℚ} {T late i : ℕ} (hi : i < T)
    (h : ∀ t < T, rd cong t = .ok (decide (f < τ t))) :
    ∃ d, congEnd cong T late i = .ok d ∧ NextEnd T τ f late i d := by
  unfold congEnd
  by_cases e : i = T - 1
  · rw [if_pos e]
    exact ⟨late, rfl, Or.inr ⟨fun k h1 h2 => by omega, rfl⟩⟩
  · rw [if_neg e]
    obtain ⟨r, h1, h2⟩ := endScan_eq h (T - (i + 1)) (i + 1) (by omega) (by omega)
    rw [h1, Res.bind_ok']
    rcases h2 with ⟨k, rfl, hk⟩ | ⟨rfl, hk⟩
    · exact ⟨k, rfl, Or.inl ⟨⟨hk.1.1, hk.1.2⟩, fun y hy => hk.2 ⟨hy.1, hy.2⟩⟩⟩
    · exact ⟨late, rfl, Or.inr ⟨fun k k1 k2 => hk k k1 k2, rfl⟩⟩

/-- From a congested interval on, the next end of congestion is the first interval without congestion. -/
theorem nextEnd_free {T : ℕ} {τ : ℕ → ℚ} {f : ℚ} {late i d : ℕ} (hi : f < τ i) (h : NextEnd T τ f late i d) :
    FirstFree T τ f late i d := by
  have step : ∀ k, i < k → k < T → (∀ y, i < y → y < k → f < τ y) → f < τ (k - 1) := by
    intro k h1 h2 h3
    rcases Nat.lt_or_ge i (k - 1) with h4 | h4
    · exact h3 _ h4 (by omega)
    · have : k - 1 = i := by omega
      rw [this]; exact hi
  rcases h with h | ⟨h, rfl⟩
  · refine Or.inl ⟨⟨h.1.1, h.1.2.1, h.1.2.2.2⟩, fun y hy => ?_⟩
    by_contra hc
    have hy' : y < d := not_le.1 hc
    have hex : ∃ z, i < z ∧ z < d ∧ τ z ≤ f := ⟨y, hy.1, hy', hy.2.2⟩
    obtain ⟨m, hm⟩ : ∃ m, IsLeast {z | i < z ∧ z < d ∧ τ z ≤ f} m := by
      classical
      exact ⟨Nat.find hex, Nat.find_spec hex, fun z hz => Nat.find_min' hex hz⟩
    have hm1 := hm.1
    have hdT := h.1.2.1
    have hp := step m hm1.1 (by have := hm1.2.1; omega) (fun y y1 y2 => by
      by_contra hc
      have := hm.2 ⟨y1, lt_trans y2 hm1.2.1, not_lt.1 hc⟩
      omega)
    have := h.2 ⟨hm1.1, by have := hm1.2.1; omega, hp, hm1.2.2⟩
    have := hm1.2.1
    omega
  · refine Or.inr ⟨fun k => ?_, rfl⟩
    induction k using Nat.strong_induction_on with
    | _ k ih =>
      intro h1 h2
      exact h k h1 h2 (step k h1 h2 fun y y1 y2 => ih y y2 y1 (by omega))

theorem Ready.above {T T' : ℕ} {u σ : ℚ} {ins outs : List (ℕ × ℕ)} {f : ℕ} {l : DLink V} {tt : List ℚ} {τ : ℕ → ℚ}
    (h : Ready T T' u σ ins outs f l tt τ) : ∀ t < T, (f : ℚ) ≤ τ t := fun t ht => linkTime_ge (h.times t ht)

theorem during_lt {T' : ℕ} {h : List (ℕ × ℕ)} (hh : History T' h) (hb : upTo h T' < 10000) (t : ℕ) :
    during h t < 10000 := by
  have := upTo_le_total hh (t + 1)
  unfold during
  omega

theorem dissOne_eq {fn : String} {T T' late : ℕ} {u σ : ℚ} {ins outs : List (ℕ × ℕ)} {f : ℕ} {l : DLink V}
    {tt tt' : List ℚ} {τ : ℕ → ℚ} (h : Ready T T' u σ ins outs f l tt τ) {i : ℕ} (hi : i < T)
    (ht : tt'[i]? = some (τ i)) :
    ∃ d, dissOne fn T late u σ l f (marks f tt) tt' i = .ok d ∧
      Dissipates T τ f late (AtLimit u σ l.link outs f) i d := by
  have hm : ∀ t < T, rd (marks f tt) t = .ok (decide ((f : ℚ) < τ t)) := fun t ht => rd_marks h.table ht
  obtain ⟨d, hd, hn⟩ := congEnd_eq (late := late) hi hm
  unfold dissOne
  rw [hm i hi, Res.bind_ok']
  by_cases hc : (f : ℚ) < τ i
  · simp only [hc, decide_true, if_true]
    exact ⟨d, hd, fun _ => nextEnd_free hc hn, fun hx => absurd hc (not_lt.2 hx), fun hx => absurd hc (not_lt.2 hx)⟩
  · simp only [hc, decide_false, Bool.false_eq_true, if_false]
    have hr : rd tt' i = .ok (τ i) := by unfold rd; rw [ht]
    have he : τ i = (f : ℚ) := le_antisymm (not_lt.1 hc) (h.above i hi)
    rw [hr, Res.bind_ok', he]
    have := approxEq_self (f : ℚ)
    simp only [Int.cast_natCast, this, if_true]
    rcases h.kind with ⟨q, hq⟩ | ⟨n, m, n1, m1, n2, m2, _, ⟨k, c, hk, hl, hm⟩⟩
    · rw [hq]
      refine ⟨i, rfl, fun hx => absurd hx hc, fun _ hx => ?_, fun _ _ => rfl⟩
      obtain ⟨_, _, e, _⟩ := hx
      cases e
    · rw [hk]
      simp only
      obtain ⟨cout, ho, hho⟩ := run_holds h.scalar h.time h.histOut
      have : cout = l.nOut := by have := h.nOut; rw [ho] at this; exact Res.ok.inj this
      subst this
      have hs := slope_eq h.scalar h.time h.histOut hho (i + f) (by have := h.range; omega)
      rw [show ((i + f : ℕ) : ℤ) = (i : ℤ) + f by push_cast; ring] at hs
      rw [hs, Res.bind_ok', hl]
      simp only [capVeh, Res.bind_ok']
      have hiff := rateEq_iff h.scalar (during_lt h.histOut h.count.2 (i + f)) (n := ⌊c.cap * u * σ⌋)
        (by rw [← hm]; exact m2) (by rw [← hm]; exact m1)
      by_cases hlim : rateEq (some ((during outs (i + f) : ℚ) / σ)) σ ⌊c.cap * u * σ⌋ = true
      · rw [if_pos hlim]
        refine ⟨d, hd, fun hx => absurd hx hc, fun _ _ => hn, fun _ hx => absurd ?_ hx⟩
        exact ⟨k, c, rfl, hl, hiff.1 hlim⟩
      · rw [if_neg hlim]
        refine ⟨i, rfl, fun hx => absurd hx hc, fun _ hx => absurd ?_ hlim, fun _ _ => rfl⟩
        obtain ⟨k', c', e1, e2, e3⟩ := hx
        cases e1
        rw [hl] at e2; cases e2
        exact hiff.2 e3

theorem rowOf_eq {g : ℕ → Res ℕ} {P : ℕ → ℕ → Prop} : ∀ (is : List ℕ), (∀ i ∈ is, ∃ d, g i = .ok d ∧ P i d) →
    ∃ row, rowOf g is = .ok row ∧ List.Forall₂ P is row := by
  intro is
  induction is with
  | nil => intro _; exact ⟨[], rfl, .nil⟩
  | cons i is ih =>
    intro h
    obtain ⟨d, h1, h2⟩ := h i (by simp)
    obtain ⟨row, h3, h4⟩ := ih fun j hj => h j (by simp [hj])
    refine ⟨d :: row, ?_, .cons h2 h4⟩
    unfold rowOf
    rw [h1, Res.bind_ok', h3, Res.bind_ok']

theorem liftScan_eq {T T' : ℕ} {u σ : ℚ} {ins outs : List (ℕ × ℕ)} {f : ℕ} {l : DLink V} {tt : List ℚ} {τ : ℕ → ℚ}
    (h : Ready T T' u σ ins outs f l tt τ) : ∀ (n a : ℕ), a + n = T →
    ∃ r, liftScan u σ l (List.range' a n) = .ok r ∧
      ((∃ k, r = some k ∧ IsLeast {k | a ≤ k ∧ k < T ∧ HasRoom u σ l.link ins k} k) ∨
        (r = none ∧ ∀ k, a ≤ k → k < T → ¬ HasRoom u σ l.link ins k)) := by
  intro n
  induction n with
  | zero =>
    intro a e
    exact ⟨none, rfl, Or.inr ⟨rfl, fun k h1 h2 => by omega⟩⟩
  | succ n ih =>
    intro a e
    rw [List.range'_succ]
    unfold liftScan
    rcases h.kind with ⟨q, hq⟩ | ⟨m, m', n1, m1, n2, m2, ⟨k, c, hk, hl, hm⟩, _⟩
    · rw [hq]
      exact ⟨some a, rfl, Or.inl ⟨a, rfl, ⟨le_refl _, by omega, Or.inl ⟨q, rfl⟩⟩, fun y hy => hy.1⟩⟩
    · rw [hk]
      simp only
      obtain ⟨cin, hi, hhi⟩ := run_holds h.scalar h.time h.histIn
      have : cin = l.nIn := by have := h.nIn; rw [hi] at this; exact Res.ok.inj this
      subst this
      rw [slope_eq h.scalar h.time h.histIn hhi a (by have := h.range; omega), Res.bind_ok', hl]
      simp only [capVeh, Res.bind_ok']
      have hiff := rateLt_iff h.scalar (during_lt h.histIn h.count.1 a) (n := ⌊c.cap * u * σ⌋)
        (by rw [← hm]; exact n2) (by rw [← hm]; exact n1)
      have room : HasRoom u σ l.link ins a ↔ (during ins a : ℤ) < ⌊c.cap * u * σ⌋ := by
        constructor
        · rintro (⟨q, hq⟩ | ⟨n, ⟨k', c', e1, e2, e3⟩, hlt⟩)
          · rw [hk] at hq; cases hq
          · rw [hk] at e1; cases e1
            rw [hl] at e2; cases e2
            rw [← e3]; exact hlt
        · intro hx
          exact Or.inr ⟨_, ⟨k, c, hk, hl, rfl⟩, hx⟩
      by_cases hlim : rateLt (some ((during ins a : ℚ) / σ)) σ ⌊c.cap * u * σ⌋ = true
      · rw [if_pos hlim]
        rw [hk] at room
        exact ⟨some a, rfl, Or.inl ⟨a, rfl, ⟨le_refl _, by omega, room.2 (hiff.1 hlim)⟩, fun y hy => hy.1⟩⟩
      · rw [if_neg hlim]
        have hno : ¬ HasRoom u σ l.link ins a := fun hx => hlim (hiff.2 (room.1 hx))
        rw [hk] at hno
        obtain ⟨r, h1, h2⟩ := ih (a + 1) (by omega)
        rw [hk] at h2
        refine ⟨r, h1, ?_⟩
        rcases h2 with ⟨k, rfl, hk⟩ | ⟨rfl, hk⟩
        · refine Or.inl ⟨k, rfl, ⟨by have := hk.1.1; omega, hk.1.2⟩, fun y hy => ?_⟩
          rcases Nat.lt_or_ge a y with hlt | hge
          · exact hk.2 ⟨hlt, hy.2⟩
          · have : y = a := le_antisymm hge hy.1
            subst this
            exact absurd hy.2.2 hno
        · refine Or.inr ⟨rfl, fun k k1 k2 => ?_⟩
          rcases Nat.lt_or_ge a k with hlt | hge
          · exact hk k hlt k2
          · have : k = a := le_antisymm hge k1
            subst this; exact hno

theorem marginal_loop {T T' : ℕ} {u σ : ℚ} {ins outs : List (ℕ × ℕ)} {f : ℕ} {l : DLink V} {tt : List ℚ} {τ : ℕ → ℚ}
    (h : Ready T T' u σ ins outs f l tt τ) : ∀ (n i : ℕ) (s : Row), i + n = T → (∀ k, i ≤ k → k < T → s.tt[k]? = some (τ k)) →
    T ≤ s.cost.length → ∃ s', Res.foldlM (marginalStep T u σ l f (marks f tt)) s (List.range' i n) = .ok s' ∧
      (∀ k, i ≤ k → k < T → ∃ m, s'.tt[k]? = some m ∧ s'.cost[k]? = some m ∧
        MarginalTime T τ f (AtLimit u σ l.link outs f) (HasRoom u σ l.link ins) k m) ∧
      (∀ k < i, s'.tt[k]? = s.tt[k]? ∧ s'.cost[k]? = s.cost[k]?) := by
  intro n
  induction n with
  | zero =>
    intro i s e _ _
    exact ⟨s, rfl, fun k h1 h2 => by omega, fun k _ => ⟨rfl, rfl⟩⟩
  | succ n ih =>
    intro i s e ht hc
    have htl : i < s.tt.length := (List.getElem?_eq_some_iff.1 (ht i (le_refl _) (by omega))).1
    have key : ∃ d lift : ℕ, ∃ s1, marginalStep T u σ l f (marks f tt) s i = .ok s1 ∧
        s1.tt = s.tt.set i (((d : ℤ) - lift + f : ℤ) : ℚ) ∧ s1.cost = s.cost.set i (((d : ℤ) - lift + f : ℤ) : ℚ) ∧
        MarginalTime T τ f (AtLimit u σ l.link outs f) (HasRoom u σ l.link ins) i (((d : ℤ) - lift + f : ℤ) : ℚ) := by
      obtain ⟨r, h1, h2⟩ := liftScan_eq h (T - i) i (by omega)
      unfold marginalStep
      rw [h1, Res.bind_ok']
      rcases h2 with ⟨k, rfl, hk⟩ | ⟨rfl, hk⟩
      · obtain ⟨d, d1, d2⟩ := dissOne_eq (fn := "MNM_Dso::get_link_marginal_cost") (late := 2 * T) h hk.1.2.1
          (ht k hk.1.1 hk.1.2.1)
        refine ⟨d, k, ⟨fun j => if j = i then d else s.diss j, s.tt.set i (((d : ℤ) - k + f : ℤ) : ℚ),
          s.cost.set i (((d : ℤ) - k + f : ℤ) : ℚ)⟩, ?_, rfl, rfl, Or.inl ⟨k, d, hk, d2, by push_cast; ring⟩⟩
        simp only
        rw [d1, Res.bind_ok', if_pos ⟨htl, by omega⟩]
        rfl
      · refine ⟨2 * T, T, ⟨fun j => if j = i then 2 * T else s.diss j, s.tt.set i (((2 * T : ℕ) - T + f : ℤ) : ℚ),
          s.cost.set i (((2 * T : ℕ) - T + f : ℤ) : ℚ)⟩, ?_, rfl, rfl, Or.inr ⟨hk, by push_cast; ring⟩⟩
        simp only
        rw [Res.bind_ok', if_pos ⟨htl, by omega⟩]
        rfl
    obtain ⟨d, lift, s1, k1, k2, k3, k4⟩ := key
    obtain ⟨s', g1, g2, g3⟩ := ih (i + 1) s1 (by omega) (fun k a b => by
      rw [k2, List.getElem?_set_ne (by omega)]; exact ht k (by omega) b) (by rw [k3, List.length_set]; exact hc)
    refine ⟨s', ?_, fun k a b => ?_, fun k a => ?_⟩
    · rw [List.range'_succ, Res.foldlM_cons, k1]
      exact g1
    · rcases Nat.lt_or_ge i k with hlt | hge
      · exact g2 k hlt b
      · have : k = i := le_antisymm hge a
        subst this
        obtain ⟨e1, e2⟩ := g3 k (by omega)
        refine ⟨_, ?_, ?_, k4⟩
        · rw [e1, k2, List.getElem?_set_self htl]
        · rw [e2, k3, List.getElem?_set_self (by omega)]
    · obtain ⟨e1, e2⟩ := g3 k (by omega)
      rw [e1, e2, k2, k3, List.getElem?_set_ne (by omega), List.getElem?_set_ne (by omega)]
      exact ⟨rfl, rfl⟩

end Verif.Marg

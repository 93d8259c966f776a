import Verif.Spec.Query
import Verif.Lemmas.TravelTime
import Verif.Lemmas.Tdsp

/-! # Lemmas about the queries after a loading -/

namespace Verif.Query
open Curve Ults Tt

/-! ## Single links -/

/-- The link `cc` is the loaded link `c0`, possibly with its last valid time remembered. -/
structure Same (T : ℕ) (c0 cc : LinkCc) : Prop where
  nIn : cc.nIn = c0.nIn
  nOut : cc.nOut = c0.nOut
  fftt : cc.fftt = c0.fftt
  lv : cc.lastValid = -1 ∨ getLastValidTime c0.nIn c0.nOut T = .ok cc.lastValid

theorem Same.refl {σ : ℚ} {T : ℕ} {ins outs : List (ℕ × ℕ)} {cc : LinkCc} (h : Loaded σ T ins outs cc) :
    Same T cc cc := ⟨rfl, rfl, rfl, Or.inl h.fresh⟩

theorem linkTime_travel {σ : ℚ} {T : ℕ} {ins outs : List (ℕ × ℕ)} {c0 : LinkCc} (h : Loaded σ T ins outs c0) :
    ∃ lv : ℚ, getLastValidTime c0.nIn c0.nOut T = .ok lv ∧ 0 ≤ lv ∧ ∀ start : ℕ, ∃ r,
      travelTimeFromCc start c0.nIn c0.nOut lv c0.fftt false = .ok r ∧ LinkTime T ins outs c0.fftt start r := by
  obtain ⟨cin, hci, hin⟩ := run_holds h.scalar.1 h.time h.histIn
  obtain ⟨cout, hco, hout⟩ := run_holds h.scalar.1 h.time h.histOut
  have e1 : cin = c0.nIn := by have := h.nIn; rw [hci] at this; exact Res.ok.inj this
  have e2 : cout = c0.nOut := by have := h.nOut; rw [hco] at this; exact Res.ok.inj this
  subst e1 e2
  obtain ⟨lv, S, h1, h2, h3, h4, h5⟩ := travel_holds h.scalar.1 h.scalar.2 h.time hin hout (upTo_zero h.histIn)
    (upTo_zero h.histOut) (fun t => lt_of_le_of_lt (upTo_le_total h.histIn t) h.count) h.le (upTo_le_total h.histOut) h.fftt
  refine ⟨lv, h1, h2, fun start => ?_⟩
  obtain ⟨r, h6, h7⟩ := h5 start
  exact ⟨r, h6, S, h4, h7⟩

theorem getTravelTime_same {σ : ℚ} {T : ℕ} {ins outs : List (ℕ × ℕ)} {c0 cc : LinkCc} (h : Loaded σ T ins outs c0)
    (hs : Same T c0 cc) (start : ℕ) :
    ∃ r cc', getTravelTime cc (start : ℚ) T = .ok (r, cc') ∧ Same T c0 cc' ∧
      LinkTime T ins outs c0.fftt start r := by
  obtain ⟨lv, h1, h2, h3⟩ := linkTime_travel h
  obtain ⟨r, h4, h5⟩ := h3 start
  refine ⟨r, { cc with lastValid := lv }, ?_, ⟨hs.nIn, hs.nOut, hs.fftt, Or.inr h1⟩, h5⟩
  unfold getTravelTime
  have : (if cc.lastValid < 0 then getLastValidTime cc.nIn cc.nOut (T : ℤ) else .ok cc.lastValid) = .ok lv := by
    rcases hs.lv with e | e
    · rw [e, if_pos (by norm_num), hs.nIn, hs.nOut, h1]
    · rw [h1] at e
      have e := Res.ok.inj e
      rw [← e, if_neg (by linarith)]
  rw [this, Res.bind_ok', hs.nIn, hs.nOut, hs.fftt, h4, Res.bind_ok']

theorem reported_unique {outs : List (ℕ × ℕ)} {s n : ℕ} {f r r' : ℚ} (h : Reported outs s n f r)
    (h' : Reported outs s n f r') : r = r' := by
  rcases Nat.eq_zero_or_pos n with hn | hn
  · rw [h.1 hn, h'.1 hn]
  · obtain ⟨e, he, h1, h2⟩ := h.2 hn
    obtain ⟨e', he', h1', h2'⟩ := h'.2 hn
    have := he.unique he'
    subst this
    by_cases hc : upTo outs e = n
    · rw [h1 hc, h1' hc]
    · obtain ⟨q, hq, a⟩ := h2 hc
      obtain ⟨q', hq', a'⟩ := h2' hc
      have := hq.unique hq'
      subst this
      rw [a, a']

theorem linkTime_unique {T : ℕ} {ins outs : List (ℕ × ℕ)} {f : ℚ} {s : ℕ} {r r' : ℚ}
    (h : LinkTime T ins outs f s r) (h' : LinkTime T ins outs f s r') : r = r' := by
  obtain ⟨S, hS, a⟩ := h
  obtain ⟨S', hS', a'⟩ := h'
  have := hS.unique hS'
  subst this
  exact reported_unique a a'

/-- Queries after the end are answered for the end. -/
theorem linkTime_clamp {T : ℕ} {ins outs : List (ℕ × ℕ)} {f : ℚ} {s : ℕ} {r : ℚ}
    (h : LinkTime T ins outs f s r) : LinkTime T ins outs f (min s T) r := by
  obtain ⟨S, hS, a⟩ := h
  refine ⟨S, hS, ?_⟩
  have := hS.1.1
  rw [show min (min s T) S = min s S by omega]
  exact a

/-! ## Trips through tables -/

theorem roundUp_ticks {x : ℚ} (h : x ≤ 2147483646) : roundUpTime x Sp.prec = .ok (Sp.ticks x : ℤ) := by
  unfold roundUpTime Sp.ticks
  by_cases hx : x < 1
  · rw [if_pos hx, if_pos hx]; rfl
  · rw [if_neg hx, if_neg hx]
    have h1 : (1 : ℤ) ≤ ⌊x⌋ := Int.le_floor.2 (by exact_mod_cast not_lt.1 hx)
    have h2 : (⌊x⌋ : ℤ) ≤ 2147483646 := by
      have := Int.floor_le x
      have : ((⌊x⌋ : ℤ) : ℚ) ≤ ((2147483646 : ℤ) : ℚ) := by push_cast; linarith
      exact_mod_cast this
    have h3 : trunc x = ⌊x⌋ := by
      unfold trunc
      rw [if_pos (by linarith [not_lt.1 hx])]
    have h4 : toInt x = .ok ⌊x⌋ := by
      unfold toInt
      rw [h3, if_pos (by omega)]
    rw [h4, Res.bind_ok']
    unfold approxEq
    by_cases hc : |x - ⌊x⌋| ≤ 1 / 10000 * max |x| |(⌊x⌋ : ℚ)|
    · rw [if_pos (by simpa [Sp.prec] using hc), if_pos hc, Int.toNat_of_nonneg (by omega)]
    · rw [if_neg (by simpa [Sp.prec] using hc), if_neg hc, if_pos (by omega)]
      push_cast
      rw [Int.toNat_of_nonneg (by omega)]

theorem slot_nat {T t : ℕ} (hT : 0 < T) : slot T t = ((min t (T - 1) : ℕ) : ℤ) := by
  unfold slot
  split <;> omega

theorem readAt_table {tab : Tabs} {T : ℕ} {ls : List ℤ} {τ : ℤ → ℕ → ℚ} (h : Table tab T ls τ) {l : ℤ}
    (hl : l ∈ ls) (hT : 0 < T) (t : ℕ) : readAt tab l (slot T t) = .ok (τ l (min t (T - 1))) := by
  obtain ⟨xs, h1, h2⟩ := h l hl
  unfold readAt
  rw [h1, slot_nat hT]
  simp only [Int.toNat_natCast, h2 (min t (T - 1)) (by omega)]
  rw [if_neg (by omega)]

theorem table_cons {tab : Tabs} {T : ℕ} {l : ℤ} {ls : List ℤ} {τ : ℤ → ℕ → ℚ} (h : Table tab T (l :: ls) τ) :
    Table tab T ls τ := fun x hx => h x (List.mem_cons_of_mem _ hx)

theorem timeStep_eq {tab : Tabs} {T : ℕ} {ls : List ℤ} {τ : ℤ → ℕ → ℚ} (h : Table tab T ls τ) {l : ℤ}
    (hl : l ∈ ls) (hT : 0 < T) (hr : ∀ t < T, τ l t ≤ 2147483646) (t : ℕ)
    (hb : t + Sp.ticks (τ l (min t (T - 1))) ≤ 2147483647) :
    timeStep tab T t l = .ok ((t + Sp.ticks (τ l (min t (T - 1))) : ℕ) : ℤ) := by
  unfold timeStep
  rw [readAt_table h hl hT, Res.bind_ok', roundUp_ticks (hr _ (by omega)), Res.bind_ok']
  unfold addInt
  rw [if_pos (by omega)]
  push_cast; rfl

theorem timeFold_eq {tab : Tabs} {T : ℕ} (hT : 0 < T) {τ : ℤ → ℕ → ℚ} : ∀ (ls : List ℤ) (t : ℕ),
    Table tab T ls τ → (∀ l ∈ ls, ∀ t < T, τ l t ≤ 2147483646) → t + tripTime T τ t ls ≤ 2147483647 →
    Res.foldlM (timeStep tab T) (t : ℤ) ls = .ok ((t + tripTime T τ t ls : ℕ) : ℤ) := by
  intro ls
  induction ls with
  | nil => intro t _ _ _; rfl
  | cons l ls ih =>
    intro t h hr hb
    rw [tripTime] at hb
    rw [Res.foldlM_cons, timeStep_eq h (by simp) hT (hr l (by simp)) t (by omega), Res.ok_bind,
      ih _ (table_cons h) (fun x hx => hr x (by simp [hx])) (by omega), tripTime]
    congr 2
    omega

theorem costFold_eq {tab ctab : Tabs} {T : ℕ} (hT : 0 < T) {τ w : ℤ → ℕ → ℚ} : ∀ (ls : List ℤ) (t : ℕ) (c : ℚ),
    Table tab T ls τ → Table ctab T ls w → (∀ l ∈ ls, ∀ t < T, τ l t ≤ 2147483646) →
    t + tripTime T τ t ls ≤ 2147483647 →
    Res.foldlM (costStep tab ctab T) ((t : ℤ), c) ls =
      .ok (((t + tripTime T τ t ls : ℕ) : ℤ), c + tripCost T τ w t ls) := by
  intro ls
  induction ls with
  | nil => intro t c _ _ _ _; simp [tripTime, tripCost]
  | cons l ls ih =>
    intro t c h hw hr hb
    rw [tripTime] at hb
    have hstep : costStep tab ctab T ((t : ℤ), c) l =
        .ok (((t + Sp.ticks (τ l (min t (T - 1))) : ℕ) : ℤ), c + w l (min t (T - 1))) := by
      unfold costStep
      rw [readAt_table hw (by simp) hT, Res.bind_ok', timeStep_eq h (by simp) hT (hr l (by simp)) t (by omega),
        Res.bind_ok']
    rw [Res.foldlM_cons, hstep, Res.ok_bind,
      ih _ _ (table_cons h) (table_cons hw) (fun x hx => hr x (by simp [hx])) (by omega), tripTime, tripCost]
    congr 2
    · congr 1
      omega
    · ring

theorem pathTime_eq {tab : Tabs} {T : ℕ} (hT : 0 < T) {τ : ℤ → ℕ → ℚ} {ls : List ℤ} {t : ℕ}
    (h : Table tab T ls τ) (hr : ∀ l ∈ ls, ∀ t < T, τ l t ≤ 2147483646)
    (hb : t + tripTime T τ t ls ≤ 2147483647) : pathTime tab T t ls = .ok (tripTime T τ t ls : ℤ) := by
  unfold pathTime
  rw [timeFold_eq hT ls t h hr hb, Res.bind_ok']
  congr 1
  push_cast; ring

theorem pathCost_eq {tab ctab : Tabs} {T : ℕ} (hT : 0 < T) {τ w : ℤ → ℕ → ℚ} {ls : List ℤ} {t : ℕ}
    (h : Table tab T ls τ) (hw : Table ctab T ls w) (hr : ∀ l ∈ ls, ∀ t < T, τ l t ≤ 2147483646)
    (hb : t + tripTime T τ t ls ≤ 2147483647) : pathCost tab ctab T t ls = .ok (tripCost T τ w t ls) := by
  unfold pathCost
  rw [costFold_eq hT ls t 0 h hw hr hb, Res.bind_ok', zero_add]

theorem tripTime_append (M : ℕ) (τ : ℤ → ℕ → ℚ) (q : List ℤ) : ∀ (p : List ℤ) (t : ℕ),
    tripTime M τ t (p ++ q) = tripTime M τ t p + tripTime M τ (t + tripTime M τ t p) q := by
  intro p
  induction p with
  | nil => intro t; simp [tripTime]
  | cons l p ih =>
    intro t
    rw [List.cons_append, tripTime, tripTime, ih]
    have : ∀ a b : ℕ, t + a + b = t + (a + b) := fun a b => by omega
    rw [this]
    omega

theorem tripCost_append (M : ℕ) (τ w : ℤ → ℕ → ℚ) (q : List ℤ) : ∀ (p : List ℤ) (t : ℕ),
    tripCost M τ w t (p ++ q) = tripCost M τ w t p + tripCost M τ w (t + tripTime M τ t p) q := by
  intro p
  induction p with
  | nil => intro t; simp [tripTime, tripCost]
  | cons l p ih =>
    intro t
    rw [List.cons_append, tripCost, tripCost, tripTime, ih]
    have : ∀ a b : ℕ, t + a + b = t + (a + b) := fun a b => by omega
    rw [this]
    ring

theorem le_ticks {x : ℚ} {n : ℕ} (h : (n : ℚ) ≤ x) : n ≤ Sp.ticks x := by
  have h1 := Sp.one_le_ticks x
  by_cases hx : x < 1
  · have : (n : ℚ) < 1 := lt_of_le_of_lt h hx
    have : n < 1 := by exact_mod_cast this
    omega
  · have h2 : (n : ℤ) ≤ ⌊x⌋ := Int.le_floor.2 (by exact_mod_cast h)
    unfold Sp.ticks
    rw [if_neg hx]
    split <;> omega

theorem tripTime_ge (M : ℕ) (τ : ℤ → ℕ → ℚ) (f : ℤ → ℕ) (hM : 0 < M) : ∀ (ls : List ℤ) (t : ℕ),
    (∀ l ∈ ls, ∀ t < M, (f l : ℚ) ≤ τ l t) → (ls.map f).sum ≤ tripTime M τ t ls := by
  intro ls
  induction ls with
  | nil => intro t _; simp
  | cons l ls ih =>
    intro t h
    rw [List.map_cons, List.sum_cons, tripTime]
    have h1 := le_ticks (h l (by simp) (min t (M - 1)) (by omega))
    have h2 := ih (t + Sp.ticks (τ l (min t (M - 1)))) (fun x hx => h x (by simp [hx]))
    omega

theorem length_le_tripTime (M : ℕ) (τ : ℤ → ℕ → ℚ) : ∀ (ls : List ℤ) (t : ℕ), ls.length ≤ tripTime M τ t ls := by
  intro ls
  induction ls with
  | nil => intro t; simp
  | cons l ls ih =>
    intro t
    rw [List.length_cons, tripTime]
    have h1 := Sp.one_le_ticks (τ l (min t (M - 1)))
    have h2 := ih (t + Sp.ticks (τ l (min t (M - 1))))
    omega

/-! ## The nested loops of the queries -/

theorem fillCol_eq {Q A : Type} {f : Q → Res (A × Q)} {l t : ℕ} {R : Q → Q → Prop} {V : ℕ → A → Prop} :
    ∀ (qs : List Q) (i : ℕ) (a : Arr A),
    (∀ k (hk : k < qs.length), ∃ v q', f qs[k] = .ok (v, q') ∧ R qs[k] q' ∧ V (i + k) v) →
    ∃ w qs', fillCol f l t i qs a = .ok (w, qs') ∧ List.Forall₂ R qs qs' ∧
      (∀ k < qs.length, (0 < l) → ∃ v, w ((i + k) * l + t) = some v ∧ V (i + k) v) ∧
      ∀ j, (∀ k < qs.length, j ≠ (i + k) * l + t) → w j = a j := by
  intro qs
  induction qs with
  | nil => intro i a _; exact ⟨a, [], rfl, .nil, fun k hk => by simp at hk, fun j _ => rfl⟩
  | cons q qs ih =>
    intro i a h
    obtain ⟨v, q', h1, h2, h3⟩ := h 0 (by simp)
    obtain ⟨w, qs', h4, h5, h6, h7⟩ := ih (i + 1) (write a (i * l + t) v) (fun k hk => by
      obtain ⟨v, q', a1, a2, a3⟩ := h (k + 1) (by simpa using hk)
      exact ⟨v, q', a1, a2, by rw [show i + 1 + k = i + (k + 1) by omega]; exact a3⟩)
    refine ⟨w, q' :: qs', ?_, .cons h2 h5, ?_, ?_⟩
    · rw [fillCol]
      simp only [List.getElem_cons_zero] at h1
      rw [h1, Res.bind_ok', h4, Res.bind_ok']
    · intro k hk hl
      rcases k with _ | k
      · refine ⟨v, ?_, by simpa using h3⟩
        rw [Nat.add_zero, h7]
        · simp [write]
        · intro k _ e
          have : (i + 1 + k) * l = i * l + (1 + k) * l := by ring
          have : 0 < (1 + k) * l := by positivity
          omega
      · obtain ⟨v, a1, a2⟩ := h6 k (by simpa using hk) hl
        exact ⟨v, by rw [show i + (k + 1) = i + 1 + k by omega]; exact a1,
          by rw [show i + (k + 1) = i + 1 + k by omega]; exact a2⟩
    · intro j hj
      rw [h7 j]
      · have := hj 0 (by simp)
        simp only [Nat.add_zero] at this
        simp [write, this]
      · intro k hk e
        exact hj (k + 1) (by simpa using hk) (by rw [e]; congr 2; omega)

theorem fillLoop_eq {S Q A : Type} {check : S → Res Unit} {f : S → Q → Res (A × Q)} {l : ℕ}
    {R : Q → Q → Prop} {V : S → ℕ → A → Prop} (q0 : List Q) (hR0 : ∀ a b c, R a b → R b c → R a c) :
    ∀ (ss : List S) (t : ℕ) (qs : List Q) (a : Arr A), t + ss.length = l → List.Forall₂ R q0 qs →
    (∀ s ∈ ss, check s = .ok ()) →
    (∀ s ∈ ss, ∀ qs, List.Forall₂ R q0 qs → ∀ k (hk : k < qs.length), ∃ v q', f s qs[k] = .ok (v, q') ∧
      R qs[k] q' ∧ V s k v) →
    ∃ w qs', fillLoop check f l t ss qs a = .ok (w, qs') ∧ List.Forall₂ R q0 qs' ∧
      (∀ m (hm : m < ss.length), ∀ k < q0.length, ∃ v, w (k * l + (t + m)) = some v ∧ V ss[m] k v) ∧
      ∀ j, (∀ m < ss.length, ∀ k < q0.length, j ≠ k * l + (t + m)) → w j = a j := by
  intro ss
  induction ss with
  | nil => intro t qs a _ hq _ _; exact ⟨a, qs, rfl, hq, fun m hm => by simp at hm, fun j _ => rfl⟩
  | cons s ss ih =>
    intro t qs a hl hq hc hf
    have hlen := hq.length_eq
    obtain ⟨w, qs1, h1, h2, h3, h4⟩ := fillCol_eq (l := l) (t := t) qs 0 a (fun k hk => by
      obtain ⟨v, q', b1, b2, b3⟩ := hf s (by simp) qs hq k hk
      exact ⟨v, q', b1, b2, by rw [Nat.zero_add]; exact b3⟩)
    have hq1 : List.Forall₂ R q0 qs1 := by
      rw [List.forall₂_iff_get] at hq h2 ⊢
      refine ⟨hq.1.trans h2.1, fun i a b => ?_⟩
      exact hR0 _ _ _ (hq.2 i a (by rw [← hq.1]; exact a)) (h2.2 i (by rw [← hq.1]; exact a) b)
    rw [List.length_cons] at hl
    obtain ⟨w', qs', h5, h6, h7, h8⟩ := ih (t + 1) qs1 w (by omega) hq1
      (fun s hs => hc s (by simp [hs])) (fun s hs => hf s (by simp [hs]))
    refine ⟨w', qs', ?_, h6, ?_, ?_⟩
    · rw [fillLoop, hc s (by simp), Res.bind_ok', h1, Res.bind_ok', h5]
    · intro m hm k hk
      rcases m with _ | m
      · obtain ⟨v, b1, b2⟩ := h3 k (by omega) (by omega)
        rw [Nat.zero_add] at b1 b2
        refine ⟨v, ?_, b2⟩
        rw [Nat.add_zero, h8, b1]
        intro m' hm' k' _ e
        have e1 : (k * l + t) % l = t := by
          rw [Nat.add_comm, Nat.add_mul_mod_self_right, Nat.mod_eq_of_lt (by omega)]
        have e2 : (k' * l + (t + 1 + m')) % l = t + 1 + m' := by
          rw [Nat.add_comm, Nat.add_mul_mod_self_right, Nat.mod_eq_of_lt (by omega)]
        rw [e, e2] at e1
        omega
      · obtain ⟨v, b1, b2⟩ := h7 m (by simpa using hm) k hk
        exact ⟨v, by rw [show t + (m + 1) = t + 1 + m by omega]; exact b1, by simpa using b2⟩
    · intro j hj
      rw [h8 j, h4 j]
      · intro k hk e
        exact hj 0 (by simp) k (by omega) (by rw [e, Nat.zero_add, Nat.add_zero])
      · intro m hm k hk e
        exact hj (m + 1) (by simpa using hm) k hk (by rw [e]; omega)

theorem fillLoop_throw {S Q A : Type} {check : S → Res Unit} {f : S → Q → Res (A × Q)} {l : ℕ}
    {R : Q → Q → Prop} (q0 : List Q) (hR0 : ∀ a b c, R a b → R b c → R a c) {s : S} {m : String} {post : List S}
    (hs : check s = .throw m) :
    ∀ (ss : List S) (t : ℕ) (qs : List Q) (a : Arr A), List.Forall₂ R q0 qs →
    (∀ s ∈ ss, check s = .ok ()) →
    (∀ s ∈ ss, ∀ qs, List.Forall₂ R q0 qs → ∀ k (hk : k < qs.length), ∃ v q', f s qs[k] = .ok (v, q') ∧ R qs[k] q') →
    fillLoop check f l t (ss ++ s :: post) qs a = .throw m := by
  intro ss
  induction ss with
  | nil =>
    intro t qs a _ _ _
    rw [List.nil_append, fillLoop, hs]; rfl
  | cons s ss ih =>
    intro t qs a hq hc hf
    obtain ⟨w, qs1, h1, h2, _, _⟩ := fillCol_eq (l := l) (t := t) (V := fun _ _ => True) qs 0 a (fun k hk => by
      obtain ⟨v, q', b1, b2⟩ := hf s (by simp) qs hq k hk
      exact ⟨v, q', b1, b2, trivial⟩)
    have hq1 : List.Forall₂ R q0 qs1 := by
      rw [List.forall₂_iff_get] at hq h2 ⊢
      refine ⟨hq.1.trans h2.1, fun i a b => ?_⟩
      exact hR0 _ _ _ (hq.2 i a (by rw [← hq.1]; exact a)) (h2.2 i (by rw [← hq.1]; exact a) b)
    rw [List.cons_append, fillLoop, hc s (by simp), Res.bind_ok', h1, Res.bind_ok']
    exact ih _ _ _ hq1 (fun s hs => hc s (by simp [hs])) (fun s hs => hf s (by simp [hs]))

/-! ## Building tables -/

theorem ttRow_eq {σ : ℚ} {T : ℕ} {ins outs : List (ℕ × ℕ)} {c0 : LinkCc} (h : Loaded σ T ins outs c0) :
    ∀ (is : List ℕ) (cc : LinkCc), Same T c0 cc → ∃ row cc', ttRow T cc is = .ok (row, cc') ∧ Same T c0 cc' ∧
      List.Forall₂ (fun i r => LinkTime T ins outs c0.fftt (i + 1) r) is row := by
  intro is
  induction is with
  | nil => intro cc hs; exact ⟨[], cc, rfl, hs, .nil⟩
  | cons i is ih =>
    intro cc hs
    obtain ⟨r, cc', h1, h2, h3⟩ := getTravelTime_same h hs (i + 1)
    obtain ⟨row, cc'', h4, h5, h6⟩ := ih cc' h2
    refine ⟨r :: row, cc'', ?_, h5, .cons h3 h6⟩
    rw [ttRow]
    have : ((i : ℚ) + 1) = ((i + 1 : ℕ) : ℚ) := by push_cast; ring
    rw [this, h1, Res.bind_ok', h4, Res.bind_ok']

theorem ttRow_range {σ : ℚ} {T : ℕ} {ins outs : List (ℕ × ℕ)} {c0 cc : LinkCc} (h : Loaded σ T ins outs c0)
    (hs : Same T c0 cc) : ∃ row cc', ttRow T cc (List.range T) = .ok (row, cc') ∧ Same T c0 cc' ∧ row.length = T ∧
      ∀ t < T, ∃ r, row[t]? = some r ∧ LinkTime T ins outs c0.fftt (t + 1) r := by
  obtain ⟨row, cc', h1, h2, h3⟩ := ttRow_eq h (List.range T) cc hs
  have hl : row.length = T := by rw [← h3.length_eq, List.length_range]
  refine ⟨row, cc', h1, h2, hl, fun t ht => ?_⟩
  rw [List.forall₂_iff_get] at h3
  have := h3.2 t (by simpa using ht) (by omega)
  simp only [List.get_eq_getElem, List.getElem_range] at this
  exact ⟨row[t], List.getElem?_eq_getElem (by omega), this⟩

theorem store_ok {tab : Tabs} {l : ℤ} {row : List ℚ} (h : ∀ xs, tab l = some xs → row.length ≤ xs.length) :
    ∃ tab' ys, store tab l row = .ok tab' ∧ tab' l = some ys ∧ (∀ t < row.length, ys[t]? = row[t]?) ∧
      ∀ l', l' ≠ l → tab' l' = tab l' := by
  unfold store
  cases hx : tab l with
  | none =>
    exact ⟨_, row, rfl, by simp, fun t _ => rfl, fun l' h => by simp [h]⟩
  | some xs =>
    simp only [h xs hx, if_true]
    refine ⟨_, row ++ xs.drop row.length, rfl, by simp, fun t ht => ?_, fun l' h => by simp [h]⟩
    rw [List.getElem?_append_left ht]

theorem buildOne_eq {σ vot : ℚ} {T : ℕ} {ins outs : List (ℕ × ℕ)} {c0 : LinkCc} (h : Loaded σ T ins outs c0)
    {s : Built} {l : ℤ} {q : QLink} (hq : s.net l = some q) (hs : Same T c0 q.cc)
    (h1 : ∀ xs, s.tt l = some xs → T ≤ xs.length) (h2 : ∀ xs, s.cost l = some xs → T ≤ xs.length) :
    ∃ s' q' xs ys, buildOne T vot s l = .ok s' ∧ s'.net l = some q' ∧ Same T c0 q'.cc ∧ s'.tt l = some xs ∧
      s'.cost l = some ys ∧
      (∀ t < T, ∃ r, xs[t]? = some r ∧ LinkTime T ins outs c0.fftt (t + 1) r ∧
        ys[t]? = some (vot * r + q.toll)) ∧
      ∀ l', l' ≠ l → s'.net l' = s.net l' ∧ s'.tt l' = s.tt l' ∧ s'.cost l' = s.cost l' := by
  obtain ⟨row, cc', a1, a2, a3, a4⟩ := ttRow_range h hs
  obtain ⟨tt', xs, b1, b2, b3, b4⟩ := store_ok (tab := s.tt) (l := l) (row := row) (fun xs hx => by
    rw [a3]; exact h1 xs hx)
  obtain ⟨ct', ys, c1, c2, c3, c4⟩ := store_ok (tab := s.cost) (l := l)
    (row := row.map fun x => vot * x + q.toll) (fun xs hx => by
    rw [List.length_map, a3]; exact h2 xs hx)
  refine ⟨⟨tt', ct', fun l' => if l' = l then some { q with cc := cc' } else s.net l'⟩, { q with cc := cc' }, xs, ys, ?_,
    by simp, a2, b2, c2, ?_, ?_⟩
  · unfold buildOne
    rw [hq]
    show (ttRow T q.cc (List.range T)).bind _ = _
    rw [a1, Res.bind_ok', b1, Res.bind_ok', c1, Res.bind_ok']
  · intro t ht
    obtain ⟨r, e1, e2⟩ := a4 t ht
    refine ⟨r, by rw [b3 t (by omega), e1], e2, ?_⟩
    rw [c3 t (by rw [List.length_map]; omega), List.getElem?_map, e1]
    rfl
  · intro l' hl
    exact ⟨by simp [hl], b4 l' hl, c4 l' hl⟩

theorem build_eq {σ vot : ℚ} {T : ℕ} {ins outs : ℤ → List (ℕ × ℕ)} {q0 : ℤ → QLink} : ∀ (ids : List ℤ) (s : Built),
    ids.Nodup → (∀ l ∈ ids, Loaded σ T (ins l) (outs l) (q0 l).cc) →
    (∀ l ∈ ids, ∃ q, s.net l = some q ∧ Same T (q0 l).cc q.cc ∧ q.toll = (q0 l).toll) →
    (∀ l ∈ ids, ∀ xs, s.tt l = some xs → T ≤ xs.length) →
    (∀ l ∈ ids, ∀ xs, s.cost l = some xs → T ≤ xs.length) →
    ∃ s', build T vot s ids = .ok s' ∧
      (∀ l ∈ ids, ∃ xs ys, s'.tt l = some xs ∧ s'.cost l = some ys ∧
        ∀ t < T, ∃ r, xs[t]? = some r ∧ LinkTime T (ins l) (outs l) (q0 l).cc.fftt (t + 1) r ∧
          ys[t]? = some (vot * r + (q0 l).toll)) ∧
      ∀ l, l ∉ ids → s'.net l = s.net l ∧ s'.tt l = s.tt l ∧ s'.cost l = s.cost l := by
  intro ids
  induction ids with
  | nil => intro s _ _ _ _ _; exact ⟨s, rfl, fun l hl => by simp at hl, fun l _ => ⟨rfl, rfl, rfl⟩⟩
  | cons l ids ih =>
    intro s hnd hL hn h1 h2
    rw [List.nodup_cons] at hnd
    obtain ⟨q, hq, hqs, hqt⟩ := hn l (by simp)
    obtain ⟨s1, q1, xs, ys, a1, a2, a3, a4, a5, a6, a7⟩ := buildOne_eq (vot := vot) (hL l (by simp)) hq hqs
      (h1 l (by simp)) (h2 l (by simp))
    have hne : ∀ x ∈ ids, x ≠ l := fun x hx e => hnd.1 (e ▸ hx)
    obtain ⟨s2, b1, b2, b3⟩ := ih s1 hnd.2 (fun x hx => hL x (by simp [hx]))
      (fun x hx => by rw [(a7 x (hne x hx)).1]; exact hn x (by simp [hx]))
      (fun x hx => by rw [(a7 x (hne x hx)).2.1]; exact h1 x (by simp [hx]))
      (fun x hx => by rw [(a7 x (hne x hx)).2.2]; exact h2 x (by simp [hx]))
    refine ⟨s2, ?_, ?_, ?_⟩
    · unfold build at b1 ⊢
      rw [Res.foldlM_cons, a1, Res.ok_bind, b1]
    · intro x hx
      rcases List.mem_cons.1 hx with rfl | hx
      · have := b3 x hnd.1
        exact ⟨xs, ys, by rw [this.2.1, a4], by rw [this.2.2, a5], fun t ht => by
          obtain ⟨r, e1, e2, e3⟩ := a6 t ht
          exact ⟨r, e1, e2, by rw [e3, hqt]⟩⟩
      · exact b2 x hx
    · intro x hx
      have hx' : x ≠ l ∧ x ∉ ids := by simpa using hx
      obtain ⟨c1, c2, c3⟩ := b3 x hx'.2
      obtain ⟨d1, d2, d3⟩ := a7 x hx'.1
      exact ⟨c1.trans d1, c2.trans d2, c3.trans d3⟩

theorem pathTimeCc_eq {σ : ℚ} {T : ℕ} (hT : 0 < T) {ins outs : ℤ → List (ℕ × ℕ)} {c0 : ℤ → LinkCc} {τ : ℤ → ℕ → ℚ} :
    ∀ (ls : List ℤ) (net : ℤ → Option LinkCc) (t : ℕ),
    (∀ l ∈ ls, Loaded σ T (ins l) (outs l) (c0 l)) →
    (∀ l ∈ ls, ∃ cc, net l = some cc ∧ Same T (c0 l) cc) →
    (∀ l ∈ ls, ∀ t < T, LinkTime T (ins l) (outs l) (c0 l).fftt (t + 1) (τ l t) ∧ τ l t ≤ 2147483646) →
    t + tripTime T τ t ls ≤ 2147483647 →
    ∃ net', Res.foldlM (ccStep T) ((t : ℤ), net) ls =
      .ok (((t + tripTime T τ t ls : ℕ) : ℤ), net') := by
  intro ls
  induction ls with
  | nil => intro net t _ _ _ _; exact ⟨net, rfl⟩
  | cons l ls ih =>
    intro net t hL hn hτ hb
    rw [tripTime] at hb
    obtain ⟨cc, hcc, hs⟩ := hn l (by simp)
    obtain ⟨r, cc', h1, h2, h3⟩ := getTravelTime_same (hL l (by simp)) hs (t + 1)
    have hk : min t (T - 1) < T := by omega
    obtain ⟨h4, h5⟩ := hτ l (by simp) (min t (T - 1)) hk
    have h6 : r = τ l (min t (T - 1)) := by
      apply linkTime_unique (linkTime_clamp h3)
      rw [show min (t + 1) T = min t (T - 1) + 1 by omega]
      exact h4
    obtain ⟨net', h7⟩ := ih (fun l' => if l' = l then some cc' else net l')
      (t + Sp.ticks (τ l (min t (T - 1)))) (fun x hx => hL x (by simp [hx])) (fun x hx => by
        by_cases hxl : x = l
        · subst hxl; exact ⟨cc', by simp, h2⟩
        · obtain ⟨c, e1, e2⟩ := hn x (by simp [hx])
          exact ⟨c, by simp [hxl, e1], e2⟩) (fun x hx => hτ x (by simp [hx])) (by omega)
    refine ⟨net', ?_⟩
    rw [Res.foldlM_cons, ccStep]
    simp only [hcc]
    have e : (((t : ℤ) + 1 : ℤ) : ℚ) = ((t + 1 : ℕ) : ℚ) := by push_cast; ring
    rw [e, h1, Res.bind_ok', h6, roundUp_ticks h5, Res.bind_ok']
    have e2 : addInt (t : ℤ) (Sp.ticks (τ l (min t (T - 1))) : ℤ) =
        .ok ((t + Sp.ticks (τ l (min t (T - 1))) : ℕ) : ℤ) := by
      unfold addInt
      rw [if_pos (by omega)]
      push_cast; rfl
    rw [e2, Res.bind_ok', Res.ok_bind, h7, tripTime]
    congr 2
    push_cast; ring

/-! ## `get_path_tt` -/

theorem checkStart_ok {name : String} {T s : ℕ} (h : s < T) : checkStart name T s = .ok () := by
  unfold checkStart
  rw [if_neg (by omega)]

theorem pathTtLoop_eq {check : ℤ → Res Unit} {tt cost : Tabs} {T : ℕ} {unit : ℚ} {links : List ℤ}
    {τ w : ℤ → ℕ → ℚ} (num : ℕ) (hck : ∀ s : ℕ, s < T → check s = .ok ()) (htt : Table tt T links τ) (hcost : Table cost T links w) (hr : ∀ l ∈ links, ∀ t < T, τ l t ≤ 2147483646) :
    ∀ (ss : List ℕ) (t : ℕ) (a : Arr (WithTop ℚ)), t + ss.length = num → (∀ s ∈ ss, s < T) →
    (∀ s ∈ ss, s + tripTime T τ s links ≤ 2147483647) →
    ∃ a', pathTtLoop check tt cost T unit links num t (ss.map fun s : ℕ => (s : ℤ)) a = .ok a' ∧
      (∀ m (hm : m < ss.length), a' (t + m) = some ((tripTime T τ ss[m] links * unit : ℚ) : WithTop ℚ) ∧
        a' (num + (t + m)) = some ((tripCost T τ w ss[m] links : ℚ) : WithTop ℚ)) ∧
      (∀ j, j < t → a' j = a j) ∧ ∀ j, num ≤ j → j < num + t → a' j = a j := by
  intro ss
  induction ss with
  | nil => intro t a _ _ _; exact ⟨a, rfl, fun m hm => by simp at hm, fun _ _ => rfl, fun _ _ _ => rfl⟩
  | cons s ss ih =>
    intro t a hl hs hb
    rw [List.length_cons] at hl
    have hT : 0 < T := by have := hs s (by simp); omega
    obtain ⟨a', h1, h2, h3, h4⟩ := ih (t + 1)
      (write (write a t ((tripTime T τ s links * unit : ℚ) : WithTop ℚ)) (t + num)
        ((tripCost T τ w s links : ℚ) : WithTop ℚ)) (by omega)
      (fun x hx => hs x (by simp [hx])) (fun x hx => hb x (by simp [hx]))
    refine ⟨a', ?_, ?_, ?_, ?_⟩
    · rw [List.map_cons, pathTtLoop, hck s (hs s (by simp)), Res.bind_ok',
        pathTime_eq hT htt hr (hb s (by simp)), Res.bind_ok', pathCost_eq hT htt hcost hr (hb s (by simp)), Res.bind_ok']
      rw [← h1]
      simp only [Int.cast_natCast]
    · intro m hm
      rcases m with _ | m
      · constructor
        · rw [Nat.add_zero, h3 t (by omega)]
          have : num ≠ 0 := by omega
          simp [write, this]
        · rw [Nat.add_zero, h4 (num + t) (by omega) (by omega)]
          simp [write, Nat.add_comm]
      · have := h2 m (by simpa using hm)
        rw [show t + 1 + m = t + (m + 1) by omega] at this
        simpa using this
    · intro j hj
      rw [h3 j (by omega)]
      have e1 : j ≠ t := by omega
      have e2 : j ≠ t + num := by omega
      simp [write, e1, e2]
    · intro j hj hj'
      rw [h4 j hj (by omega)]
      have e1 : j ≠ t := by omega
      have e2 : j ≠ t + num := by omega
      simp [write, e1, e2]

/-- The first element with a property. -/
theorem exists_first {α : Type} (P : α → Prop) [DecidablePred P] : ∀ (l : List α), (∃ x ∈ l, P x) →
    ∃ pre x post, l = pre ++ x :: post ∧ P x ∧ ∀ y ∈ pre, ¬ P y := by
  intro l
  induction l with
  | nil => rintro ⟨x, hx, _⟩; cases hx
  | cons a l ih =>
    rintro ⟨x, hx, hp⟩
    by_cases ha : P a
    · exact ⟨[], a, l, rfl, ha, fun y hy => by cases hy⟩
    · rcases List.mem_cons.1 hx with rfl | hx
      · exact absurd hp ha
      · obtain ⟨pre, x, post, e, h1, h2⟩ := ih ⟨x, hx, hp⟩
        refine ⟨a :: pre, x, post, by rw [e]; rfl, h1, fun y hy => ?_⟩
        rcases List.mem_cons.1 hy with rfl | hy
        · exact ha
        · exact h2 y hy

theorem pathTtLoop_late {tt cost : Tabs} {T : ℕ} (hT : 0 < T) {unit : ℚ} {links : List ℤ} {τ w : ℤ → ℕ → ℚ} (num : ℕ)
    (htt : Table tt T links τ) (hcost : Table cost T links w) (hr : ∀ l ∈ links, ∀ t < T, τ l t ≤ 2147483646)
    {s : ℕ} (hsT : T ≤ s) (post : List ℤ) : ∀ (ss : List ℕ) (t : ℕ) (a : Arr (WithTop ℚ)), (∀ s ∈ ss, s < T) →
    (∀ s ∈ ss, s + tripTime T τ s links ≤ 2147483647) →
    pathTtLoop (checkStart "get_path_tt" T) tt cost T unit links num t ((ss.map fun s : ℕ => (s : ℤ)) ++ (s : ℤ) :: post) a =
      .throw "Error, Dta::get_path_tt, input start intervals exceeds the total loading intervals - 1" := by
  intro ss
  induction ss with
  | nil =>
    intro t a _ _
    rw [List.map_nil, List.nil_append, pathTtLoop]
    unfold checkStart
    rw [if_pos (by omega)]; rfl
  | cons x ss ih =>
    intro t a hs hb
    rw [List.map_cons, List.cons_append, pathTtLoop, checkStart_ok (hs x (by simp)), Res.bind_ok',
      pathTime_eq hT htt hr (hb x (by simp)), Res.bind_ok', pathCost_eq hT htt hcost hr (hb x (by simp)), Res.bind_ok']
    exact ih _ _ (fun x hx => hs x (by simp [hx])) (fun x hx => hb x (by simp [hx]))

/-! ## Costs as in the tree of cheapest paths -/

theorem tdCost_trip {M : ℕ} (τ w : ℤ → ℕ → ℚ) : ∀ (ls : List ℤ) (t : ℕ),
    Sp.tdCost M (fun l t => ((w l t : ℚ) : WithTop ℚ)) τ (min t (M - 1)) ls =
      ((tripCost M τ w t ls : ℚ) : WithTop ℚ) := by
  intro ls
  induction ls with
  | nil => intro t; simp [Sp.tdCost, tripCost]
  | cons l ls ih =>
    intro t
    rw [Sp.tdCost, tripCost]
    have : Sp.arrive M (min t (M - 1)) (τ l (min t (M - 1))) =
        min (t + Sp.ticks (τ l (min t (M - 1)))) (M - 1) := by
      unfold Sp.arrive
      omega
    rw [this, ih, WithTop.coe_add]

theorem trip_congr {M : ℕ} (hM : 0 < M) {τ τ' w w' : ℤ → ℕ → ℚ} : ∀ (ls : List ℤ) (t : ℕ),
    (∀ l ∈ ls, ∀ t < M, τ l t = τ' l t ∧ w l t = w' l t) →
    tripTime M τ t ls = tripTime M τ' t ls ∧ tripCost M τ w t ls = tripCost M τ' w' t ls := by
  intro ls
  induction ls with
  | nil => intro t _; exact ⟨rfl, rfl⟩
  | cons l ls ih =>
    intro t h
    obtain ⟨h1, h2⟩ := h l (by simp) (min t (M - 1)) (by omega)
    obtain ⟨h3, h4⟩ := ih (t + Sp.ticks (τ' l (min t (M - 1)))) (fun x hx => h x (by simp [hx]))
    rw [tripTime, tripTime, tripCost, tripCost, h1, h2, h3, h4]
    exact ⟨rfl, rfl⟩

theorem walk_links {ops : List Graph.Op} {v : ℤ} : ∀ (ls : List ℤ) (u : ℤ),
    Sp.Walk (Graph.run Graph.empty ops) u ls v → ∀ l ∈ ls, l ∈ Graph.linkIds (Graph.run Graph.empty ops) := by
  intro ls
  induction ls with
  | nil => intro u _ l hl; cases hl
  | cons a ls ih =>
    rintro u ⟨t, h1, h2⟩ l hl
    rcases List.mem_cons.1 hl with rfl | hl
    · by_contra hn
      rw [(C05_endpoints_unknown ops l).1 hn] at h1
      cases h1
    · exact ih t h2 l hl

/-! ## Link queries -/

/-- What a query may change of a link. -/
def QStep (T : ℕ) (a b : QLink) : Prop :=
  b.length = a.length ∧ b.ffs = a.ffs ∧ ∀ c0, Same T c0 a.cc → Same T c0 b.cc

theorem QStep.trans {T : ℕ} {a b c : QLink} (h : QStep T a b) (h' : QStep T b c) : QStep T a c :=
  ⟨h'.1.trans h.1, h'.2.1.trans h.2.1, fun c0 hc => h'.2.2 c0 (h.2.2 c0 hc)⟩

theorem linkTtOne_eq {σ unit : ℚ} {T : ℕ} {inf : Bool} {links qs : List QLink} {ins outs : ℕ → List (ℕ × ℕ)}
    (hL : ∀ k (hk : k < links.length), Loaded σ T (ins k) (outs k) links[k].cc)
    (hq : List.Forall₂ (QStep T) links qs) (s k : ℕ) (hk : k < qs.length) (hk' : k < links.length) :
    ∃ v q', linkTtOne T unit inf (s : ℤ) qs[k] = .ok (v, q') ∧ QStep T qs[k] q' ∧ ∃ r,
      LinkTime T (ins k) (outs k) links[k].cc.fftt (s + 1) r ∧
      v = if r * unit ≤ 20 * (links[k].length / links[k].ffs) then ((r * unit : ℚ) : WithTop ℚ)
           else if inf then ⊤ else ((20 * (links[k].length / links[k].ffs) : ℚ) : WithTop ℚ) := by
  rw [List.forall₂_iff_get] at hq
  have hstep : QStep T links[k] qs[k] := hq.2 k hk' hk
  have hsame : Same T links[k].cc qs[k].cc := hstep.2.2 _ (Same.refl (hL k hk'))
  obtain ⟨r, cc', h1, h2, h3⟩ := getTravelTime_same (hL k hk') hsame (s + 1)
  refine ⟨_, { qs[k] with cc := cc' }, ?_, ⟨rfl, rfl, fun c0 hc => ⟨?_, ?_, ?_, ?_⟩⟩, r, h3, rfl⟩
  · unfold linkTtOne
    have e : (((s : ℤ) + 1 : ℤ) : ℚ) = ((s + 1 : ℕ) : ℚ) := by push_cast; ring
    rw [e, h1, Res.bind_ok']
    congr 2
    unfold capTt ttUpperBound
    simp only [hstep.1, hstep.2.1]
    rw [mul_div_assoc]
    by_cases hc : r * unit ≤ 20 * (links[k].length / links[k].ffs)
    · rw [if_pos hc, if_neg (not_lt.2 hc)]
    · rw [if_neg hc, if_pos (not_le.1 hc)]
  · rw [h2.nIn, ← hsame.nIn, hc.nIn]
  · rw [h2.nOut, ← hsame.nOut, hc.nOut]
  · rw [h2.fftt, ← hsame.fftt, hc.fftt]
  · rcases h2.lv with h | h
    · exact Or.inl h
    · refine Or.inr ?_
      rw [← hc.nIn, ← hc.nOut, hsame.nIn, hsame.nOut]
      exact h

theorem qstep_cc {T : ℕ} {a b : QLink} {cc' : LinkCc} (h : Same T a.cc b.cc) (h2 : Same T a.cc cc') :
    QStep T b { b with cc := cc' } := by
  refine ⟨rfl, rfl, fun c0 hc => ⟨?_, ?_, ?_, ?_⟩⟩
  · rw [h2.nIn, ← h.nIn, hc.nIn]
  · rw [h2.nOut, ← h.nOut, hc.nOut]
  · rw [h2.fftt, ← h.fftt, hc.fftt]
  · rcases h2.lv with h' | h'
    · exact Or.inl h'
    · refine Or.inr ?_
      rw [← hc.nIn, ← hc.nOut, h.nIn, h.nOut]
      exact h'

theorem robustSum_eq {σ : ℚ} {T : ℕ} {ins outs : List (ℕ × ℕ)} {c0 : LinkCc} (h : Loaded σ T ins outs c0) (a δ : ℕ) :
    ∀ (is : List ℕ) (cc : LinkCc), Same T c0 cc → ∃ rs cc', robustSum cc a δ T is = .ok (rs.sum, cc') ∧
      Same T c0 cc' ∧ List.Forall₂ (fun i r => LinkTime T ins outs c0.fftt (a + i * δ) r) is rs := by
  intro is
  induction is with
  | nil => intro cc hs; exact ⟨[], cc, rfl, hs, .nil⟩
  | cons i is ih =>
    intro cc hs
    obtain ⟨r, cc1, h1, h2, h3⟩ := getTravelTime_same h hs (a + i * δ)
    obtain ⟨rs, cc', h4, h5, h6⟩ := ih cc1 h2
    refine ⟨r :: rs, cc', ?_, h5, .cons h3 h6⟩
    unfold robustSum
    rw [show ((a : ℚ) + i * δ) = ((a + i * δ : ℕ) : ℚ) by push_cast; ring, h1, Res.bind_ok', h4, Res.bind_ok',
      List.sum_cons]

theorem robustOne_eq {σ unit : ℚ} {T : ℕ} (hTi : T < 2147483648) {inf : Bool} {links qs : List QLink}
    {ins outs : ℕ → List (ℕ × ℕ)}
    (hL : ∀ k (hk : k < links.length), Loaded σ T (ins k) (outs k) links[k].cc)
    (hq : List.Forall₂ (QStep T) links qs) {trials n δ : ℕ} (hn : 0 < n) {p : ℕ × ℕ} (hp : p.1 < p.2 ∧ p.2 ≤ T)
    (hδ : p.2 = p.1 + n * δ) (hmin : n = min trials (p.2 - p.1)) (k : ℕ) (hk : k < qs.length) (hk' : k < links.length) :
    ∃ v q', robustOne T unit trials inf ((p.1 : ℚ), (p.2 : ℚ)) qs[k] = .ok (some v, q') ∧ QStep T qs[k] q' ∧ ∃ rs,
      List.Forall₂ (fun i r => LinkTime T (ins k) (outs k) links[k].cc.fftt (p.1 + 1 + i * δ) r) (List.range n) rs ∧
      v = if rs.sum / n * unit ≤ 20 * (links[k].length / links[k].ffs) then ((rs.sum / n * unit : ℚ) : WithTop ℚ)
           else if inf then ⊤ else ((20 * (links[k].length / links[k].ffs) : ℚ) : WithTop ℚ) := by
  rw [List.forall₂_iff_get] at hq
  have hstep : QStep T links[k] qs[k] := hq.2 k hk' hk
  have hsame : Same T links[k].cc qs[k].cc := hstep.2.2 _ (Same.refl (hL k hk'))
  obtain ⟨rs, cc', h1, h2, h3⟩ := robustSum_eq (hL k hk') (p.1 + 1) δ (List.range n) qs[k].cc hsame
  have hlen : rs.length = n := by rw [← h3.length_eq, List.length_range]
  refine ⟨_, { qs[k] with cc := cc' }, ?_, qstep_cc hsame h2, rs, h3, rfl⟩
  unfold robustOne travelTimeRobust
  have ed : ((p.2 : ℚ) + 1 - (p.1 + 1)) = ((p.2 - p.1 : ℕ) : ℚ) := by
    rw [Nat.cast_sub hp.1.le]; ring
  rw [ed, toInt_ok_of (by positivity) (by exact_mod_cast (by omega : p.2 - p.1 < 2147483648)), Res.bind_ok',
    show (⌊((p.2 - p.1 : ℕ) : ℚ)⌋ : ℤ) = ((p.2 - p.1 : ℕ) : ℤ) from Int.floor_natCast _]
  have en : (if (trials : ℤ) > ((p.2 - p.1 : ℕ) : ℤ) then ((p.2 - p.1 : ℕ) : ℤ) else (trials : ℤ)) = (n : ℤ) := by
    split <;> omega
  simp only [en]
  have hnq : (n : ℚ) ≠ 0 := by exact_mod_cast hn.ne'
  have edl : (((p.2 - p.1 : ℕ) : ℚ) / ((n : ℤ) : ℚ)) = (δ : ℚ) := by
    rw [Int.cast_natCast, div_eq_iff hnq, show p.2 - p.1 = δ * n by rw [hδ]; rw [Nat.add_sub_cancel_left, Nat.mul_comm]]
    push_cast; ring
  rw [if_neg (by omega), edl, Int.toNat_natCast, show ((p.1 : ℚ) + 1) = ((p.1 + 1 : ℕ) : ℚ) by push_cast; ring, h1,
    Res.bind_ok', Res.bind_ok']
  simp only [Option.map_some, Int.cast_natCast]
  congr 3
  unfold capTt ttUpperBound
  simp only [hstep.1, hstep.2.1]
  rw [mul_div_assoc]
  by_cases hc : rs.sum / n * unit ≤ 20 * (links[k].length / links[k].ffs)
  · rw [if_pos hc, if_neg (not_lt.2 hc)]
  · rw [if_neg hc, if_pos (not_le.1 hc)]

theorem inflowOne_eq {σ : ℚ} (hσ : 0 < σ) {T : ℕ} (hT : T < 10000) {links : List Curve} {ins : ℕ → List (ℕ × ℕ)}
    (hi : ∀ k < links.length, History T (ins k))
    (hL : ∀ k (hk : k < links.length), Res.foldlM addIncrement install (flows σ (ins k)) = .ok links[k])
    (p : ℕ × ℕ) (hp : p.1 < p.2 ∧ p.2 ≤ T) (k : ℕ) (hk : k < links.length) :
    inflowOne ((p.1 : ℚ), (p.2 : ℚ)) links[k] =
      .ok ((((upTo (ins k) p.2 - upTo (ins k) p.1) / σ : ℚ) : WithTop ℚ), links[k]) := by
  obtain ⟨c, hc, hh⟩ := run_holds hσ hT (hi k hk)
  have e : c = links[k] := by have := hL k hk; rw [hc] at this; exact Res.ok.inj this
  subst e
  unfold inflowOne flowBetween
  rw [hh.get p.2 (by omega), Res.bind_ok', hh.get p.1 (by omega), Res.bind_ok', Res.bind_ok', sub_div]

theorem checkPeriod_ok {name : String} {T : ℕ} {p : ℕ × ℕ} (h : p.1 < p.2 ∧ p.2 ≤ T) :
    checkPeriod name T ((p.1 : ℚ), (p.2 : ℚ)) = .ok () := by
  have h1 : ((p.1 : ℚ)) < p.2 := by exact_mod_cast h.1
  have h2 : ((p.2 : ℚ)) ≤ T := by exact_mod_cast h.2
  unfold checkPeriod
  simp only [Int.cast_natCast]
  rw [if_neg (not_le.2 h1), if_neg (by simp only [ge_iff_le, not_le]; linarith), if_neg (not_lt.2 h2)]

end Verif.Query

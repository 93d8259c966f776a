import Verif.Lemmas.Marginal
import Verif.Lemmas.MQuery
import Verif.Spec.Ltg

/-!
# Lemmas about travel time gradients
-/

namespace Verif.Ltg
open Ults Curve Lnk Query Marg MQuery Tt

variable {V : Type}

theorem ticks_nat (n : ℕ) : Sp.ticks (n : ℚ) = max 1 n := by
  unfold Sp.ticks
  by_cases h : (n : ℚ) < 1
  · rw [if_pos h]
    have : n < 1 := by exact_mod_cast h
    omega
  · rw [if_neg h, Int.floor_natCast, if_pos (by simp only [Int.cast_natCast, sub_self, abs_zero]; positivity)]
    have : ¬ n < 1 := by intro hh; exact h (by exact_mod_cast hh)
    simp; omega

theorem nearest_int (n : ℤ) : nearest (n : ℚ) = n := by
  unfold nearest
  have h : ∀ m : ℤ, ⌊(m : ℚ) + 1 / 2⌋ = m := fun m => by
    rw [Int.floor_intCast_add]
    norm_num
  split
  · exact h n
  · have := h (-n)
    push_cast at this
    omega

/-- Slope of the curve of a history over `n` intervals. -/
theorem slopeSum_eq {σ : ℚ} (hσ : 0 < σ) {T : ℕ} (hT : T < 10000) {h : List (ℕ × ℕ)} (hh : History T h)
    {c : Curve} (hc : Holds σ T h c) (p : ℕ) : ∀ (n i : ℕ),
    slopeSum c (p : ℚ) (List.range' i n) = .ok ((upTo h (p + i + n) : ℚ) / σ - (upTo h (p + i) : ℚ) / σ) := by
  intro n
  induction n with
  | zero => intro i; simp [slopeSum]
  | succ n ih =>
    intro i
    rw [List.range'_succ, slopeSum]
    have g1 := getResult_all hσ hT hh hc (p + i)
    have g2 := getResult_all hσ hT hh hc (p + i + 1)
    push_cast at g1 g2
    rw [g1, Res.bind_ok', g2, Res.bind_ok', ih (i + 1), Res.bind_ok']
    congr 1
    rw [show p + (i + 1) + n = p + i + (n + 1) by omega, show p + (i + 1) = p + i + 1 by omega]
    ring

theorem slope_range {σ : ℚ} (hσ : 0 < σ) {T : ℕ} (hT : T < 10000) {h : List (ℕ × ℕ)} (hh : History T h)
    {c : Curve} (hc : Holds σ T h c) (p n : ℕ) (hn : 0 < n) (hj : p + n ≤ 2147483647) :
    slope c ((p : ℤ) : ℚ) (((p : ℤ) + n : ℤ) : ℚ) =
      .ok (some (((upTo h (p + n) - upTo h p : ℕ) : ℚ) / σ / n)) := by
  obtain ⟨b, h1, h2⟩ := back_holds hσ hc
  have hmono := upTo_mono h (Nat.le_add_right p n)
  unfold slope
  rw [h1, Res.bind_ok']
  by_cases hx : ((p : ℤ) : ℚ) > b.1
  · rw [if_pos hx]
    have hb : c.getLast? = some b := by
      unfold back at h1
      revert h1
      cases c.getLast? with
      | none => intro h; cases h
      | some x => intro h; rw [Res.ok.inj h]
    obtain ⟨m, hm, e1, e2⟩ := hc.recs b (List.mem_of_getLast? hb)
    rw [e1] at hx
    have hx' : m < p := by exact_mod_cast hx
    rw [h2] at e2
    have e3 : upTo h m = upTo h T := by
      have := (div_left_inj' hσ.ne').1 e2
      exact_mod_cast this.symm
    have e4 := upTo_le_total hh (p + n)
    have e5 := upTo_mono h (show m ≤ p by omega)
    have : upTo h (p + n) - upTo h p = 0 := by omega
    rw [this]; simp
  · rw [if_neg hx]
    have t1 : toInt (((p : ℤ) + n : ℤ) : ℚ) = .ok ((p : ℤ) + n) := toInt_int (by omega) (by omega)
    have t2 : toInt (((p : ℤ) : ℚ)) = .ok (p : ℤ) := toInt_int (by omega) (by omega)
    rw [t1, Res.bind_ok', t2, Res.bind_ok']
    have : ((p : ℤ) + n - p).toNat = n := by omega
    rw [this, List.range_eq_range']
    have := slopeSum_eq hσ hT hh hc p n 0
    rw [Int.cast_natCast, this, Res.bind_ok']
    unfold divO
    have hn' : (n : ℚ) ≠ 0 := by exact_mod_cast hn.ne'
    rw [if_neg (by simp; omega)]
    push_cast [Nat.cast_sub hmono]
    congr 2
    simp only [Nat.add_zero, add_sub_cancel_left]
    ring

/-! ## Facts about one link -/

/-- What is needed about a link. -/
structure LinkOk (T : ℕ) (D : Data) (ins : List (ℕ × ℕ)) (limit : ℕ → Prop) (l : ℤ) : Prop where
  times : ∀ t < T, LinkTime T ins (D.outs l) (D.f l) (t + 1) (D.τ l t)
  diss : ∀ t < T, Dissipates T (D.τ l) (D.f l) T limit t (D.d l t)
  valid : D.L l ≤ T ∧ (D.L l = 0 ∨ upTo ins (D.L l) ≤ upTo (D.outs l) T)

namespace LinkOk
variable {T : ℕ} {D : Data} {ins : List (ℕ × ℕ)} {limit : ℕ → Prop} {l : ℤ}

theorem above (h : LinkOk T D ins limit l) {t : ℕ} (ht : t < T) : (D.f l : ℚ) ≤ D.τ l t := linkTime_ge (h.times t ht)

theorem fifo (h : LinkOk T D ins limit l) {a a' : ℕ} (ha : a ≤ a') (h' : a' < T) :
    D.leave T l a ≤ D.leave T l a' := by
  unfold Data.leave
  rw [min_eq_left (by omega), min_eq_left (by omega)]
  refine ticks_fifo ha ?_
  have := linkTime_fifo (by omega) (h.times a (by omega)) (h.times a' h')
  push_cast at this
  linarith

/-- In the valid times vehicles leave before the end, unless the free-flow time is too long. -/
theorem leave_le (h : LinkOk T D ins limit l) {t : ℕ} (ht : t < D.L l) :
    D.leave T l t ≤ max (t + Sp.ticks (D.f l)) T := by
  have hT : t < T := lt_of_lt_of_le ht h.valid.1
  unfold Data.leave
  rw [min_eq_left (by omega)]
  obtain ⟨S, hS, hr⟩ := h.times t hT
  have hL : upTo ins (D.L l) ≤ upTo (D.outs l) T := by
    rcases h.valid.2 with h0 | h0
    · omega
    · exact h0
  have hLS : D.L l ≤ S := hS.2 ⟨h.valid.1, hL⟩
  rw [min_eq_left (by omega)] at hr
  rcases Nat.eq_zero_or_pos (upTo ins (t + 1)) with h0 | h0
  · rw [hr.1 h0]; exact le_max_left _ _
  · obtain ⟨e, a, h1, h2, _, _, h3⟩ := reported_arrival h0 hr
    have he : e ≤ T := h1.2 (show T ∈ _ from Set.mem_setOf.2 (le_trans (upTo_mono ins (by omega)) hL))
    have hle : D.τ l t ≤ max (D.f l : ℚ) ((T - (t + 1) : ℕ) : ℚ) := by
      rw [h3]
      refine max_le_max (le_refl _) ?_
      have : (a : ℚ) ≤ T := by exact_mod_cast le_trans h2 he
      push_cast [Nat.cast_sub (show t + 1 ≤ T by omega)]
      linarith
    have := ticks_mono hle
    rcases max_cases (D.f l : ℚ) ((T - (t + 1) : ℕ) : ℚ) with ⟨e, _⟩ | ⟨e, _⟩
    · rw [e] at this
      exact le_trans (Nat.add_le_add_left this t) (le_max_left _ _)
    · rw [e, ticks_nat] at this
      refine le_trans ?_ (le_max_right _ _)
      omega

/-- Travel times are bounded. -/
theorem small (h : LinkOk T D ins limit l) {t : ℕ} (ht : t < T) : D.τ l t ≤ (max (D.f l) T : ℕ) := by
  obtain ⟨S, hS, hr⟩ := h.times t ht
  push_cast
  rcases Nat.eq_zero_or_pos (upTo ins (min (t + 1) S)) with h0 | h0
  · rw [hr.1 h0]; exact le_max_left _ _
  · obtain ⟨e, a, h1, h2, _, _, h3⟩ := reported_arrival h0 hr
    have he : e ≤ T := h1.2 (show T ∈ _ from
      Set.mem_setOf.2 (le_trans (upTo_mono ins (min_le_right _ _)) hS.1.2))
    rw [h3]
    refine max_le_max (le_refl _) ?_
    have : (a : ℚ) ≤ T := by exact_mod_cast le_trans h2 he
    have : (0 : ℚ) ≤ ((min (t + 1) S : ℕ) : ℚ) := by positivity
    linarith

theorem ticks_small (h : LinkOk T D ins limit l) {t : ℕ} (ht : t < T) : Sp.ticks (D.τ l t) ≤ max 1 (max (D.f l) T) := by
  rw [← ticks_nat]
  exact ticks_mono (h.small ht)

theorem diss_ge (h : LinkOk T D ins limit l) {a : ℕ} (ha : a < T) : a ≤ D.d l a ∧ D.d l a ≤ T := by
  obtain ⟨h1, h2, h3⟩ := h.diss a ha
  by_cases c : (D.f l : ℚ) < D.τ l a
  · rcases h1 c with h | ⟨_, h⟩
    · exact ⟨by have := h.1.1; omega, by have := h.1.2.1; omega⟩
    · rw [h]; omega
  · by_cases hl : limit a
    · rcases h2 (not_lt.1 c) hl with h | ⟨_, h⟩
      · exact ⟨by have := h.1.1; omega, by have := h.1.2.1; omega⟩
      · rw [h]; omega
    · rw [h3 (not_lt.1 c) hl]; omega

theorem diss_cong (h : LinkOk T D ins limit l) {a : ℕ} (ha : a < T) (hc : (D.f l : ℚ) < D.τ l a) :
    a < D.d l a ∧ (∀ t, a ≤ t → t < D.d l a → t < T → (D.f l : ℚ) < D.τ l t) ∧
      (D.d l a < T → D.τ l (D.d l a) = D.f l) := by
  rcases (h.diss a ha).1 hc with h1 | ⟨h1, h2⟩
  · refine ⟨h1.1.1, fun t t1 t2 t3 => ?_, fun ht => le_antisymm h1.1.2.2 (h.above ht)⟩
    rcases Nat.eq_or_lt_of_le t1 with rfl | t1
    · exact hc
    · by_contra hn
      have := h1.2 ⟨t1, t3, not_lt.1 hn⟩
      omega
  · refine ⟨by omega, fun t t1 t2 t3 => ?_, fun ht => by omega⟩
    rcases Nat.eq_or_lt_of_le t1 with rfl | t1
    · exact hc
    · exact h1 t t1 t3

/-- Vehicles that enter while the queue lasts leave before the first one that drives freely. -/
theorem leave_lift (h : LinkOk T D ins limit l) {a x : ℕ} (ha : a ≤ x) (hx : x < D.L l) (hd : x ≤ D.d l a)
    (hc : (D.f l : ℚ) < D.τ l a) : D.leave T l x ≤ D.d l a + Sp.ticks (D.f l) := by
  have haT : a < T := lt_of_le_of_lt ha (lt_of_lt_of_le hx h.valid.1)
  rcases Nat.lt_or_ge (D.d l a) T with h1 | h1
  · have := h.fifo hd h1
    refine le_trans this ?_
    unfold Data.leave
    rw [min_eq_left (by omega), (h.diss_cong haT hc).2.2 h1]
  · refine le_trans (h.leave_le hx) (max_le ?_ ?_) <;> omega

theorem leave_lift_self (h : LinkOk T D ins limit l) {a : ℕ} (ha : a < D.L l) :
    D.leave T l a ≤ D.d l a + Sp.ticks (D.f l) := by
  have haT : a < T := lt_of_lt_of_le ha h.valid.1
  have hd := (h.diss_ge haT).1
  by_cases hc : (D.f l : ℚ) < D.τ l a
  · exact h.leave_lift (le_refl _) ha hd hc
  · have : D.τ l a = D.f l := le_antisymm (not_lt.1 hc) (h.above haT)
    unfold Data.leave
    rw [min_eq_left (by omega), this]
    omega

/-- Leaving before the last delayed vehicle. -/
theorem lastOut_facts (h : LinkOk T D ins limit l) {a : ℕ} (ha : a < D.L l) (hc : (D.f l : ℚ) < D.τ l a) :
    D.lastOut T l a ≤ D.d l a + Sp.ticks (D.f l) ∧ (D.leave T l a < T - 1 → D.leave T l a ≤ D.lastOut T l a) := by
  have haT : a < T := lt_of_lt_of_le ha h.valid.1
  unfold Data.lastOut
  by_cases hd : D.d l a < D.L l
  · rw [if_pos hd]
    exact ⟨min_le_right _ _, fun h2 => le_min (by omega) (h.leave_lift_self ha)⟩
  · rw [if_neg hd]
    refine ⟨le_trans (min_le_right _ _) (h.leave_lift (by omega) (by omega) (by omega) hc),
      fun h2 => le_min (by omega) (h.fifo (by omega) (by have := h.valid.1; omega))⟩

end LinkOk

/-! ## One link of a path -/

/-- What is needed of the tables for class `b` and link `l`. -/
structure Prep (e : Env V) (s : State) (b : Bool) (D : Data) (ins : List (ℕ × ℕ)) (l : ℤ) (k : MLnk.Link V)
    (q : MQuery.Link) : Prop where
  kind : e.kind l = some k
  net : s.q.net l = some q
  pq : isPq k = D.pq l
  ok : ∃ limit, LinkOk e.q.T D ins limit l
  fftt : ffttLoading b k = .ok (D.f l : ℤ)
  small : D.f l ≤ 100000
  tt : ∃ xs, s.q.tt b l = some xs ∧ ∀ t < e.q.T, xs[t]? = some (D.τ l t)
  cong : ∃ xs, s.cong b l = some xs ∧ ∀ t < e.q.T, xs[t]? = some (decide ((D.f l : ℚ) < D.τ l t))
  diss : ∃ xs, s.diss b l = some xs ∧ ∀ t < e.q.T, xs[t]? = some (D.d l t)
  last : (q.cc false).lastValid = D.L l
  hist : History e.q.T (D.outs l)
  nOut : Holds e.scalar e.q.T (D.outs l) (q.cc b).nOut

theorem readOf_ok {A : Type} {tab : ℤ → Option (List A)} {l : ℤ} {g : ℕ → A} {T t : ℕ}
    (h : ∃ xs, tab l = some xs ∧ ∀ t < T, xs[t]? = some (g t)) (ht : t < T) : readOf tab l (t : ℤ) = .ok (g t) := by
  obtain ⟨xs, h1, h2⟩ := h
  unfold readOf
  rw [h1]
  simp only [Int.toNat_natCast, h2 t ht]
  rw [if_neg (by omega)]

variable {e : Env V} {s : State} {b : Bool} {D : Data} {ins : List (ℕ × ℕ)} {l : ℤ} {k : MLnk.Link V} {q : MQuery.Link}

theorem leaves_eq (h : Prep e s b D ins l k q) (h0 : 0 < e.q.T) (hT : e.q.T < 10000) {t : ℕ} (ht : t ≤ 2000000000) :
    leaves (s.q.tt b) e.q.T l t = .ok (D.leave e.q.T l t : ℤ) ∧ D.leave e.q.T l t ≤ t + 100000 := by
  obtain ⟨limit, hok⟩ := h.ok
  obtain ⟨xs, h1, h2⟩ := h.tt
  have hm : min t (e.q.T - 1) < e.q.T := by omega
  have hs := hok.ticks_small hm
  have hf := h.small
  have hx := hok.small hm
  have hle : D.leave e.q.T l t ≤ t + 100000 := by unfold Data.leave; omega
  refine ⟨?_, hle⟩
  unfold leaves timeStep readAt
  rw [h1, slot_nat h0]
  simp only [Int.toNat_natCast, h2 _ hm]
  rw [if_neg (by omega), Res.bind_ok', roundUp_ticks (le_trans hx (by
    have : max (D.f l) e.q.T ≤ 2147483646 := by omega
    exact_mod_cast this)), Res.bind_ok']
  unfold addInt
  unfold Data.leave at hle ⊢
  rw [if_pos (by omega)]
  push_cast; rfl

variable {R : Type}

/-- As `Data.recsAt`, for records of any type. -/
def _root_.Verif.Ltg.Data.gen (D : Data) (em : ℤ → ℤ → ℤ → ℤ → ℤ → ℚ → List R) (T : ℕ) (unit σ : ℚ) (reg : List ℤ)
    (path : ℤ) (start : ℕ) (v : ℤ × ℕ) : List R :=
  if v.1 ∈ reg ∧ (D.f v.1 : ℚ) < D.τ v.1 v.2 ∧ D.leave T v.1 v.2 < D.lastOut T v.1 v.2 ∧
      0 < D.left v.1 (D.leave T v.1 v.2) (D.lastOut T v.1 v.2) then
    em path start v.1 v.2 (min (D.d v.1 v.2) (D.L v.1) : ℕ) (unit / D.rate σ v.1 (D.leave T v.1 v.2) (D.lastOut T v.1 v.2))
  else []

theorem gen_recs (D : Data) (T : ℕ) (unit σ : ℚ) (reg : List ℤ) (path : ℤ) (start : ℕ) :
    D.gen recsFor T unit σ reg path start = D.recsAt T unit σ reg path start := by
  funext v
  unfold Data.gen Data.recsAt recsFor
  rw [show ((min (D.d v.1 v.2) (D.L v.1) : ℕ) - (v.2 : ℤ)).toNat = min (D.d v.1 v.2) (D.L v.1) - v.2 by omega,
    List.range'_eq_map_range, List.map_map]
  congr 1

theorem linkRecs_eq {em : ℤ → ℤ → ℤ → ℤ → ℤ → ℚ → Res (List R)} {em' : ℤ → ℤ → ℤ → ℤ → ℤ → ℚ → List R}
    (hem : ∀ p st l a z g, em p st l a z g = .ok (em' p st l a z g))
    (h : Prep e s b D ins l k q) (hT : e.q.T < 10000) (hσ : 0 < e.scalar)
    (hσ' : e.scalar * e.q.T < 4503599627370496) (path : ℤ) (start : ℕ) {a : ℕ} (ha : a < D.L l) :
    linkRecs em e s b path start l a (D.leave e.q.T l a) ((D.d l a + Sp.ticks (D.f l) : ℕ) : ℤ) q =
      .ok (D.gen em' e.q.T e.q.unit e.scalar e.q.reg path start (l, a)) := by
  obtain ⟨limit, hok⟩ := h.ok
  have haT : a < e.q.T := lt_of_lt_of_le ha hok.valid.1
  have hLT := hok.valid.1
  have h0 : 0 < e.q.T := by omega
  unfold linkRecs Data.gen
  simp only [hem]
  by_cases c1 : D.leave e.q.T l a < e.q.T - 1 ∧ l ∈ e.q.reg
  swap
  · rw [if_neg (by rintro ⟨x, y⟩; exact c1 ⟨by omega, y⟩), if_neg]
    rintro ⟨x1, x2, x3, _⟩
    refine c1 ⟨lt_of_lt_of_le x3 ?_, x1⟩
    unfold Data.lastOut
    exact min_le_left _ _
  rw [if_pos (by exact ⟨by omega, c1.2⟩), readOf_ok h.cong haT, Res.bind_ok']
  by_cases c2 : (D.f l : ℚ) < D.τ l a
  swap
  · rw [if_neg (by simp [c2]), if_neg (fun x => c2 x.2.1)]
  obtain ⟨f1, f2⟩ := hok.lastOut_facts ha c2
  have f2 := f2 c1.1
  have hd := hok.diss_cong haT c2
  by_cases c3 : D.leave e.q.T l a < D.d l a + Sp.ticks (D.f l)
  swap
  · rw [if_neg (by rintro ⟨_, x⟩; exact c3 (by exact_mod_cast x)), if_neg (fun x => c3 (lt_of_lt_of_le x.2.2.1 f1))]
  rw [if_pos (by refine ⟨by simpa using c2, by exact_mod_cast c3⟩)]
  -- the window
  have hw : ∃ w : ℤ × ℤ, window e s b (q.cc false).lastValid l a ((D.d l a + Sp.ticks (D.f l) : ℕ) : ℤ) = .ok w ∧
      w.1 = (min (D.d l a) (D.L l) : ℕ) ∧
      (if w.2 > e.q.T - 1 then (e.q.T - 1 : ℤ) else w.2) = (D.lastOut e.q.T l a : ℕ) := by
    unfold window
    rw [readOf_ok h.diss haT, Res.bind_ok', h.last]
    have n1 : nearest ((D.L l : ℚ) - 1) = (D.L l : ℤ) - 1 := by
      have := nearest_int ((D.L l : ℤ) - 1)
      push_cast at this
      exact this
    have n2 : nearest (D.L l : ℚ) = (D.L l : ℤ) := by
      have := nearest_int (D.L l : ℤ)
      push_cast at this
      exact this
    rw [n1, n2]
    unfold Data.lastOut
    by_cases c : D.d l a < D.L l
    · rw [if_pos (by omega)]
      refine ⟨_, rfl, by rw [min_eq_left (by omega)], ?_⟩
      rw [if_pos c]
      split <;> omega
    · rw [if_neg (by omega), show (D.L l : ℤ) - 1 = ((D.L l - 1 : ℕ) : ℤ) by omega,
        (leaves_eq h h0 hT (by omega)).1, Res.bind_ok']
      refine ⟨_, rfl, by rw [min_eq_right (by omega)], ?_⟩
      rw [if_neg c]
      simp only
      split <;> omega
  obtain ⟨w, w1, w2, w3⟩ := hw
  rw [w1, Res.bind_ok', w2]
  rw [w3, if_neg (by omega)]
  by_cases c4 : D.leave e.q.T l a < D.lastOut e.q.T l a
  swap
  · rw [if_neg (by omega), if_neg (fun x => c4 x.2.2.1)]
  rw [if_pos (by omega)]
  have hlo : D.lastOut e.q.T l a ≤ e.q.T - 1 := by unfold Data.lastOut; exact min_le_left _ _
  have hsl := slope_range hσ hT h.hist h.nOut (D.leave e.q.T l a) (D.lastOut e.q.T l a + 1 - D.leave e.q.T l a)
    (by omega) (by omega)
  rw [show ((D.leave e.q.T l a : ℤ) + ((D.lastOut e.q.T l a + 1 - D.leave e.q.T l a : ℕ) : ℤ) : ℤ) =
    (D.lastOut e.q.T l a : ℤ) + 1 by omega] at hsl
  rw [hsl, Res.bind_ok', show D.leave e.q.T l a + (D.lastOut e.q.T l a + 1 - D.leave e.q.T l a) =
    D.lastOut e.q.T l a + 1 by omega]
  simp only
  set n := upTo (D.outs l) (D.lastOut e.q.T l a + 1) - upTo (D.outs l) (D.leave e.q.T l a) with hn
  set m := D.lastOut e.q.T l a + 1 - D.leave e.q.T l a with hm
  have hleft : D.left l (D.leave e.q.T l a) (D.lastOut e.q.T l a) = n := rfl
  have hm0 : 0 < m := by omega
  have hmT : m ≤ e.q.T := by omega
  have hrate : D.rate e.scalar l (D.leave e.q.T l a) (D.lastOut e.q.T l a) = (n : ℚ) / e.scalar / m := by
    unfold Data.rate
    rw [hleft, hm]
    push_cast [Nat.cast_sub (show D.leave e.q.T l a ≤ D.lastOut e.q.T l a + 1 by omega)]
    rfl
  have heps : (n : ℚ) / e.scalar / m > dblEps ↔ 0 < n := by
    constructor
    · intro hh
      by_contra h0
      have : n = 0 := by omega
      rw [this] at hh
      simp at hh
      revert hh
      unfold dblEps
      norm_num
    · intro h1
      have hmq : (0 : ℚ) < m := by exact_mod_cast hm0
      have hb : e.scalar * m < 4503599627370496 := by
        refine lt_of_le_of_lt ?_ hσ'
        exact mul_le_mul_of_nonneg_left (by exact_mod_cast hmT) hσ.le
      have h1' : (1 : ℚ) ≤ n := by exact_mod_cast h1
      rw [div_div, gt_iff_lt, lt_div_iff₀ (by positivity)]
      unfold dblEps
      refine lt_of_lt_of_le ?_ h1'
      have : (0 : ℚ) < e.scalar * m := by positivity
      norm_num
      linarith
  by_cases c5 : 0 < n
  · rw [if_pos (heps.2 c5), if_pos (by refine ⟨c1.2, c2, c4, ?_⟩; rw [hleft]; exact c5), hrate]
  · rw [if_neg (fun x => c5 (heps.1 x)), if_neg]
    rintro ⟨_, _, _, x⟩
    rw [hleft] at x
    exact c5 x

/-! ## Paths -/

theorem follow_eq {em : ℤ → ℤ → ℤ → ℤ → ℤ → ℚ → Res (List R)} {em' : ℤ → ℤ → ℤ → ℤ → ℤ → ℚ → List R}
    (hem : ∀ p st l a z g, em p st l a z g = .ok (em' p st l a z g)) {insOf : ℤ → List (ℕ × ℕ)} (h0 : 0 < e.q.T) (hT : e.q.T < 10000) (hσ : 0 < e.scalar)
    (hσ' : e.scalar * e.q.T < 4503599627370496) (thr path : ℤ) (start : ℕ) :
    ∀ (ls : List ℤ) (t : ℕ) (u : ℤ) (u' : ℕ) (recs : List R), (∀ l ∈ ls, ∃ k q, Prep e s b D (insOf l) l k q) →
      ((∀ l, ls.head? = some l → D.pq l = true) ∨ u = u') → t + 100000 * ls.length ≤ 2000000000 →
      follow em e s b thr path start ls t u recs =
        .ok (recs ++ (D.visits e.q.T thr t u' ls).flatMap (D.gen em' e.q.T e.q.unit e.scalar e.q.reg path start)) := by
  intro ls
  induction ls with
  | nil => intro t u u' recs _ _ _; simp [follow, Data.visits]
  | cons l ls ih =>
    intro t u u' recs hp hu hb
    obtain ⟨k, q, h⟩ := hp l (by simp)
    rw [List.length_cons] at hb
    obtain ⟨l1, l2⟩ := leaves_eq h h0 hT (t := t) (by omega)
    obtain ⟨limit, hok⟩ := h.ok
    unfold follow Data.visits
    have n1 : nearest ((D.L l : ℚ) - 1) = (D.L l : ℤ) - 1 := by
      have := nearest_int ((D.L l : ℤ) - 1)
      push_cast at this
      exact this
    have hk : e.link l = .ok k := by unfold Env.link; rw [h.kind]
    have hq : s.q.link l = .ok q := by unfold MQuery.State.link; rw [h.net]
    rw [l1, Res.bind_ok', hk, Res.bind_ok', hq, Res.bind_ok', h.last, n1, h.pq]
    have ha : (if D.pq l = true then (t : ℤ) else u) = ((if D.pq l = true then t else u' : ℕ) : ℤ) := by
      by_cases c : D.pq l = true
      · rw [if_pos c, if_pos c]
      · rcases hu with hu | hu
        · exact absurd (hu l (by simp)) c
        · rw [if_neg c, if_neg c, hu]
    simp only [ha]
    set a := if D.pq l = true then t else u' with hadef
    by_cases c : a < D.L l ∧ (a : ℤ) < thr
    swap
    · rw [if_pos (by by_contra hn; push Not at hn; exact c ⟨by omega, hn.2⟩), if_neg c]
      simp
    rw [if_neg (by push Not; exact ⟨by omega, c.2⟩), if_pos c]
    have haT : a < e.q.T := lt_of_lt_of_le c.1 hok.valid.1
    obtain ⟨d1, d2⟩ := hok.diss_ge haT
    have hf := h.small
    have ht : Sp.ticks ((D.f l : ℕ) : ℚ) ≤ 100000 := by rw [ticks_nat]; omega
    have hr : roundUpTime (((D.f l : ℕ) : ℤ) : ℚ) Sp.prec = .ok (Sp.ticks (D.f l) : ℤ) := by
      rw [Int.cast_natCast]
      exact roundUp_ticks (by exact_mod_cast (by omega : D.f l ≤ 2147483646))
    have hadd : addInt (D.d l a : ℤ) (Sp.ticks ((D.f l : ℕ) : ℚ) : ℤ) = .ok ((D.d l a + Sp.ticks (D.f l) : ℕ) : ℤ) := by
      unfold addInt
      rw [if_pos (by omega)]
      push_cast; rfl
    rw [(leaves_eq h h0 hT (by omega)).1, Res.bind_ok', h.fftt, Res.bind_ok', readOf_ok h.diss haT, Res.bind_ok', hr,
      Res.bind_ok', hadd, Res.bind_ok', readOf_ok h.cong haT, Res.bind_ok', if_neg (by
        have := hok.leave_lift_self c.1
        omega), linkRecs_eq hem h hT hσ hσ' path start c.1, Res.bind_ok',
      ih (D.leave e.q.T l t) _ (D.d l a + Sp.ticks (D.f l)) _ (fun x hx => hp x (by simp [hx])) (Or.inr rfl) (by omega)]
    rw [List.flatMap_cons, List.append_assoc]

theorem startFold_eq {em : ℤ → ℤ → ℤ → ℤ → ℤ → ℚ → Res (List R)} {em' : ℤ → ℤ → ℤ → ℤ → ℤ → ℚ → List R}
    (hem : ∀ p st l a z g, em p st l a z g = .ok (em' p st l a z g)) (name : String) {insOf : ℤ → List (ℕ × ℕ)} (h0 : 0 < e.q.T) (hT : e.q.T < 10000) (hσ : 0 < e.scalar)
    (hσ' : e.scalar * e.q.T < 4503599627370496) (thr : ℤ) (p : ℤ × List ℤ)
    (hp : ∀ l ∈ p.2, ∃ k q, Prep e s b D (insOf l) l k q) (hh : ∀ l, p.2.head? = some l → D.pq l = true)
    (hl : p.2.length ≤ 10000) : ∀ (starts : List ℕ) (recs : List R), (∀ x ∈ starts, x < e.q.T) →
    Res.foldlM (startStep em name e s b thr p) recs (starts.map fun x : ℕ => (x : ℤ)) =
      .ok (recs ++ starts.flatMap fun x =>
        (D.visits e.q.T thr x 0 p.2).flatMap (D.gen em' e.q.T e.q.unit e.scalar e.q.reg p.1 x)) := by
  intro starts
  induction starts with
  | nil => intro recs _; simp [Res.foldlM]
  | cons x xs ih =>
    intro recs hx
    have h1 : startStep em name e s b thr p recs (x : ℤ) = .ok (recs ++ (D.visits e.q.T thr x 0 p.2).flatMap
        (D.gen em' e.q.T e.q.unit e.scalar e.q.reg p.1 x)) := by
      unfold startStep checkStart
      have := hx x (by simp)
      rw [if_neg (by omega), Res.bind_ok', follow_eq hem h0 hT hσ hσ' thr p.1 x p.2 x (-1) 0 recs hp (Or.inl hh) (by omega)]
    rw [List.map_cons, Res.foldlM_cons, h1, Res.ok_bind, ih _ (fun y hy => hx y (by simp [hy])), List.flatMap_cons,
      List.append_assoc]

/-- As `Data.records`, for records of any type. -/
def _root_.Verif.Ltg.Data.all (D : Data) (em : ℤ → ℤ → ℤ → ℤ → ℤ → ℚ → List R) (T : ℕ) (unit σ : ℚ) (thr : ℤ) (reg : List ℤ)
    (paths : List (ℤ × List ℤ)) (starts : List ℕ) : List R :=
  paths.flatMap fun p =>
    if ∃ l ∈ reg, l ∈ p.2 then
      starts.flatMap fun s => (D.visits T thr s 0 p.2).flatMap (D.gen em T unit σ reg p.1 s)
    else []

theorem all_recs (D : Data) (T : ℕ) (unit σ : ℚ) (thr : ℤ) (reg : List ℤ) (paths : List (ℤ × List ℤ)) (starts : List ℕ) :
    D.all recsFor T unit σ thr reg paths starts = D.records T unit σ thr reg paths starts := by
  unfold Data.all Data.records
  simp only [gen_recs]

theorem collect_eq {em : ℤ → ℤ → ℤ → ℤ → ℤ → ℚ → Res (List R)} {em' : ℤ → ℤ → ℤ → ℤ → ℤ → ℚ → List R}
    (hem : ∀ p st l a z g, em p st l a z g = .ok (em' p st l a z g)) (name : String) {insOf : ℤ → List (ℕ × ℕ)} (h0 : 0 < e.q.T) (hT : e.q.T < 10000) (hσ : 0 < e.scalar)
    (hσ' : e.scalar * e.q.T < 4503599627370496) (thr : ℤ) (starts : List ℕ) (hs : ∀ x ∈ starts, x < e.q.T)
    (hp : ∀ p ∈ e.paths, (∀ l ∈ p.2, ∃ k q, Prep e s b D (insOf l) l k q) ∧
      (∀ l, p.2.head? = some l → D.pq l = true) ∧ p.2.length ≤ 10000) :
    collect em name e s b thr (starts.map fun x : ℕ => (x : ℤ)) =
      .ok (D.all em' e.q.T e.q.unit e.scalar thr e.q.reg e.paths starts) := by
  have key : ∀ (ps : List (ℤ × List ℤ)) (recs : List R), (∀ p ∈ ps, p ∈ e.paths) →
      Res.foldlM (pathStep em name e s b thr (starts.map fun x : ℕ => (x : ℤ))) recs ps =
        .ok (recs ++ D.all em' e.q.T e.q.unit e.scalar thr e.q.reg ps starts) := by
    intro ps
    induction ps with
    | nil => intro recs _; simp [Res.foldlM, Data.all]
    | cons p ps ih =>
      intro recs hps
      obtain ⟨p1, p2, p3⟩ := hp p (hps p (by simp))
      have hany : (e.q.reg.any fun l => p.2.contains l) = true ↔ ∃ l ∈ e.q.reg, l ∈ p.2 := by simp
      have h1 : pathStep em name e s b thr (starts.map fun x : ℕ => (x : ℤ)) recs p = .ok (recs ++
          (if ∃ l ∈ e.q.reg, l ∈ p.2 then starts.flatMap fun x =>
            (D.visits e.q.T thr x 0 p.2).flatMap (D.gen em' e.q.T e.q.unit e.scalar e.q.reg p.1 x) else [])) := by
        unfold pathStep
        by_cases c : ∃ l ∈ e.q.reg, l ∈ p.2
        · rw [if_pos (hany.2 c), if_pos c]
          exact startFold_eq hem name h0 hT hσ hσ' thr p p1 p2 p3 starts recs hs
        · rw [if_neg (fun x => c (hany.1 x)), if_neg c, List.append_nil]
      rw [Res.foldlM_cons, h1, Res.ok_bind, ih _ (fun x hx => hps x (by simp [hx]))]
      unfold Data.all
      rw [List.flatMap_cons, List.append_assoc]
  have := key e.paths [] (fun p hp => hp)
  unfold collect
  simpa using this

theorem ltg_eq {insOf : ℤ → List (ℕ × ℕ)} (h0 : 0 < e.q.T) (hT : e.q.T < 10000) (hσ : 0 < e.scalar)
    (hσ' : e.scalar * e.q.T < 4503599627370496) (thr : ℤ) (starts : List ℕ) (hs : ∀ x ∈ starts, x < e.q.T)
    (hp : ∀ p ∈ e.paths, (∀ l ∈ p.2, ∃ k q, Prep e s b D (insOf l) l k q) ∧
      (∀ l, p.2.head? = some l → D.pq l = true) ∧ p.2.length ≤ 10000) :
    ltg e s b thr (starts.map fun x : ℕ => (x : ℤ)) =
      .ok (D.records e.q.T e.q.unit e.scalar thr e.q.reg e.paths starts) := by
  rw [← all_recs]
  exact collect_eq (fun _ _ _ _ _ _ => rfl) _ h0 hT hσ hσ' thr starts hs hp

end Verif.Ltg

import Verif.Spec.MmQuery
import Verif.Lemmas.TravelTime
import Verif.Lemmas.MQuery

/-! # Lemmas about travel times by bus -/

namespace Verif.MmQ
open Curve Ults Tt

theorem toInt_nat {n : ℕ} (hn : n < 10000) : toInt (n : ℚ) = .ok (n : ℤ) := by
  unfold toInt trunc
  rw [if_pos (by positivity : (0 : ℚ) ≤ n)]
  rw [Int.floor_natCast, if_pos]
  omega

theorem natEq {a b : ℕ} (ha : a < 10000) (hb : b < 10000) : approxEq (a : ℚ) (b : ℚ) tol = true ↔ a = b := by
  have := countEq (σ := 1) one_pos ha hb
  simpa using this

theorem natLt {a b : ℕ} (ha : a < 10000) (hb : b < 10000) : approxLt (a : ℚ) (b : ℚ) tol = true ↔ a < b := by
  have := countLt (σ := 1) one_pos ha hb
  simpa using this

theorem getResult_before {c : Curve} {v : ℚ} (h : c.head? = some (0, v)) {t : ℚ} (ht : t ≤ 0) :
    getResult c t = .ok v := by
  match c, h with
  | [r], h => simp at h; subst h; rfl
  | r :: r' :: c, h =>
    simp at h; subst h
    simp [getResult, ht]

theorem get1 {T : ℕ} {h : List (ℕ × ℕ)} {c : Curve} (hc : Holds 1 T h c) {t : ℕ} (ht : t < 10000) :
    getResult c (t : ℚ) = .ok (upTo h t : ℚ) := by
  rw [hc.get t ht, div_one]

theorem upTo_lt_of_least {h : List (ℕ × ℕ)} {m e : ℕ} (he : IsLeast {e | m ≤ upTo h e} e) (h1 : 1 ≤ e) :
    upTo h (e - 1) < m := by
  by_contra hcon
  have := he.2 (show (e - 1) ∈ {e | m ≤ upTo h e} from not_lt.1 hcon)
  omega

theorem lastValidBus_holds {T : ℕ} (hT : T < 10000) {ins outs : List (ℕ × ℕ)} {cin cout : Curve}
    (hi : Holds 1 T ins cin) (ho : Holds 1 T outs cout) (hz : upTo ins 0 = 0)
    (hbig : ∀ t, upTo ins t < 10000) (hle : upTo outs T ≤ upTo ins T) :
    ∃ L : ℕ, LastOf T ins (upTo outs T) L ∧ lastValidBus cin cout = .ok (L : ℚ) := by
  obtain ⟨bi, hbi, ei⟩ := back_holds one_pos hi
  obtain ⟨bo, hbo, eo⟩ := back_holds one_pos ho
  rw [div_one] at ei eo
  have hob : upTo outs T < 10000 := lt_of_le_of_lt hle (hbig T)
  unfold lastValidBus
  rw [hbi, Res.bind_ok', hbo, Res.bind_ok', ei, eo]
  have h1 : approxLt (upTo ins T : ℚ) (upTo outs T : ℚ) tol = false := by
    rw [← Bool.not_eq_true, natLt (hbig T) hob]; omega
  rw [h1, Bool.false_and, if_neg (by simp)]
  have h01 : approxEq (0 : ℚ) 1 tol = false := by
    have := natEq (a := 0) (b := 1) (by norm_num) (by norm_num)
    rw [← Bool.not_eq_true]
    intro h
    have := this.1 (by simpa using h)
    omega
  by_cases h0 : upTo outs T = 0
  · refine ⟨0, ⟨⟨Nat.zero_le _, Or.inl rfl⟩, ?_⟩, ?_⟩
    · rintro t ⟨_, h | ⟨h, h'⟩⟩ <;> omega
    · obtain ⟨τ, hτ, hcase⟩ := getTime_down hi.ok ((upTo outs T : ℚ)) hi.first
      have hτ1 : τ = -1 := by
        rcases hcase with hcase | ⟨hcase, _⟩
        · exact hcase.1
        · rw [h0] at hcase
          simp at hcase
      have ht0 : toInt (0 : ℚ) = .ok 0 := by
        have := toInt_nat (n := 0) (by norm_num)
        simpa using this
      rw [hτ, Res.bind_ok', hτ1, getResult_before hi.first (by norm_num), Res.bind_ok', ht0, Res.bind_ok',
        if_pos ⟨rfl, h01⟩]
      simp
  · obtain ⟨e, heT, he1, hleast, hA, hB⟩ := getTime_holds one_pos hi hbig hz (Nat.pos_of_ne_zero h0) hle
    rw [div_one] at hA hB
    have hprev := upTo_lt_of_least hleast he1
    by_cases hc : upTo ins e = upTo outs T
    · refine ⟨e, ⟨⟨heT, Or.inr ⟨by omega, hc.le⟩⟩, ?_⟩, ?_⟩
      · rintro t ⟨_, h | ⟨h, h'⟩⟩
        · omega
        · by_contra hcon
          have := upTo_mono ins (show e ≤ t - 1 by omega)
          omega
      · rw [hA hc, Res.bind_ok', get1 hi (by omega), Res.bind_ok', toInt_nat (hbig e), Res.bind_ok',
          if_neg (fun hh => h0 (by have := hh.1; omega)), if_pos]
        rw [Int.cast_natCast, natEq (hbig e) (hbig e)]
    · obtain ⟨q, hqT, hq, hg⟩ := hB hc
      have hge : upTo outs T ≤ upTo ins e := hleast.1
      have hqe : q ≤ e - 1 := hq.2 (Set.mem_setOf.2 (le_refl (upTo ins (e - 1))))
      have hqv : upTo ins q = upTo ins (e - 1) := le_antisymm (upTo_mono ins hqe) hq.1
      have hlt : ∀ t, upTo ins t ≤ upTo outs T → t ≤ e - 1 := by
        intro t ht
        by_contra hcon
        have := upTo_mono ins (show e ≤ t by omega)
        omega
      rw [hg, Res.bind_ok', get1 hi (by omega), Res.bind_ok', toInt_nat (hbig q), Res.bind_ok']
      by_cases ha : upTo ins q = 0
      · refine ⟨0, ⟨⟨Nat.zero_le _, Or.inl rfl⟩, ?_⟩, ?_⟩
        · rintro t ⟨_, h | ⟨h, h'⟩⟩
          · omega
          · have := upTo_mono ins (hlt t h')
            omega
        · rw [ha, if_pos ⟨rfl, by simpa using h01⟩]; simp
      · have hq1 : 1 ≤ q := by
          rcases Nat.eq_zero_or_pos q with h | h
          · rw [h] at ha; exact absurd hz ha
          · exact h
        have hqp := upTo_lt_of_least hq hq1
        refine ⟨q, ⟨⟨hqT, Or.inr ⟨by omega, by omega⟩⟩, ?_⟩, ?_⟩
        · rintro t ⟨_, h | ⟨h, h'⟩⟩
          · omega
          · have h2 := upTo_mono ins (hlt t h')
            by_contra hcon
            have := upTo_mono ins (show q ≤ t - 1 by omega)
            omega
        · rw [if_neg (fun hh => ha (by have := hh.1; omega)), if_pos]
          rw [Int.cast_natCast, natEq (hbig q) (hbig q)]

/-! ## Waiting times -/

theorem waitScan_holds {T : ℕ} {h : List (ℕ × ℕ)} {c : Curve} (hc : Holds 1 T h c)
    (hbig : ∀ t, upTo h t < 9999) {t : ℕ} {none : WithTop ℚ} :
    ∀ n i : ℕ, t + i + n ≤ 10000 → (∀ j < i, ¬ upTo h t < upTo h (t + j)) →
      (∃ k, k < i + n ∧ upTo h t < upTo h (t + k)) →
      ∃ w : ℕ, IsLeast {i | upTo h t < upTo h (t + i)} w ∧
        waitScan c (t : ℤ) ((upTo h t : ℚ) + 1) (upTo h t : ℚ) none (List.range' i n) = .ok ((w : ℚ) : WithTop ℚ) := by
  intro n
  induction n with
  | zero =>
    rintro i _ h1 ⟨k, hk, h2⟩
    exact absurd h2 (h1 k (by omega))
  | succ n ih =>
    rintro i hn h1 ⟨k, hk, h2⟩
    rw [List.range'_succ]
    unfold waitScan
    have hg := get1 hc (t := t + i) (by omega)
    push_cast at hg
    rw [show (((t : ℤ) : ℚ) + (i : ℚ)) = (t : ℚ) + i by push_cast; rfl, hg, Res.bind_ok']
    have hcast : ((upTo h t : ℚ) + 1) = ((upTo h t + 1 : ℕ) : ℚ) := by push_cast; rfl
    have hb := hbig t
    have hb' := hbig (t + i)
    by_cases hlt : upTo h t < upTo h (t + i)
    · rw [if_pos]
      · exact ⟨i, ⟨hlt, fun x hx => not_lt.1 fun hxi => h1 x hxi hx⟩, rfl⟩
      · refine ⟨?_, (natLt (by omega) (by omega)).2 hlt⟩
        rw [hcast, ← Bool.not_eq_true, natLt (by omega) (by omega)]
        omega
    · rw [if_neg (fun hh => hlt ((natLt (by omega) (by omega)).1 hh.2))]
      refine ih (i + 1) (by omega) (fun j hj => ?_) ⟨k, by omega, h2⟩
      rcases Nat.lt_succ_iff_lt_or_eq.1 hj with h3 | h3
      · exact h1 j h3
      · rw [h3]; exact hlt

theorem cround_nat (t : ℕ) : cround (t : ℚ) = t := by
  unfold cround
  rw [if_pos (by positivity : (0 : ℚ) ≤ t), Int.floor_eq_iff]
  push_cast
  constructor <;> linarith

/-- The last valid time of a stop, known or not. -/
def stopLast (s : Stop) : Res ℚ := if s.last < 0 then lastValidBus s.nIn s.nOut else .ok s.last

theorem waiting_eq {T : ℕ} (hT : T < 10000) {arr dep : List (ℕ × ℕ)} {s : Stop} (hi : Holds 1 T arr s.nIn)
    (ho : Holds 1 T dep s.nOut) (hh : History T arr)
    (hbig : upTo arr T < 9999) (hle : ∀ t, upTo dep t ≤ upTo arr t) {L : ℕ} (hL : LastOf T arr (upTo dep T) L)
    (hs : stopLast s = .ok (L : ℚ)) (inf : Bool) (t : ℕ) :
    ∃ w s', waiting T inf s t = .ok (shown T inf w, s') ∧ Waits arr dep L t w := by
  have hbg : ∀ t, upTo arr t < 9999 := fun t => lt_of_le_of_lt (upTo_le_total hh t) hbig
  have hz := upTo_zero hh
  obtain ⟨bi, hbi, ei⟩ := back_holds one_pos hi
  rw [div_one] at ei
  unfold waiting
  rw [hbi, Res.bind_ok', ei]
  have hnever : ∀ s', ∃ w s'', (Res.ok (never T inf, s') : Res (WithTop ℚ × Stop)) = .ok (shown T inf w, s'') ∧ w = ⊤ :=
    fun s' => ⟨⊤, s', rfl, rfl⟩
  have hfin : L ≤ t → ∀ s', ∃ w s'', (Res.ok (never T inf, s') : Res (WithTop ℚ × Stop)) = .ok (shown T inf w, s'') ∧
      Waits arr dep L t w := by
    intro h s'
    exact ⟨⊤, s', rfl, fun _ => rfl, fun h' => by omega, fun h' => by omega⟩
  have hLT := hL.1.1
  by_cases hz0 : upTo arr T = 0
  · have hL0 : L = 0 := by
      rcases hL.1.2 with h | ⟨h, _⟩
      · exact h
      · have := upTo_le_total hh L
        omega
    rw [if_pos (Or.inr (by rw [hz0]; have := (natEq (a := 0) (b := 0) (by norm_num) (by norm_num)).2 rfl; simpa using this))]
    exact hfin (by omega) s
  · have hlen : ¬ (s.nIn.length = 1 ∨ approxEq (upTo arr T : ℚ) 0 tol = true) := by
      rintro (h | h)
      · obtain ⟨y, hy⟩ := List.length_eq_one_iff.1 h
        have hf := hi.first
        obtain ⟨x, hx, hx1, hx2⟩ := hi.last T
        rw [hy] at hf hx
        simp only [List.head?_cons, Option.some.injEq] at hf
        simp only [List.mem_singleton] at hx
        rw [hx, hf, div_one] at hx2
        have hx3 : (0 : ℚ) = (upTo arr T : ℚ) := hx2
        exact hz0 (by exact_mod_cast hx3.symm)
      · have := (natEq (a := upTo arr T) (b := 0) (by omega) (by norm_num)).1 (by simpa using h)
        exact hz0 this
    rw [if_neg hlen]
    have hs' : (if s.last < 0 then lastValidBus s.nIn s.nOut else .ok s.last) = .ok (L : ℚ) := hs
    rw [hs', Res.bind_ok']
    by_cases hL0 : L = 0
    · have : approxEq (L : ℚ) 0 tol = true := by
        rw [hL0]; have := (natEq (a := 0) (b := 0) (by norm_num) (by norm_num)).2 rfl; simpa using this
      simp only [this, if_true]
      exact hfin (by omega) _
    · have : approxEq (L : ℚ) 0 tol = false := by
        rw [← Bool.not_eq_true]; intro h
        exact hL0 ((natEq (a := L) (b := 0) (by omega) (by norm_num)).1 (by simpa using h))
      simp only [this, Bool.false_eq_true, if_false, cround_nat, Int.cast_natCast]
      by_cases hLt : L ≤ t
      · rw [if_pos (by have : (L : ℚ) ≤ t := by exact_mod_cast hLt
                       show (L : ℚ) < t + 1
                       linarith)]
        exact hfin hLt _
      · rw [if_neg (by have : ((t + 1 : ℕ) : ℚ) ≤ L := by exact_mod_cast (by omega : t + 1 ≤ L)
                       push_cast at this
                       show ¬ (L : ℚ) < t + 1
                       linarith)]
        have hLarr : upTo arr t < upTo arr L := by
          rcases hL.1.2 with h | ⟨h, _⟩
          · omega
          · have := upTo_mono arr (show t ≤ L - 1 by omega)
            omega
        rw [toInt_nat (show L < 10000 by omega), Res.bind_ok', get1 hi (t := t) (by omega), Res.bind_ok',
          get1 ho (t := t) (by omega), Res.bind_ok', toInt_nat (show upTo arr t < 10000 by have := hbg t; omega),
          Res.bind_ok']
        have hsteps : ((List.range ((L : ℤ) - (t : ℤ)).toNat).map (· + 1)) = List.range' 1 (L - t) := by
          rw [show ((L : ℤ) - (t : ℤ)).toNat = L - t by omega, List.range'_eq_map_range]
          apply List.map_congr_left
          intro a _
          omega
        rw [hsteps]
        obtain ⟨w, hw1, hw2⟩ := waitScan_holds hi hbg (t := t) (none := never T inf) (L - t) 1 (by omega)
          (fun j hj => by have : j = 0 := by omega
                          subst this; simp) ⟨L - t, by omega, by rw [show t + (L - t) = L by omega]; exact hLarr⟩
        have hb := hbg t
        by_cases ha : upTo arr t = 0
        · have h01 : approxEq ((upTo arr t : ℕ) : ℚ) 1 tol = false := by
            rw [← Bool.not_eq_true]; intro h
            have := (natEq (a := upTo arr t) (b := 1) (by omega) (by norm_num)).1 (by simpa using h)
            omega
          rw [if_pos ⟨by exact_mod_cast ha, h01⟩]
          rw [show ((1 : ℚ)) = (upTo arr t : ℚ) + 1 by rw [ha]; simp, hw2, Res.bind_ok']
          refine ⟨(w : ℕ), _, rfl, fun h => by omega, fun _ h => by omega, fun _ _ => ⟨w, hw1, rfl⟩⟩
        · rw [if_neg (fun h => ha (by exact_mod_cast h.1))]
          have hd := hle t
          by_cases hlt : upTo dep t < upTo arr t
          · rw [if_pos ((natLt (by omega) (by omega)).2 hlt), if_pos (by
              rw [Int.cast_natCast, natEq (by omega) (by omega)])]
            refine ⟨(0 : ℕ), _, by simp [shown]; rfl, fun h => by omega, fun _ _ => rfl, fun _ h => by omega⟩
          · have heq : upTo dep t = upTo arr t := by omega
            rw [if_neg (fun h => hlt ((natLt (by omega) (by omega)).1 h)),
              if_pos ((natEq (by omega) (by omega)).2 heq)]
            have h1 : approxEq ((upTo arr t : ℕ) : ℚ) (((upTo arr t : ℕ) : ℤ) + 1 : ℚ) tol = false := by
              rw [← Bool.not_eq_true]; intro h
              have := (natEq (a := upTo arr t) (b := upTo arr t + 1) (by omega) (by omega)).1 (by simpa using h)
              omega
            simp only [h1, Bool.false_eq_true, if_false]
            rw [Int.cast_natCast, hw2, Res.bind_ok']
            exact ⟨(w : ℕ), _, rfl, fun h => by omega, fun _ h => by omega, fun _ _ => ⟨w, hw1, rfl⟩⟩

/-! ## Rides -/

/-- The last valid time of the buses of a bus link, known or not. -/
def busLast (nFrom nTo : Curve) (q : BusLink) : Res ℚ := if q.lastBus < 0 then lastValidBus nFrom nTo else .ok q.lastBus

theorem ride_eq {T : ℕ} (hT : T < 10000) {arr next : List (ℕ × ℕ)} {nFrom nTo : Curve} (hi : Holds 1 T arr nFrom)
    (ho : Holds 1 T next nTo) (hh : History T arr) (hn : History T next)
    (hbig : upTo arr T < 9999) (hle : upTo next T ≤ upTo arr T) {M : ℕ}
    (hM : LastOf T arr (upTo next T) M) {q : BusLink}
    (hs : busLast nFrom nTo q = .ok (M : ℚ)) (inf : Bool) {t i : ℕ} (hpos : 0 < upTo arr (t + i))
    (hafter : ∀ a, upTo arr (t + i) ≤ upTo next a → t + i ≤ a) :
    (M < t + i ∧ ∀ bt, ∃ q', ride T inf bt nFrom nTo q t i = .ok (never T inf, q')) ∨
    (t + i ≤ M ∧ ∃ a : ℕ, IsLeast {a | upTo arr (t + i) ≤ upTo next a} a ∧ t + i ≤ a ∧
      (∃ q', ride T inf false nFrom nTo q t i = .ok (((a - t : ℕ) : ℚ), q')) ∧
      (i = 0 → ∃ q', ride T inf true nFrom nTo q t i = .ok (((a - t : ℕ) : ℚ), q')) ∧
      (i ≠ 0 → ∃ q', ride T inf true nFrom nTo q t i = .ok (((-1 : ℚ) : WithTop ℚ), q'))) := by
  have hbg : ∀ t, upTo arr t < 10000 := fun t => by have := upTo_le_total hh t; omega
  have hnb : ∀ t, upTo next t < 10000 := fun t => by have := upTo_le_total hn t; omega
  have hMT := hM.1.1
  have hs' : (if q.lastBus < 0 then lastValidBus nFrom nTo else .ok q.lastBus) = .ok (M : ℚ) := hs
  unfold ride
  rw [hs']
  simp only [Res.bind_ok']
  by_cases hM1 : M < t + i
  · left
    refine ⟨hM1, fun bt => ?_⟩
    rw [if_pos (by show (M : ℚ) < t + i
                   exact_mod_cast hM1)]
    exact ⟨_, rfl⟩
  · right
    have hM2 : t + i ≤ M := by omega
    have hcast : (t : ℚ) + i = ((t + i : ℕ) : ℚ) := by push_cast; rfl
    rw [if_neg (by show ¬ (M : ℚ) < t + i
                   rw [hcast, not_lt]; exact_mod_cast hM2), hcast, get1 hi (by omega)]
    simp only [Res.bind_ok']
    have hdbl : ¬ ((upTo arr (t + i) : ℚ) ≤ dblEps) := by
      rw [not_le]
      have : (1 : ℚ) ≤ upTo arr (t + i) := by exact_mod_cast hpos
      have h2 : dblEps < 1 := by norm_num [dblEps]
      linarith
    rw [if_neg hdbl]
    have hMp : 0 < M := by
      rcases Nat.eq_zero_or_pos M with h | h
      · have : t + i = 0 := by omega
        rw [this, upTo_zero hh] at hpos
        omega
      · exact h
    have hNT : upTo arr (t + i) ≤ upTo next T := by
      have h1 := upTo_mono arr hM2
      rcases hM.1.2 with h | ⟨_, h⟩ <;> omega
    obtain ⟨r, hr, hg⟩ : ∃ r, FirstAt (fun r => approxLt r.2 (upTo arr (t + i) : ℚ) tol = false) nTo r ∧
        getTime nTo (upTo arr (t + i) : ℚ) true = .ok r.1 := by
      obtain ⟨x, hx, hx1, hx2⟩ := ho.last T
      rw [div_one] at hx2
      rcases getTime_up ho.ok (v := (upTo arr (t + i) : ℚ)) ho.first (by simpa using hpos) (by
        intro hlen
        obtain ⟨y, hy⟩ := List.length_eq_one_iff.1 hlen
        have hf := ho.first
        rw [hy] at hf hx
        simp only [List.head?_cons, Option.some.injEq] at hf
        simp only [List.mem_singleton] at hx
        rw [hx, hf] at hx2
        have hx3 : (0 : ℚ) = (upTo next T : ℚ) := hx2
        have : upTo next T = 0 := by exact_mod_cast hx3.symm
        omega) with h | ⟨h, _⟩
      · exact h
      · exfalso
        have := h x hx
        rw [hx2, natLt (hnb T) (hbg _)] at this
        omega
    obtain ⟨a, haT, ha1, _, hleast⟩ := first_least one_pos ho hnb (hbg (t + i)) (by simpa using hr)
    have hta := hafter a hleast.1
    have htt : travelTimeFromCc (((t + i : ℕ)) : ℚ) nFrom nTo (M : ℚ) (-1) true = .ok (((a - (t + i) : ℕ)) : ℚ) := by
      unfold travelTimeFromCc
      rw [if_neg (by have : (0 : ℚ) < M := by exact_mod_cast hMp
                     linarith)]
      have hc : ¬ (((t + i : ℕ) : ℚ) > M) := by
        rw [gt_iff_lt, not_lt]; exact_mod_cast hM2
      simp only [if_neg hc]
      rw [get1 hi (by omega), Res.bind_ok', if_neg hdbl, hg, Res.bind_ok', ha1, if_neg]
      · rw [Nat.cast_sub hta]
      · have h1 : (((t + i : ℕ)) : ℚ) ≤ a := by exact_mod_cast hta
        have h2 : (0 : ℚ) ≤ a := by positivity
        rintro (h | h | h) <;> linarith
    rw [htt]
    simp only [Res.bind_ok']
    have hM' : ¬ (((t + i : ℕ) : ℚ) > M) := by rw [gt_iff_lt, not_lt]; exact_mod_cast hM2
    have hnn : ¬ (((a - (t + i) : ℕ) : ℚ) < 0) := by rw [not_lt]; positivity
    rw [if_neg hnn]
    refine ⟨hM2, a, hleast, hta, ⟨{ q with lastBus := M, last := if q.last < 0 then (M : ℚ) else q.last }, ?_⟩,
      fun h0 => ⟨{ q with lastBus := M, last := if q.last < 0 then (M : ℚ) else q.last }, ?_⟩,
      fun h0 => ⟨{ q with lastBus := M, last := if q.last < 0 then (M : ℚ) else q.last }, ?_⟩⟩
    · simp only [Bool.false_eq_true, if_false]
      congr 2
      rw [show (i : ℚ) + ((a - (t + i) : ℕ) : ℚ) = ((i + (a - (t + i)) : ℕ) : ℚ) by push_cast; rfl,
        show i + (a - (t + i)) = a - t by omega]
    · rw [if_neg hM', if_neg hdbl, if_neg hnn]
      simp only [if_true, h0, Nat.cast_zero, Nat.add_zero]
    · have : ((i : ℚ)) ≠ 0 := by exact_mod_cast h0
      rw [if_neg hM', if_neg hdbl, if_neg hnn]
      simp only [if_true, this, if_false]

end Verif.MmQ

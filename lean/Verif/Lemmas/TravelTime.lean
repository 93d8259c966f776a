import Verif.Spec.TravelTime
import Verif.Lemmas.Curve

/-! # Lemmas about travel times read from curves -/

namespace Verif.Tt
open Curve Ults

theorem upTo_mono (h : List (ℕ × ℕ)) {s t : ℕ} (hst : s ≤ t) : upTo h s ≤ upTo h t := by
  unfold upTo
  induction h with
  | nil => simp
  | cons p h ih =>
    rw [List.filter_cons, List.filter_cons]
    by_cases h1 : p.1 ≤ s
    · have h2 : p.1 ≤ t := le_trans h1 hst
      simp only [h1, h2, decide_true, if_true, List.map_cons, List.sum_cons]
      omega
    · by_cases h2 : p.1 ≤ t
      · simp only [h1, h2, decide_true, decide_false, if_true, List.map_cons, List.sum_cons, Bool.false_eq_true,
          if_false]
        omega
      · simp only [h1, h2, decide_false, Bool.false_eq_true, if_false]
        exact ih

theorem upTo_zero {T : ℕ} {h : List (ℕ × ℕ)} (hh : History T h) : upTo h 0 = 0 := by
  unfold upTo
  have : (h.filter fun p => decide (p.1 ≤ 0)) = [] := by
    rw [List.filter_eq_nil_iff]
    intro p hp
    have := (hh.1 p hp).1
    simp; omega
  rw [this]; rfl

theorem upTo_total {T : ℕ} {h : List (ℕ × ℕ)} (hh : History T h) {t : ℕ} (ht : T ≤ t) :
    upTo h t = (h.map (·.2)).sum := by
  unfold upTo
  rw [List.filter_eq_self.2]
  intro p hp
  have := (hh.1 p hp).2
  simp; omega

theorem flowUpTo_flows (σ : ℚ) (h : List (ℕ × ℕ)) (t : ℕ) :
    flowUpTo (flows σ h) (t : ℚ) = (upTo h t : ℚ) / σ := by
  induction h with
  | nil => simp [flowUpTo, flows, upTo]
  | cons p h ih =>
    unfold flowUpTo flows upTo at *
    rw [List.map_cons, List.filter_cons, List.filter_cons]
    by_cases h1 : p.1 ≤ t
    · have h2 : ((p.1 : ℚ)) ≤ t := by exact_mod_cast h1
      simp only [h1, h2, decide_true, if_true, List.map_cons, List.sum_cons]
      rw [ih]
      push_cast
      ring
    · have h2 : ¬ ((p.1 : ℚ)) ≤ t := by exact_mod_cast h1
      simp only [h1, h2, decide_false, Bool.false_eq_true, if_false]
      exact ih

/-- The curve `c` holds the history `h`. -/
structure Holds (σ : ℚ) (T : ℕ) (h : List (ℕ × ℕ)) (c : Curve) : Prop where
  ok : OK c
  first : c.head? = some (0, 0)
  recs : ∀ r ∈ c, ∃ n : ℕ, n ≤ T ∧ r.1 = n ∧ r.2 = (upTo h n : ℚ) / σ
  get : ∀ t : ℕ, t < 10000 → getResult c (t : ℚ) = .ok ((upTo h t : ℚ) / σ)
  last : ∀ t : ℕ, ∃ r ∈ c, r.1 ≤ t ∧ r.2 = (upTo h t : ℚ) / σ

theorem lookupLe_mem : ∀ (c : Curve) (t : ℚ), (∃ r ∈ c, r.1 ≤ t) → ∃ r ∈ c, r.1 ≤ t ∧ r.2 = lookupLe c t := by
  intro c t
  induction c using List.reverseRecOn with
  | nil => rintro ⟨r, hr, _⟩; cases hr
  | append_singleton c x ih =>
    rintro ⟨r, hr, hrt⟩
    rw [lookupLe_snoc]
    by_cases hx : x.1 ≤ t
    · rw [if_pos hx]; exact ⟨x, by simp, hx, rfl⟩
    · rw [if_neg hx]
      simp only [List.mem_append, List.mem_singleton] at hr
      rcases hr with hr | rfl
      · obtain ⟨q, hq, h1, h2⟩ := ih ⟨r, hr, hrt⟩
        exact ⟨q, by simp [hq], h1, h2⟩
      · exact absurd hrt hx

theorem lookupLe_self {c : Curve} (h : OK c) {r : ℚ × ℚ} (hr : r ∈ c) : lookupLe c r.1 = r.2 := by
  obtain ⟨pre, post, rfl⟩ := List.append_of_mem hr
  have hlt := h.lt
  rw [List.pairwise_append] at hlt
  have e : pre ++ r :: post = (pre ++ [r]) ++ post := by simp
  rw [e, lookupLe_append_gt post _ (fun x hx => ((List.pairwise_cons.1 hlt.2.1).1 x hx).1), lookupLe_snoc,
    if_pos (le_refl _)]

theorem flows_legal {σ : ℚ} (hσ : 0 < σ) {T : ℕ} (hT : T < 10000) {h : List (ℕ × ℕ)} (hh : History T h) :
    Legal (flows σ h) := by
  refine ⟨?_, ?_⟩
  · intro r hr
    obtain ⟨p, hp, rfl⟩ := List.mem_map.1 hr
    have := hh.1 p hp
    exact ⟨⟨p.1, by omega, rfl⟩, by positivity⟩
  · unfold flows
    rw [List.pairwise_map]
    exact hh.2.imp fun {a b} hab => by
      show (a.1 : ℚ) ≤ b.1
      exact_mod_cast hab

theorem run_holds {σ : ℚ} (hσ : 0 < σ) {T : ℕ} (hT : T < 10000) {h : List (ℕ × ℕ)} (hh : History T h) :
    ∃ c, Res.foldlM addIncrement install (flows σ h) = .ok c ∧ Holds σ T h c := by
  obtain ⟨c, he, hok, hint, ⟨d, b, hc, hb2, hb1, hle⟩, ⟨r0, h0, h00⟩, hl⟩ :=
    run_legal _ (flows_legal hσ hT hh)
  have hval : ∀ t : ℕ, lookupLe c (t : ℚ) = (upTo h t : ℚ) / σ := fun t => by
    rw [hl _ (by positivity), flowUpTo_flows]
  refine ⟨c, he, hok, ?_, ?_, ?_, ?_⟩
  · have hm : r0 ∈ c := List.mem_of_mem_head? h0
    have h1 := lookupLe_self hok hm
    have h2 := hval 0
    rw [h00] at h1
    rw [Nat.cast_zero, h1, upTo_zero hh] at h2
    rw [h0]
    congr 1
    exact Prod.ext h00 (by simpa using h2)
  · intro r hr
    obtain ⟨n, hn, e⟩ := hint r hr
    refine ⟨n, ?_, e, ?_⟩
    · have h1 := (le_last hok (b := b) (by rw [hc]; simp) hr).2
      have h2 : b.1 ≤ T := by
        rcases hb1 with hb1 | ⟨x, hx, hb1⟩
        · rw [hb1]; positivity
        · obtain ⟨p, hp, rfl⟩ := List.mem_map.1 hx
          rw [hb1]
          show (p.1 : ℚ) ≤ T
          exact_mod_cast (hh.1 p hp).2
      rw [e] at h1
      exact_mod_cast le_trans h1 h2
    · have h1 := lookupLe_self hok hr
      rw [e, hval] at h1
      exact h1.symm
  · intro t ht
    rw [getResult_lookup hok hint h0 h00 ⟨t, ht, rfl⟩, hval]
  · intro t
    obtain ⟨r, hr, h1, h2⟩ := lookupLe_mem c (t : ℚ) ⟨r0, List.mem_of_mem_head? h0, by rw [h00]; positivity⟩
    exact ⟨r, hr, h1, by rw [h2, hval]⟩

/-! ## Comparisons of counts -/

theorem approxEq_scale {σ : ℚ} (hσ : 0 < σ) (a b : ℚ) : approxEq (a / σ) (b / σ) tol = approxEq a b tol := by
  unfold approxEq
  rw [← sub_div, abs_div, abs_div, abs_div, abs_of_pos hσ, max_div_div_right hσ.le, ← mul_div_assoc]
  congr 1
  rw [eq_iff_iff]
  exact div_le_div_iff_of_pos_right hσ

theorem approxLt_scale {σ : ℚ} (hσ : 0 < σ) (a b : ℚ) : approxLt (a / σ) (b / σ) tol = approxLt a b tol := by
  unfold approxLt
  rw [abs_div, abs_div, abs_of_pos hσ, max_div_div_right hσ.le, ← mul_div_assoc, ← add_div]
  congr 1
  rw [eq_iff_iff]
  exact div_lt_div_iff_of_pos_right hσ

theorem countEq {σ : ℚ} (hσ : 0 < σ) {a b : ℕ} (ha : a < 10000) (hb : b < 10000) :
    approxEq ((a : ℚ) / σ) ((b : ℚ) / σ) tol = true ↔ a = b := by
  rw [approxEq_scale hσ, approxEq_int ⟨a, ha, rfl⟩ ⟨b, hb, rfl⟩]
  exact_mod_cast Iff.rfl

theorem countLt {σ : ℚ} (hσ : 0 < σ) {a b : ℕ} (ha : a < 10000) (hb : b < 10000) :
    approxLt ((a : ℚ) / σ) ((b : ℚ) / σ) tol = true ↔ a < b := by
  rw [approxLt_scale hσ, approxLt_int ⟨a, ha, rfl⟩ ⟨b, hb, rfl⟩]
  exact_mod_cast Iff.rfl

theorem countLt_false {σ : ℚ} (hσ : 0 < σ) {a b : ℕ} (ha : a < 10000) (hb : b < 10000) :
    approxLt ((a : ℚ) / σ) ((b : ℚ) / σ) tol = false ↔ b ≤ a := by
  rw [← not_lt, ← countLt hσ ha hb, Bool.not_eq_true]

/-- The first record with at least `m` vehicles is at the first interval with at least `m` vehicles. -/
theorem first_least {σ : ℚ} (hσ : 0 < σ) {T : ℕ} {h : List (ℕ × ℕ)} {c : Curve} (hc : Holds σ T h c)
    (hbig : ∀ t, upTo h t < 10000) {m : ℕ} (hm : m < 10000) {r : ℚ × ℚ}
    (hr : FirstAt (fun r => approxLt r.2 ((m : ℚ) / σ) tol = false) c r) :
    ∃ e : ℕ, e ≤ T ∧ r.1 = e ∧ r.2 = (upTo h e : ℚ) / σ ∧ IsLeast {e | m ≤ upTo h e} e := by
  obtain ⟨pre, post, hce, hP, hpre⟩ := hr
  obtain ⟨e, he, e1, e2⟩ := hc.recs r (by rw [hce]; simp)
  refine ⟨e, he, e1, e2, ?_, ?_⟩
  · rw [e2, countLt_false hσ (hbig e) hm] at hP
    exact hP
  · intro f hf
    by_contra hlt
    have hlt := not_le.1 hlt
    obtain ⟨x, hx, hx1, hx2⟩ := hc.last f
    have hxr : x.1 < r.1 := by
      rw [e1]
      refine lt_of_le_of_lt hx1 ?_
      exact_mod_cast hlt
    have hxpre : x ∈ pre := by
      rw [hce] at hx
      rcases List.mem_append.1 hx with hx | hx
      · exact hx
      · have hsort := hc.ok.lt
        rw [hce, List.pairwise_append] at hsort
        rcases List.mem_cons.1 hx with rfl | hx
        · exact absurd hxr (lt_irrefl _)
        · have := ((List.pairwise_cons.1 hsort.2.1).1 x hx).1
          linarith
    have : ¬ approxLt x.2 ((m : ℚ) / σ) tol = false := hpre x hxpre
    rw [hx2, countLt_false hσ (hbig f) hm] at this
    exact this hf

/-- `get_time` on a curve that holds a history. -/
theorem getTime_holds {σ : ℚ} (hσ : 0 < σ) {T : ℕ} {h : List (ℕ × ℕ)} {c : Curve} (hc : Holds σ T h c)
    (hbig : ∀ t, upTo h t < 10000) (hz : upTo h 0 = 0) {m : ℕ} (hm : 0 < m) (hmT : m ≤ upTo h T) :
    ∃ e : ℕ, e ≤ T ∧ 1 ≤ e ∧ IsLeast {e | m ≤ upTo h e} e ∧
      (upTo h e = m → getTime c ((m : ℚ) / σ) false = .ok e) ∧
      (upTo h e ≠ m → ∃ q : ℕ, q ≤ T ∧ IsLeast {q | upTo h (e - 1) ≤ upTo h q} q ∧
        getTime c ((m : ℚ) / σ) false = .ok q) := by
  have hm' : m < 10000 := lt_of_le_of_lt hmT (hbig T)
  obtain ⟨τ, hτ, hcase⟩ := getTime_down hc.ok ((m : ℚ) / σ) hc.first
  have hpos : (0 : ℚ) < (m : ℚ) / σ := div_pos (by exact_mod_cast hm) hσ
  rcases hcase with ⟨_, hcase⟩ | ⟨_, r, hr, hcase⟩
  · exfalso
    obtain ⟨x, hx, hx1, hx2⟩ := hc.last T
    rcases hcase with hcase | hcase | hcase
    · exact absurd hcase (not_le.2 hpos)
    · obtain ⟨y, hy⟩ := List.length_eq_one_iff.1 hcase
      have hf := hc.first
      rw [hy] at hf hx
      simp only [List.head?_cons, Option.some.injEq] at hf
      simp only [List.mem_singleton] at hx
      rw [hx, hf] at hx2
      have h3 : (upTo h T : ℚ) / σ = 0 := hx2.symm
      rw [div_eq_zero_iff] at h3
      rcases h3 with h3 | h3
      · have : upTo h T = 0 := by exact_mod_cast h3
        omega
      · exact hσ.ne' h3
    · have := hcase x hx
      rw [hx2, countLt hσ (hbig T) hm'] at this
      omega
  · obtain ⟨e, he, e1, e2, hle⟩ := first_least hσ hc hbig hm' hr
    have he1 : 1 ≤ e := by
      rcases Nat.eq_zero_or_pos e with h0 | h0
      · have := hle.1
        rw [h0] at this
        have : m ≤ upTo h 0 := this
        omega
      · exact h0
    refine ⟨e, he, he1, hle, ?_, ?_⟩
    · intro heq
      rcases hcase with ⟨_, h2⟩ | ⟨h1, _⟩
      · rw [hτ, h2, e1]
      · rw [e2, countLt hσ hm' (hbig e)] at h1
        omega
    · intro hne
      rcases hcase with ⟨h1, _⟩ | ⟨_, p, hp, hp1, hp2, q, hq, hτq⟩
      · rw [e2, countEq hσ (hbig e) hm'] at h1
        exact absurd h1 hne
      · obtain ⟨k, hk, k1, k2⟩ := hc.recs p hp
        rw [k2, countLt hσ (hbig k) hm'] at hp1
        have hke : k ≤ e - 1 := by
          by_contra hcon
          have : e ≤ k := by omega
          have := upTo_mono h this
          have := hle.1
          have : m ≤ upTo h e := this
          omega
        have hpe : upTo h k = upTo h (e - 1) := by
          apply le_antisymm (upTo_mono h hke)
          obtain ⟨x, hx, hx1, hx2⟩ := hc.last (e - 1)
          have hlt : upTo h (e - 1) < m := by
            by_contra hcon
            have := hle.2 (show (e - 1) ∈ {e | m ≤ upTo h e} from not_lt.1 hcon)
            omega
          have h3 := hp2 x hx (by rw [hx2, countLt hσ (hbig _) hm']; exact hlt)
          rw [hx2, k2, div_le_div_iff_of_pos_right hσ] at h3
          exact_mod_cast h3
        rw [k2, hpe] at hq
        obtain ⟨f, hf, f1, f2, hfl⟩ := first_least hσ hc hbig (hbig (e - 1)) hq
        exact ⟨f, hf, hfl, by rw [hτ, hτq, f1]⟩

/-! ## The last interval whose vehicles have left -/

theorem scan_holds {σ : ℚ} (hσ : 0 < σ) {T : ℕ} (hT : T < 10000) {h : List (ℕ × ℕ)} {c : Curve}
    (hc : Holds σ T h c) (hbig : ∀ t, upTo h t < 10000) {m : ℕ} (hm : m < 10000) (t0 : ℕ) :
    ∀ n i : ℕ, 1 ≤ i → t0 + i + n = T + 1 → upTo h (t0 + i - 1) ≤ m → m < upTo h T →
      ∃ S : ℕ, IsGreatest {t | t ≤ T ∧ upTo h t ≤ m} S ∧
        lastValidScan c ((m : ℚ) / σ) t0 ((List.range' i n)) = .ok S := by
  intro n
  induction n with
  | zero =>
    intro i hi e h1 h2
    have : t0 + i - 1 = T := by omega
    rw [this] at h1
    omega
  | succ n ih =>
    intro i hi e h1 h2
    rw [List.range'_succ]
    unfold lastValidScan
    have hg := hc.get (t0 + i) (by omega)
    push_cast at hg
    rw [hg, Res.bind_ok']
    by_cases hlt : m < upTo h (t0 + i)
    · rw [if_pos ((countLt hσ hm (hbig _)).2 hlt)]
      refine ⟨t0 + i - 1, ⟨⟨by omega, h1⟩, ?_⟩, ?_⟩
      · intro x hx
        by_contra hcon
        have h3 : t0 + i ≤ x := by omega
        have h4 := upTo_mono h h3
        have h5 : upTo h x ≤ m := hx.2
        omega
      · congr 1
        rw [Nat.cast_sub (by omega)]
        push_cast
        ring
    · rw [if_neg (fun hh => hlt ((countLt hσ hm (hbig _)).1 hh))]
      refine ih (i + 1) (by omega) (by omega) ?_ h2
      have : t0 + (i + 1) - 1 = t0 + i := by omega
      rw [this]
      exact not_lt.1 hlt

theorem back_holds {σ : ℚ} (hσ : 0 < σ) {T : ℕ} {h : List (ℕ × ℕ)} {c : Curve} (hc : Holds σ T h c) :
    ∃ b, back c = .ok b ∧ b.2 = (upTo h T : ℚ) / σ := by
  obtain ⟨d, b, hd⟩ := exists_last hc.ok.ne
  refine ⟨b, by rw [hd]; simp [back], ?_⟩
  have hb : c.getLast? = some b := by rw [hd]; simp
  obtain ⟨n, hn, n1, n2⟩ := hc.recs b (by rw [hd]; simp)
  obtain ⟨x, hx, hx1, hx2⟩ := hc.last T
  apply le_antisymm
  · rw [n2, div_le_div_iff_of_pos_right hσ]
    exact_mod_cast upTo_mono h hn
  · rw [← hx2]
    exact (le_last hc.ok hb hx).1

theorem lastValid_holds {σ : ℚ} (hσ : 0 < σ) {T : ℕ} (hT : T < 10000) {ins outs : List (ℕ × ℕ)}
    {cin cout : Curve} (hi : Holds σ T ins cin) (ho : Holds σ T outs cout) (hz : upTo ins 0 = 0)
    (hbig : ∀ t, upTo ins t < 10000) (hle : upTo outs T ≤ upTo ins T) :
    (upTo outs T = 0 ∧ getLastValidTime cin cout T = .ok 0 ∧ upTo ins T ≠ 0) ∨
    ∃ S : ℕ, IsGreatest {t | t ≤ T ∧ upTo ins t ≤ upTo outs T} S ∧ getLastValidTime cin cout T = .ok S ∧
      (upTo outs T = 0 → upTo ins T = 0) := by
  obtain ⟨bi, hbi, ei⟩ := back_holds hσ hi
  obtain ⟨bo, hbo, eo⟩ := back_holds hσ ho
  have hob : upTo outs T < 10000 := lt_of_le_of_lt hle (hbig T)
  unfold getLastValidTime
  rw [hbi, Res.bind_ok', hbo, Res.bind_ok', ei, eo]
  have h1 : approxLt ((upTo ins T : ℚ) / σ) ((upTo outs T : ℚ) / σ) tol = false :=
    (countLt_false hσ (hbig T) hob).2 hle
  rw [h1, Bool.false_and, if_neg (by simp)]
  by_cases heq : upTo outs T = upTo ins T
  · right
    rw [if_pos ((countEq hσ hob (hbig T)).2 heq)]
    refine ⟨T, ⟨⟨le_refl _, heq.ge⟩, fun x hx => hx.1⟩, rfl, fun h => by omega⟩
  · rw [if_neg (fun hh => heq ((countEq hσ hob (hbig T)).1 hh))]
    by_cases h0 : upTo outs T = 0
    · left
      refine ⟨h0, ?_, by omega⟩
      obtain ⟨τ, hτ, hcase⟩ := getTime_down hi.ok ((upTo outs T : ℚ) / σ) hi.first
      have hτ1 : τ = -1 := by
        rcases hcase with hcase | ⟨hcase, _⟩
        · exact hcase.1
        · rw [h0] at hcase
          simp at hcase
      rw [hτ, Res.bind_ok', hτ1, if_pos (by norm_num)]
    · right
      have hkey : ∃ t0 : ℕ, t0 ≤ T ∧ upTo ins t0 ≤ upTo outs T ∧
          getTime cin ((upTo outs T : ℚ) / σ) false = .ok (t0 : ℚ) := by
        obtain ⟨e, heT, he1, hleast, hA, hB⟩ := getTime_holds hσ hi hbig hz (Nat.pos_of_ne_zero h0) hle
        by_cases hc : upTo ins e = upTo outs T
        · exact ⟨e, heT, hc.le, hA hc⟩
        · obtain ⟨q, hqT, hq, hg⟩ := hB hc
          refine ⟨q, hqT, ?_, hg⟩
          have hqe : q ≤ e - 1 := hq.2 (Set.mem_setOf.2 (le_refl (upTo ins (e - 1))))
          by_contra hcon
          have hcon := not_le.1 hcon
          have := hleast.2 (show q ∈ {e | upTo outs T ≤ upTo ins e} from hcon.le)
          omega
      obtain ⟨t0, ht0, hv, hg⟩ := hkey
      rw [hg, Res.bind_ok', if_neg (by push Not; positivity)]
      have hti : toInt (t0 : ℚ) = .ok (t0 : ℤ) := by
        unfold toInt trunc
        rw [if_pos (by positivity : (0 : ℚ) ≤ t0)]
        rw [Int.floor_natCast, if_pos]
        omega
      rw [hti, Res.bind_ok']
      have hlt : t0 < T := by
        rcases Nat.lt_or_ge t0 T with h | h
        · exact h
        · have : t0 = T := by omega
          rw [this] at hv
          omega
      rw [if_pos (by omega)]
      obtain ⟨S, hS, hs⟩ := scan_holds hσ hT hi hbig hob t0 (T - t0) 1 (le_refl _) (by omega) (by simpa using hv)
        (by omega)
      refine ⟨S, hS, ?_, fun h => absurd h h0⟩
      rw [← hs]
      congr 1
      have : ((T : ℤ) - (t0 : ℤ)).toNat = T - t0 := by omega
      rw [this, List.range'_eq_map_range]
      apply List.map_congr_left
      intro a _
      omega

/-! ## Travel times -/

theorem fromCc_holds {σ : ℚ} (hσ : 0 < σ) (hσ' : σ < 4503599627370496) {T : ℕ} (hT : T < 10000)
    {ins outs : List (ℕ × ℕ)} {cin cout : Curve} (hi : Holds σ T ins cin) (ho : Holds σ T outs cout)
    (hz : upTo ins 0 = 0) (hzo : upTo outs 0 = 0) (hbig : ∀ t, upTo ins t < 10000)
    (hle : upTo outs T ≤ upTo ins T) (hot : ∀ t, upTo outs t ≤ upTo outs T) {S : ℕ} (hS : S ≤ T)
    (hSn : upTo ins S ≤ upTo outs T)
    (start : ℕ) {fftt : ℚ} (hf : 0 ≤ fftt) :
    ∃ r, travelTimeFromCc start cin cout S fftt false = .ok r ∧
      Reported outs (min start S) (upTo ins (min start S)) fftt r := by
  have hobig : ∀ t, upTo outs t < 10000 := fun t => lt_of_le_of_lt (le_trans (hot t) hle) (hbig T)
  unfold travelTimeFromCc
  by_cases hS0 : (S : ℚ) ≤ 0
  · rw [if_pos hS0]
    have : S = 0 := by
      have : S ≤ 0 := by exact_mod_cast hS0
      omega
    have hn : upTo ins (min start S) = 0 := by rw [this, Nat.min_zero, hz]
    exact ⟨fftt, rfl, fun _ => rfl, fun h => by omega⟩
  · rw [if_neg hS0]
    have hs : (if (start : ℚ) > S then (S : ℚ) else start) = ((min start S : ℕ) : ℚ) := by
      rw [Nat.cast_min]
      rcases lt_or_ge (S : ℚ) start with h | h
      · rw [if_pos h, min_eq_right h.le]
      · rw [if_neg (not_lt.2 h), min_eq_left h]
    simp only [hs]
    generalize hmin : min start S = s
    have hsS : s ≤ S := by omega
    rw [hi.get s (by omega), Res.bind_ok']
    generalize hn : upTo ins s = n
    have hnT : n ≤ upTo outs T := by rw [← hn]; exact le_trans (upTo_mono ins hsS) hSn
    by_cases h0 : n = 0
    · rw [if_pos (by rw [h0]; simp; norm_num [dblEps])]
      exact ⟨fftt, rfl, fun _ => rfl, fun h => by omega⟩
    · have hpos : 0 < n := Nat.pos_of_ne_zero h0
      have hdbl : ¬ ((n : ℚ) / σ ≤ dblEps) := by
        rw [not_le, lt_div_iff₀ hσ]
        have : (1 : ℚ) ≤ n := by exact_mod_cast hpos
        unfold dblEps
        linarith
      rw [if_neg hdbl]
      obtain ⟨e, heT, he1, hleast, hA, hB⟩ := getTime_holds hσ ho hobig hzo hpos hnT
      have hfin : ∀ q : ℕ, (if (q : ℚ) < 0 ∨ (q : ℚ) - s < 0 ∨ (q : ℚ) - s < fftt then Res.ok fftt
          else Res.ok ((q : ℚ) - s)) = Res.ok (max fftt ((q : ℚ) - s)) := by
        intro q
        have hq : (0 : ℚ) ≤ q := by positivity
        split
        · rename_i hh
          congr 1
          rw [max_eq_left]
          rcases hh with hh | hh | hh <;> linarith
        · rename_i hh
          push Not at hh
          rw [max_eq_right hh.2.2]
      by_cases hc : upTo outs e = n
      · rw [hA hc, Res.bind_ok', hfin]
        exact ⟨_, rfl, fun h => absurd h h0, fun _ => ⟨e, hleast, fun _ => rfl, fun h => absurd hc h⟩⟩
      · obtain ⟨q, hqT, hq, hg⟩ := hB hc
        rw [hg, Res.bind_ok', hfin]
        exact ⟨_, rfl, fun h => absurd h h0, fun _ => ⟨e, hleast, fun h => absurd h hc, fun _ => ⟨q, hq, rfl⟩⟩⟩

/-- There is a greatest interval all of whose entries have left. -/
theorem exists_last_left (T : ℕ) {ins outs : List (ℕ × ℕ)} (hz : upTo ins 0 = 0) :
    ∃ S, IsGreatest {t | t ≤ T ∧ upTo ins t ≤ upTo outs T} S := by
  have : ∀ n, ∃ S, IsGreatest {t | t ≤ n ∧ upTo ins t ≤ upTo outs T} S := by
    intro n
    induction n with
    | zero => exact ⟨0, ⟨le_refl _, by omega⟩, fun t ht => ht.1⟩
    | succ n ih =>
      by_cases h : upTo ins (n + 1) ≤ upTo outs T
      · exact ⟨n + 1, ⟨le_refl _, h⟩, fun t ht => ht.1⟩
      · obtain ⟨S, hS, hS'⟩ := ih
        refine ⟨S, ⟨by have := hS.1; omega, hS.2⟩, fun t ht => hS' ⟨?_, ht.2⟩⟩
        have h1 := ht.1
        have h2 : t ≠ n + 1 := by rintro rfl; exact h ht.2
        omega
  exact this T

theorem travel_holds {σ : ℚ} (hσ : 0 < σ) (hσ' : σ < 4503599627370496) {T : ℕ} (hT : T < 10000)
    {ins outs : List (ℕ × ℕ)} {cin cout : Curve} (hi : Holds σ T ins cin) (ho : Holds σ T outs cout)
    (hz : upTo ins 0 = 0) (hzo : upTo outs 0 = 0) (hbig : ∀ t, upTo ins t < 10000)
    (hle : upTo outs T ≤ upTo ins T) (hot : ∀ t, upTo outs t ≤ upTo outs T) {fftt : ℚ} (hf : 0 ≤ fftt) :
    ∃ (lv : ℚ) (S : ℕ), getLastValidTime cin cout T = .ok lv ∧ 0 ≤ lv ∧ lv ≤ T ∧
      IsGreatest {t | t ≤ T ∧ upTo ins t ≤ upTo outs T} S ∧
      ∀ start : ℕ, ∃ r, travelTimeFromCc start cin cout lv fftt false = .ok r ∧
        Reported outs (min start S) (upTo ins (min start S)) fftt r := by
  rcases lastValid_holds hσ hT hi ho hz hbig hle with ⟨h0, h1, h2⟩ | ⟨S, hS, h1, _⟩
  · obtain ⟨S, hS⟩ := exists_last_left T (outs := outs) hz
    refine ⟨0, S, h1, le_refl _, by positivity, hS, fun start => ⟨fftt, ?_, fun _ => rfl, fun hn => ?_⟩⟩
    · unfold travelTimeFromCc
      rw [if_pos (le_refl _)]
    · exfalso
      have a1 := upTo_mono ins (min_le_right start S)
      have a2 := hS.1.2
      omega
  · refine ⟨S, S, h1, by positivity, by exact_mod_cast hS.1.1, hS, fun start => ?_⟩
    exact fromCc_holds hσ hσ' hT hi ho hz hzo hbig hle hot hS.1.1 hS.1.2 start hf

theorem upTo_le_total {T : ℕ} {h : List (ℕ × ℕ)} (hh : History T h) (t : ℕ) : upTo h t ≤ upTo h T := by
  rcases le_total t T with h1 | h1
  · exact upTo_mono h h1
  · rw [upTo_total hh h1, upTo_total hh (le_refl T)]

end Verif.Tt

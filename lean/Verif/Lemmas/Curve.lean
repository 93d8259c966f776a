import Verif.Spec.Curve
import Verif.Lemmas.Ults
import Mathlib.Data.List.Induction

namespace Verif.Curve
open Ults

theorem tol_pos : (0 : ℚ) < tol := by norm_num [tol]
theorem tol_lt_one : tol < 1 := by norm_num [tol]

/-! ## Approximate comparisons on non-negative numbers -/

theorem approxLt_iff {a b : ℚ} (ha : 0 ≤ a) (hb : 0 ≤ b) :
    approxLt a b tol = true ↔ a + tol * max a b < b := by
  simp [approxLt, abs_of_nonneg ha, abs_of_nonneg hb]

theorem approxLt_iff' {a b : ℚ} (ha : 0 ≤ a) (hb : 0 ≤ b) :
    approxLt a b tol = true ↔ tol * b < b - a := by
  rw [approxLt_iff ha hb]
  have ht := tol_pos
  rcases le_total a b with h | h
  · rw [max_eq_right h]; constructor <;> intro <;> linarith
  · rw [max_eq_left h]
    have := mul_nonneg ht.le ha
    have := mul_nonneg ht.le hb
    constructor <;> intro <;> linarith

theorem approxEq_iff_le {a b : ℚ} (ha : 0 ≤ a) (hab : a ≤ b) :
    approxEq a b tol = true ↔ b - a ≤ tol * b := by
  have hb : 0 ≤ b := le_trans ha hab
  simp only [approxEq, decide_eq_true_eq, abs_of_nonneg ha, abs_of_nonneg hb, max_eq_right hab]
  rw [abs_sub_comm, abs_of_nonneg (by linarith)]

theorem approxEq_comm (a b p : ℚ) : approxEq a b p = approxEq b a p := by
  simp only [approxEq, abs_sub_comm a b, max_comm]

theorem approx_trichotomy {a b : ℚ} (ha : 0 ≤ a) (hb : 0 ≤ b) :
    approxLt a b tol = true ∨ approxEq a b tol = true ∨
      (approxLt b a tol = true) := by
  rcases le_total a b with h | h
  · by_cases h1 : b - a ≤ tol * b
    · right; left; exact (approxEq_iff_le ha h).2 h1
    · left; exact (approxLt_iff' ha hb).2 (not_le.1 h1)
  · by_cases h1 : a - b ≤ tol * a
    · right; left; rw [approxEq_comm]; exact (approxEq_iff_le hb h).2 h1
    · right; right; exact (approxLt_iff' hb ha).2 (not_le.1 h1)

theorem approxLt_lt {a b : ℚ} (ha : 0 ≤ a) (hb : 0 ≤ b) (h : approxLt a b tol = true) : a < b := by
  rw [approxLt_iff' ha hb] at h
  have := mul_nonneg tol_pos.le hb
  linarith

theorem not_both {a b : ℚ} (ha : 0 ≤ a) (hb : 0 ≤ b) (h : approxLt a b tol = true) :
    approxEq a b tol = false := by
  have hlt := approxLt_lt ha hb h
  rw [approxLt_iff' ha hb] at h
  rw [Bool.eq_false_iff]
  intro he
  rw [approxEq_iff_le ha hlt.le] at he
  linarith

/-! ## Well-formed curves -/

/-- Records are non-negative, separated in time by more than the tolerance, and
non-decreasing in count. -/
structure OK (c : Curve) : Prop where
  ne : c ≠ []
  nonneg : ∀ r ∈ c, 0 ≤ r.1 ∧ 0 ≤ r.2
  sorted : c.Pairwise (fun a b => tol * b.1 < b.1 - a.1 ∧ a.2 ≤ b.2)

theorem OK.lt {c : Curve} (h : OK c) :
    c.Pairwise (fun a b => a.1 < b.1 ∧ a.2 ≤ b.2) := by
  have hn := h.nonneg
  have hs := h.sorted
  clear h
  induction c with
  | nil => exact List.Pairwise.nil
  | cons a c ih =>
    rw [List.pairwise_cons] at hs ⊢
    refine ⟨fun b hb => ?_, ih (fun r hr => hn r (List.mem_cons_of_mem _ hr)) hs.2⟩
    have h1 := hs.1 b hb
    have h2 := (hn b (List.mem_cons_of_mem _ hb)).1
    have h3 := mul_nonneg tol_pos.le h2
    exact ⟨by linarith, h1.2⟩

theorem install_ok : OK install := by
  refine ⟨by simp [install, addRecord], ?_, ?_⟩
  · intro r hr; simp [install, addRecord] at hr; subst hr; simp
  · simp [install, addRecord]

theorem exists_last {c : Curve} (h : c ≠ []) : ∃ d b, c = d ++ [b] :=
  ⟨c.dropLast, c.getLast h, (List.dropLast_append_getLast h).symm⟩

theorem addIncrement_snoc (d : Curve) (b r : ℚ × ℚ) :
    addIncrement (d ++ [b]) r =
      if approxLt r.1 b.1 tol then .throw "early time index"
      else if approxEq r.1 b.1 tol then .ok (d ++ [(b.1, b.2 + r.2)])
      else .ok (d ++ [b] ++ [(r.1, r.2 + b.2)]) := by
  simp [addIncrement]

theorem addIncrement_ok {c c' : Curve} {r : ℚ × ℚ} (h : OK c) (hr1 : 0 ≤ r.1) (hr2 : 0 ≤ r.2)
    (he : addIncrement c r = .ok c') : OK c' := by
  obtain ⟨d, b, rfl⟩ := exists_last h.ne
  rw [addIncrement_snoc] at he
  have hb := h.nonneg b (by simp)
  have hs := h.sorted
  rw [List.pairwise_append] at hs
  split at he
  · cases he
  · rename_i hlt
    split at he
    · cases he
      refine ⟨by simp, ?_, ?_⟩
      · intro x hx
        simp only [List.mem_append, List.mem_singleton] at hx
        rcases hx with hx | rfl
        · exact h.nonneg x (by simp [hx])
        · exact ⟨hb.1, add_nonneg hb.2 hr2⟩
      · rw [List.pairwise_append]
        refine ⟨hs.1, by simp, ?_⟩
        intro a ha x hx
        simp only [List.mem_singleton] at hx
        subst hx
        have := hs.2.2 a ha b (by simp)
        exact ⟨this.1, by simpa using le_trans this.2 (le_add_of_nonneg_right hr2)⟩
    · rename_i heq
      cases he
      have hlt' : approxLt b.1 r.1 tol = true := by
        rcases approx_trichotomy hr1 hb.1 with h' | h' | h'
        · exact absurd h' hlt
        · exact absurd h' heq
        · exact h'
      rw [approxLt_iff' hb.1 hr1] at hlt'
      refine ⟨by simp, ?_, ?_⟩
      · intro x hx
        simp only [List.mem_append, List.mem_singleton] at hx
        rcases hx with (hx | rfl) | rfl
        · exact h.nonneg x (by simp [hx])
        · exact hb
        · exact ⟨hr1, add_nonneg hr2 hb.2⟩
      · rw [List.pairwise_append]
        refine ⟨h.sorted, by simp, ?_⟩
        intro a ha x hx
        simp only [List.mem_singleton] at hx
        subst hx
        simp only [List.mem_append, List.mem_singleton] at ha
        rcases ha with ha | rfl
        · have := hs.2.2 a ha b (by simp)
          have h3 := mul_nonneg tol_pos.le hb.1
          exact ⟨by simp only; linarith, by simp only; linarith [this.2]⟩
        · exact ⟨hlt', by simp only; linarith⟩

/-! ## `lower_bound` -/

theorem lowerBound_ok {α : Type} {pred : α → Bool} {l : List α}
    (h : l.Pairwise (fun a b => pred b = true → pred a = true)) :
    lowerBound pred l = .ok (l.takeWhile pred).length := by
  unfold lowerBound
  rw [if_pos]
  induction l with
  | nil => simp
  | cons a l ih =>
    rw [List.pairwise_cons] at h
    rw [List.dropWhile_cons]
    split
    · exact ih h.2
    · rename_i hp
      simp only [List.all_cons, Bool.and_eq_true, List.all_eq_true, Bool.not_eq_true']
      refine ⟨by simpa using hp, fun b hb => ?_⟩
      have := h.1 b hb
      cases hb' : pred b
      · rfl
      · exact absurd (this hb') hp

theorem approxLt_mono {a b v : ℚ} (ha : 0 ≤ a) (hab : a ≤ b) (hv : 0 ≤ v)
    (h : approxLt b v tol = true) : approxLt a v tol = true := by
  rw [approxLt_iff' (le_trans ha hab) hv] at h
  rw [approxLt_iff' ha hv]; linarith

theorem lowerBound_time {c : Curve} (h : OK c) {t : ℚ} (ht : 0 ≤ t) :
    lowerBound (fun r => approxLt r.1 t tol) c
      = .ok (c.takeWhile (fun r => approxLt r.1 t tol)).length := by
  apply lowerBound_ok
  refine List.Pairwise.imp_of_mem ?_ h.lt
  intro a b ha hb hab hlt
  exact approxLt_mono (h.nonneg a ha).1 hab.1.le ht hlt

theorem lowerBound_count {c : Curve} (h : OK c) {t : ℚ} (ht : 0 ≤ t) :
    lowerBound (fun r => approxLt r.2 t tol) c
      = .ok (c.takeWhile (fun r => approxLt r.2 t tol)).length := by
  apply lowerBound_ok
  refine List.Pairwise.imp_of_mem ?_ h.lt
  intro a b ha hb hab hlt
  exact approxLt_mono (h.nonneg a ha).2 hab.2 ht hlt

theorem mem_takeWhile_pred {α : Type} {p : α → Bool} {l : List α} {x : α}
    (h : x ∈ l.takeWhile p) : p x = true := by
  induction l with
  | nil => simp at h
  | cons a l ih =>
    rw [List.takeWhile_cons] at h
    split at h
    · rcases List.mem_cons.1 h with rfl | h
      · assumption
      · exact ih h
    · cases h

theorem takeWhile_split {α : Type} (p : α → Bool) (l : List α) :
    (l.takeWhile p).length = l.length ∧ (∀ x ∈ l, p x = true) ∨
    ∃ pre r post, l = pre ++ r :: post ∧ (l.takeWhile p).length = pre.length ∧
      (∀ x ∈ pre, p x = true) ∧ p r = false := by
  induction l with
  | nil => left; simp
  | cons a l ih =>
    by_cases ha : p a = true
    · rcases ih with ⟨h1, h2⟩ | ⟨pre, r, post, h1, h2, h3, h4⟩
      · left
        rw [List.takeWhile_cons, if_pos ha]
        refine ⟨by simp [h1], ?_⟩
        intro x hx
        rcases List.mem_cons.1 hx with rfl | hx
        · exact ha
        · exact h2 x hx
      · right
        refine ⟨a :: pre, r, post, by simp [h1], ?_, ?_, h4⟩
        · rw [List.takeWhile_cons, if_pos ha]; simp [h2]
        · intro x hx
          rcases List.mem_cons.1 hx with rfl | hx
          · exact ha
          · exact h3 x hx
    · right
      refine ⟨[], a, l, rfl, ?_, by simp, by simpa using ha⟩
      rw [List.takeWhile_cons, if_neg ha]

theorem at'_append (pre : Curve) (r : ℚ × ℚ) (post : Curve) :
    at' (pre ++ r :: post) pre.length = .ok r := by
  simp [at']

theorem back_snoc (d : Curve) (b : ℚ × ℚ) : back (d ++ [b]) = .ok b := by
  simp [back]

/-- The record a time lookup finds: the first record within tolerance of `t`, otherwise the
last one clearly before `t`; everything earlier is clearly before `t`, everything later is
after `t`. -/
def Finds (c : Curve) (t : ℚ) (r : ℚ × ℚ) : Prop :=
  ∃ pre post, c = pre ++ r :: post ∧ (∀ x ∈ pre, approxLt x.1 t tol = true) ∧
    (∀ x ∈ post, t < x.1) ∧
    (approxEq r.1 t tol = true ∨
      (approxLt r.1 t tol = true ∧ ∀ x ∈ post, approxLt t x.1 tol = true))

theorem approxEq_self (t : ℚ) : approxEq t t tol = true := by
  simp only [approxEq, sub_self, abs_zero, decide_eq_true_eq, max_self]
  exact mul_nonneg tol_pos.le (abs_nonneg t)

theorem getResult_finds {c : Curve} (h : OK c) {t : ℚ} (h0 : ∀ r ∈ c.head?, r.1 ≤ t) :
    ∃ r, getResult c t = .ok r.2 ∧ Finds c t r := by
  have hlt := h.lt
  have htt : ∀ r ∈ c.head?, 0 ≤ t := fun r hr =>
    le_trans (h.nonneg r (List.mem_of_mem_head? hr)).1 (h0 r hr)
  have near : ∀ r : ℚ × ℚ, 0 ≤ r.1 → r.1 ≤ t →
      approxEq r.1 t tol = true ∨ approxLt r.1 t tol = true := by
    intro r hr hrt
    rcases approx_trichotomy hr (le_trans hr hrt) with h' | h' | h'
    · exact Or.inr h'
    · exact Or.inl h'
    · exact absurd (approxLt_lt (le_trans hr hrt) hr h') (not_lt.2 hrt)
  rcases c with _ | ⟨r0, _ | ⟨r1, rest⟩⟩
  · exact absurd rfl h.ne
  · refine ⟨r0, rfl, [], [], rfl, by simp, by simp, ?_⟩
    rcases near r0 (h.nonneg r0 (by simp)).1 (h0 r0 (by simp)) with h' | h'
    · exact Or.inl h'
    · exact Or.inr ⟨h', by simp⟩
  · have hr0 : r0.1 ≤ t := h0 r0 (by simp)
    have hn0 : 0 ≤ r0.1 := (h.nonneg r0 (by simp)).1
    have ht : 0 ≤ t := htt r0 (by simp)
    -- after a record within tolerance every record is strictly later than t
    have hsep : ∀ pre x post, (r0 :: r1 :: rest) = pre ++ x :: post → approxEq x.1 t tol = true →
        ∀ y ∈ post, t < y.1 := by
      intro pre x post hc hx y hy
      have hxm : x ∈ r0 :: r1 :: rest := by rw [hc]; simp
      have hgap : tol * y.1 < y.1 - x.1 := by
        have := h.sorted
        rw [hc, List.pairwise_append, List.pairwise_cons] at this
        exact (this.2.1.1 y hy).1
      have hyx : x.1 < y.1 := by
        rw [hc, List.pairwise_append, List.pairwise_cons] at hlt
        exact (hlt.2.1.1 y hy).1
      have hxn := (h.nonneg x hxm).1
      rcases le_total x.1 t with hxt | hxt
      · have hx' : t - x.1 ≤ tol * t := (approxEq_iff_le hxn hxt).1 hx
        by_contra hcon
        have hcon : y.1 ≤ t := not_lt.1 hcon
        have := tol_lt_one
        nlinarith
      · exact lt_of_le_of_lt hxt hyx
    by_cases heq0 : r0.1 = t
    · -- the shortcut `m_recorder[0].first >= time`
      refine ⟨r0, by simp [getResult, heq0], [], r1 :: rest, rfl, by simp, ?_, Or.inl ?_⟩
      · exact hsep [] r0 (r1 :: rest) rfl (heq0 ▸ approxEq_self _)
      · exact heq0 ▸ approxEq_self _
    · have hr0' : r0.1 < t := lt_of_le_of_ne hr0 heq0
      have hg : getResult (r0 :: r1 :: rest) t =
          ((lowerBound (fun r => approxLt r.1 t tol) (r0 :: r1 :: rest)).bind fun j =>
            if j ≠ (r0 :: r1 :: rest).length then
              (at' (r0 :: r1 :: rest) j).bind fun rj =>
                if approxEq rj.1 t tol then .ok rj.2
                else if rj.1 > t then
                  (if j = 0 then .ub else (at' (r0 :: r1 :: rest) (j - 1)).bind fun r => .ok r.2)
                else (back (r0 :: r1 :: rest)).bind fun r => .ok r.2
            else (back (r0 :: r1 :: rest)).bind fun r => .ok r.2) := by
        rw [getResult, if_neg (not_le.2 hr0')]
        rintro he; cases he
      rw [hg, lowerBound_time h ht]
      clear hg
      have hhead : (r0 :: r1 :: rest).head? = some r0 := rfl
      have hne := h.ne
      revert hhead hsep hlt h hne
      generalize r0 :: r1 :: rest = c
      intro h hlt hsep hhead hne
      rw [Res.bind_ok']
      rcases takeWhile_split (fun r : ℚ × ℚ => approxLt r.1 t tol) c with ⟨h1, h2⟩ |
        ⟨pre, r, post, hc, h2, h3, h4⟩
      · rw [if_neg (not_not.2 h1)]
        obtain ⟨d, b, rfl⟩ := exists_last hne
        refine ⟨b, by rw [back_snoc]; rfl, d, [], rfl, fun x hx => h2 x (by simp [hx]), by simp,
          Or.inr ⟨h2 b (by simp), by simp⟩⟩
      · have hlen : pre.length ≠ c.length := by rw [hc]; simp
        rw [h2, if_pos hlen]
        have hat : at' c pre.length = .ok r := by rw [hc]; exact at'_append _ _ _
        rw [hat, Res.bind_ok']
        have hrm : r ∈ c := by rw [hc]; simp
        have hrn := (h.nonneg r hrm).1
        by_cases heq : approxEq r.1 t tol = true
        · simp only [heq, if_true]
          exact ⟨r, rfl, pre, post, hc, h3, hsep pre r post hc heq, Or.inl heq⟩
        · have hgt : approxLt t r.1 tol = true := by
            rcases approx_trichotomy hrn ht with h' | h' | h'
            · rw [h4] at h'; cases h'
            · exact absurd h' heq
            · exact h'
          have hgt' : r.1 > t := approxLt_lt ht hrn hgt
          have hprene : pre ≠ [] := by
            rintro rfl
            rw [hc] at hhead
            simp at hhead
            subst hhead
            exact absurd hgt' (not_lt.2 hr0'.le)
          obtain ⟨d, b, rfl⟩ := exists_last hprene
          have hj : (d ++ [b]).length ≠ 0 := by simp
          have hj1 : (d ++ [b]).length - 1 = d.length := by simp
          have hat2 : at' c d.length = .ok b := by
            rw [hc]; simpa using at'_append d b (r :: post)
          rw [if_neg heq, if_pos hgt', if_neg hj, hj1, hat2]
          have hlater : ∀ x ∈ r :: post, approxLt t x.1 tol = true := by
            intro x hx
            rcases List.mem_cons.1 hx with rfl | hx
            · exact hgt
            · have hxn := (h.nonneg x (by rw [hc]; simp [hx])).1
              have hrx : r.1 < x.1 := by
                rw [hc, List.pairwise_append, List.pairwise_cons] at hlt
                exact (hlt.2.1.1 x hx).1
              rw [approxLt_iff' ht hrn] at hgt
              rw [approxLt_iff' ht hxn]
              have := tol_lt_one
              nlinarith
          refine ⟨b, rfl, d, r :: post, by rw [hc]; simp, fun x hx => h3 x (by simp [hx]), ?_,
            Or.inr ⟨h3 b (by simp), hlater⟩⟩
          intro x hx
          exact approxLt_lt ht (h.nonneg x (by rw [hc]; simp at hx ⊢; tauto)).1 (hlater x hx)

theorem append_cons_cases {α : Type} {p q : List α} {r r' : α} {s s' : List α}
    (h : p ++ r :: s = q ++ r' :: s') :
    (p = q ∧ r = r' ∧ s = s') ∨ (r ∈ q ∧ r' ∈ s) ∨ (r' ∈ p ∧ r ∈ s') := by
  induction p generalizing q with
  | nil =>
    cases q with
    | nil => simp at h; exact Or.inl ⟨rfl, h.1, h.2⟩
    | cons a q => simp at h; right; left; simp [h.1, h.2]
  | cons a p ih =>
    cases q with
    | nil => simp at h; right; right; simp [h.1, ← h.2]
    | cons b q =>
      simp at h
      rcases ih h.2 with ⟨h1, h2, h3⟩ | ⟨h1, h2⟩ | ⟨h1, h2⟩
      · left; simp [h.1, h1, h2, h3]
      · right; left; exact ⟨List.mem_cons_of_mem _ h1, h2⟩
      · right; right; exact ⟨List.mem_cons_of_mem _ h1, h2⟩

theorem Finds.mem {c : Curve} {t : ℚ} {r : ℚ × ℚ} (h : Finds c t r) : r ∈ c := by
  obtain ⟨pre, post, rfl, _⟩ := h; simp

theorem Finds.mono {c : Curve} (h : OK c) {s t : ℚ} (hs : 0 ≤ s) (hst : s ≤ t) {r r' : ℚ × ℚ}
    (h1 : Finds c s r) (h2 : Finds c t r') : r.2 ≤ r'.2 := by
  have hrn := (h.nonneg r h1.mem).1
  have hrn' := (h.nonneg r' h2.mem).1
  obtain ⟨pre, post, hc, ha, hb, hd⟩ := h1
  obtain ⟨pre', post', hc', ha', hb', hd'⟩ := h2
  rcases append_cons_cases (hc.symm.trans hc') with ⟨_, rfl, _⟩ | ⟨_, hm⟩ | ⟨hm, hm'⟩
  · exact le_refl _
  · have := h.lt
    rw [hc, List.pairwise_append, List.pairwise_cons] at this
    exact (this.2.1.1 r' hm).2
  · exfalso
    have hlt := hb' r hm'
    have ht0 : 0 ≤ t := le_trans hs hst
    rcases hd with hd | hd
    · have h3 : r.1 - s ≤ tol * r.1 := by
        rw [approxEq_comm] at hd
        exact (approxEq_iff_le hs (by linarith)).1 hd
      have h4 : approxEq t r.1 tol = true := (approxEq_iff_le ht0 hlt.le).2 (by linarith)
      rcases hd' with hd' | hd'
      · have h5 := ha r' hm
        rw [approxLt_iff' hrn' hs] at h5
        have h6 : approxLt r'.1 t tol = true := by
          rw [approxLt_iff' hrn' ht0]
          have := tol_lt_one
          nlinarith
        rw [not_both hrn' ht0 h6] at hd'
        cases hd'
      · have := not_both ht0 hrn (hd'.2 r hm')
        rw [this] at h4; cases h4
    · have := approxLt_lt hrn hs hd.1
      linarith

theorem getResult_total {c : Curve} (h : OK c) (t : ℚ) :
    ∃ r, r ∈ c ∧ getResult c t = .ok r.2 ∧ ((∃ r0 ∈ c.head?, t < r0.1 ∧ r = r0) ∨ Finds c t r) := by
  rcases c with _ | ⟨r0, rest⟩
  · exact absurd rfl h.ne
  · by_cases ht : r0.1 ≤ t
    · obtain ⟨r, h1, h2⟩ := getResult_finds h (t := t) (by intro r hr; simp at hr; subst hr; exact ht)
      exact ⟨r, h2.mem, h1, Or.inr h2⟩
    · have ht' := not_le.1 ht
      refine ⟨r0, by simp, ?_, Or.inl ⟨r0, by simp, ht', rfl⟩⟩
      cases rest with
      | nil => rfl
      | cons r1 rest => simp [getResult, ht'.le]

theorem head_le {c : Curve} (h : OK c) {r0 : ℚ × ℚ} (h0 : c.head? = some r0) {r : ℚ × ℚ}
    (hr : r ∈ c) : r0.2 ≤ r.2 ∧ r0.1 ≤ r.1 := by
  cases c with
  | nil => cases hr
  | cons a c =>
    simp at h0; subst h0
    rcases List.mem_cons.1 hr with rfl | hr
    · simp
    · have := h.lt
      rw [List.pairwise_cons] at this
      exact ⟨(this.1 r hr).2, (this.1 r hr).1.le⟩

theorem le_last {c : Curve} (h : OK c) {b : ℚ × ℚ} (hb : c.getLast? = some b) {r : ℚ × ℚ}
    (hr : r ∈ c) : r.2 ≤ b.2 ∧ r.1 ≤ b.1 := by
  obtain ⟨d, b', rfl⟩ := exists_last h.ne
  simp at hb; subst hb
  simp only [List.mem_append, List.mem_singleton] at hr
  rcases hr with hr | rfl
  · have := h.lt
    rw [List.pairwise_append] at this
    have := this.2.2 r hr b' (by simp)
    exact ⟨this.2, this.1.le⟩
  · simp

theorem getResult_mono {c : Curve} (h : OK c) {s t a b : ℚ} (hst : s ≤ t)
    (ha : getResult c s = .ok a) (hb : getResult c t = .ok b) : a ≤ b := by
  obtain ⟨r, hr, h1, h2⟩ := getResult_total h s
  obtain ⟨r', hr', h1', h2'⟩ := getResult_total h t
  rw [h1] at ha; rw [h1'] at hb; cases ha; cases hb
  rcases h2 with ⟨r0, h0, hlt, rfl⟩ | h2
  · exact (head_le h h0 hr').1
  · rcases h2' with ⟨r0, h0, hlt, rfl⟩ | h2'
    · -- t < first time, so s is before the first record as well
      have := (head_le h h0 hr).2
      obtain ⟨pre, post, hc, ha, hb, hd⟩ := h2
      rcases c with _ | ⟨x, c⟩
      · cases hr
      simp at h0; subst h0
      cases pre with
      | nil => simp at hc; rw [hc.1]
      | cons y pre =>
        simp at hc
        have h3 := ha y (by simp)
        rw [← hc.1] at h3
        by_cases hs : 0 ≤ s
        · have := approxLt_lt (h.nonneg x (by simp)).1 hs h3
          linarith
        · simp only [approxLt, decide_eq_true_eq] at h3
          have hx := (h.nonneg x (by simp)).1
          have := mul_nonneg tol_pos.le (le_trans (abs_nonneg x.1) (le_max_left |x.1| |s|))
          linarith [not_le.1 hs]
    · have hs : 0 ≤ s := by
        by_contra hs
        have hs := not_le.1 hs
        obtain ⟨pre, post, hc, ha, hb, hd⟩ := h2
        have hrn := (h.nonneg r hr).1
        rcases hd with hd | hd
        · simp only [approxEq, decide_eq_true_eq] at hd
          rw [abs_of_nonneg (by linarith), abs_of_nonneg hrn, abs_of_neg hs] at hd
          have : max r.1 (-s) ≤ r.1 - s := max_le (by linarith) (by linarith)
          have h3 := tol_lt_one
          have h4 := tol_pos
          have h5 : 0 < max r.1 (-s) := lt_max_of_lt_right (by linarith)
          nlinarith
        · have hd := hd.1
          simp only [approxLt, decide_eq_true_eq] at hd
          have := mul_nonneg tol_pos.le (le_trans (abs_nonneg r.1) (le_max_left |r.1| |s|))
          linarith
      exact Finds.mono h hs hst h2 h2'

/-! ## Histories -/

theorem addIncrement_total {d c' : Curve} {b r : ℚ × ℚ}
    (he : addIncrement (d ++ [b]) r = .ok c') :
    ∃ d' b', c' = d' ++ [b'] ∧ b'.2 = b.2 + r.2 := by
  rw [addIncrement_snoc] at he
  split at he
  · cases he
  · split at he
    · cases he; exact ⟨_, _, rfl, rfl⟩
    · cases he; exact ⟨_, _, rfl, add_comm _ _⟩

/-- Value of the last record at or before `t` (0 if none). -/
def lookupLe (c : Curve) (t : ℚ) : ℚ := c.foldl (fun v r => if r.1 ≤ t then r.2 else v) 0

theorem lookupLe_snoc (c : Curve) (x : ℚ × ℚ) (t : ℚ) :
    lookupLe (c ++ [x]) t = if x.1 ≤ t then x.2 else lookupLe c t := by
  simp [lookupLe]

theorem lookupLe_append_gt {t : ℚ} : ∀ (post c : Curve), (∀ x ∈ post, t < x.1) →
    lookupLe (c ++ post) t = lookupLe c t := by
  intro post
  induction post using List.reverseRecOn with
  | nil => intro c _; simp
  | append_singleton l a ih =>
    intro c hpost
    rw [← List.append_assoc, lookupLe_snoc, if_neg (not_le.2 (hpost a (by simp)))]
    exact ih c fun x hx => hpost x (by simp [hx])

theorem flowUpTo_snoc (rs : List (ℚ × ℚ)) (x : ℚ × ℚ) (t : ℚ) :
    flowUpTo (rs ++ [x]) t = flowUpTo rs t + if x.1 ≤ t then x.2 else 0 := by
  simp only [flowUpTo, List.filter_append, List.map_append, List.sum_append]
  congr 1
  by_cases h : x.1 ≤ t <;> simp [h]

theorem IntTime.nonneg {x : ℚ} (h : IntTime x) : 0 ≤ x := by
  obtain ⟨n, _, rfl⟩ := h; exact_mod_cast Nat.zero_le n

theorem approxEq_int {x y : ℚ} (hx : IntTime x) (hy : IntTime y) :
    approxEq x y tol = true ↔ x = y := by
  constructor
  · intro h
    obtain ⟨n, hn, rfl⟩ := hx
    obtain ⟨m, hm, rfl⟩ := hy
    have key : ∀ a b : ℕ, a < b → b < 10000 → ¬ ((b : ℚ) - a ≤ tol * b) := by
      intro a b hab hb h
      have h1 : (a : ℚ) + 1 ≤ b := by exact_mod_cast hab
      have h2 : (b : ℚ) < 10000 := by exact_mod_cast hb
      have : tol * (b : ℚ) < 1 := by unfold tol; linarith
      linarith
    rcases Nat.lt_trichotomy n m with hlt | heq | hlt
    · have hle : (n : ℚ) ≤ m := by exact_mod_cast hlt.le
      exact absurd ((approxEq_iff_le (by positivity) hle).1 h) (key n m hlt hm)
    · rw [heq]
    · have hle : (m : ℚ) ≤ n := by exact_mod_cast hlt.le
      rw [approxEq_comm] at h
      exact absurd ((approxEq_iff_le (by positivity) hle).1 h) (key m n hlt hn)
  · rintro rfl; exact approxEq_self x

theorem approxLt_int {x y : ℚ} (hx : IntTime x) (hy : IntTime y) :
    approxLt x y tol = true ↔ x < y := by
  constructor
  · exact approxLt_lt hx.nonneg hy.nonneg
  · intro h
    rcases approx_trichotomy hx.nonneg hy.nonneg with h' | h' | h'
    · exact h'
    · exact absurd ((approxEq_int hx hy).1 h') h.ne
    · exact absurd (approxLt_lt hy.nonneg hx.nonneg h') (not_lt.2 h.le)

/-- A legal history runs without exception and the curve answers queries by counting. -/
theorem run_legal (rs : List (ℚ × ℚ)) (h : Legal rs) :
    ∃ c, Res.foldlM addIncrement install rs = .ok c ∧ OK c ∧ (∀ r ∈ c, IntTime r.1) ∧
      (∃ d b, c = d ++ [b] ∧ b.2 = (rs.map (·.2)).sum ∧
        (b.1 = 0 ∨ ∃ r ∈ rs, b.1 = r.1) ∧ (∀ r ∈ rs, r.1 ≤ b.1)) ∧
      (∃ r0, c.head? = some r0 ∧ r0.1 = 0) ∧
      ∀ t, 0 ≤ t → lookupLe c t = flowUpTo rs t := by
  induction rs using List.reverseRecOn with
  | nil =>
    refine ⟨install, rfl, install_ok, ?_, ⟨[], (0, 0), rfl, by simp, by simp, by simp⟩,
      ⟨(0, 0), rfl, rfl⟩, ?_⟩
    · intro r hr; simp [install, addRecord] at hr; subst hr; exact ⟨0, by norm_num, by simp⟩
    · intro t ht; simp [lookupLe, install, addRecord, flowUpTo]
  | append_singleton rs r ih =>
    obtain ⟨h1, h2⟩ := h
    rw [List.pairwise_append] at h2
    obtain ⟨c, he, hok, hint, ⟨d, b, hc, hb2, hb1, hle⟩, ⟨r0, h0, h00⟩, hl⟩ :=
      ih ⟨fun x hx => h1 x (by simp [hx]), h2.1⟩
    have hr := h1 r (by simp)
    have hbint : IntTime b.1 := hint b (by rw [hc]; simp)
    have hbr : b.1 ≤ r.1 := by
      rcases hb1 with hb1 | ⟨x, hx, hb1⟩
      · rw [hb1]; exact hr.1.nonneg
      · rw [hb1]; exact h2.2.2 x hx r (by simp)
    have hnlt : ¬ (approxLt r.1 b.1 tol = true) := by
      rw [approxLt_int hr.1 hbint]; exact not_lt.2 hbr
    have hrun : ∀ c', addIncrement c r = .ok c' →
        Res.foldlM addIncrement install (rs ++ [r]) = .ok c' := by
      intro c' hc'
      rw [Res.foldlM_append, he]
      simp only [Res.ok_bind, Res.foldlM_cons, hc', Res.foldlM_nil]
    have hstep := addIncrement_snoc d b r
    rw [← hc, if_neg hnlt] at hstep
    have hle' : ∀ x ∈ rs ++ [r], x.1 ≤ r.1 := by
      intro x hx
      simp only [List.mem_append, List.mem_singleton] at hx
      rcases hx with hx | rfl
      · exact h2.2.2 x hx r (by simp)
      · exact le_refl _
    by_cases heq : r.1 = b.1
    · rw [if_pos ((approxEq_int hr.1 hbint).2 heq)] at hstep
      have hok' := addIncrement_ok hok hr.1.nonneg hr.2 hstep
      refine ⟨_, hrun _ hstep, hok', ?_, ⟨d, _, rfl, ?_, Or.inr ⟨r, by simp, heq.symm⟩, ?_⟩, ?_, ?_⟩
      · intro x hx
        simp only [List.mem_append, List.mem_singleton] at hx
        rcases hx with hx | rfl
        · exact hint x (by rw [hc]; simp [hx])
        · exact hbint
      · simp [hb2]
      · intro x hx; rw [← heq]; exact hle' x hx
      · cases d with
        | nil => simp [hc] at h0; subst h0; exact ⟨_, rfl, h00⟩
        | cons a d => simp [hc] at h0; subst h0; exact ⟨_, rfl, h00⟩
      · intro t ht
        have := hl t ht
        rw [hc, lookupLe_snoc] at this
        rw [lookupLe_snoc, flowUpTo_snoc, ← this, ← heq]
        split <;> simp
    · have hne : ¬ (approxEq r.1 b.1 tol = true) := by rw [approxEq_int hr.1 hbint]; exact heq
      rw [if_neg hne] at hstep
      have hok' := addIncrement_ok hok hr.1.nonneg hr.2 hstep
      refine ⟨_, hrun _ hstep, hok', ?_, ⟨c, _, rfl, ?_, Or.inr ⟨r, by simp, rfl⟩, hle'⟩, ?_, ?_⟩
      · intro x hx
        simp only [List.mem_append, List.mem_singleton] at hx
        rcases hx with hx | rfl
        · exact hint x hx
        · exact hr.1
      · simp [hb2, add_comm]
      · refine ⟨r0, ?_, h00⟩
        cases c with
        | nil => simp at h0
        | cons a c => simpa using h0
      · intro t ht
        have hlt := hl t ht
        rw [hc, lookupLe_snoc] at hlt
        rw [lookupLe_snoc, flowUpTo_snoc, ← hlt, hc, lookupLe_snoc]
        by_cases htr : r.1 ≤ t
        · simp [htr, le_trans hbr htr, add_comm]
        · simp [htr]

theorem getResult_lookup {c : Curve} (h : OK c) (hint : ∀ r ∈ c, IntTime r.1) {r0 : ℚ × ℚ}
    (h0 : c.head? = some r0) (h00 : r0.1 = 0) {t : ℚ} (ht : IntTime t) :
    getResult c t = .ok (lookupLe c t) := by
  obtain ⟨r, h1, pre, post, hc, ha, hb, hd⟩ := getResult_finds h (t := t)
    (by intro r hr; rw [h0] at hr; cases hr; rw [h00]; exact ht.nonneg)
  rw [h1]
  congr 1
  have hrint := hint r (by rw [hc]; simp)
  have hrt : r.1 ≤ t := by
    rcases hd with hd | hd
    · exact le_of_eq ((approxEq_int hrint ht).1 hd)
    · exact (approxLt_lt hrint.nonneg ht.nonneg hd.1).le
  have : c = (pre ++ [r]) ++ post := by simp [hc]
  rw [this, lookupLe_append_gt post _ hb, lookupLe_snoc, if_pos hrt]

end Verif.Curve

namespace Verif.Curve
open Ults

/-! ## Inverse lookup -/

theorem getTime_up {c : Curve} (h : OK c) {v : ℚ} {r0 : ℚ × ℚ} (h0 : c.head? = some r0)
    (hv : r0.2 < v) (hlen : c.length ≠ 1) :
    (∃ r, FirstAt (fun r => approxLt r.2 v tol = false) c r ∧ getTime c v true = .ok r.1) ∨
    ((∀ r ∈ c, approxLt r.2 v tol = true) ∧ getTime c v true = .ub) := by
  have hv0 : 0 ≤ v := by
    have := (h.nonneg r0 (List.mem_of_mem_head? h0)).2; linarith
  have hlb := lowerBound_count h hv0
  rcases c with _ | ⟨a, rest⟩
  · cases h0
  · simp at h0; subst h0
    have hne : rest ≠ [] := by rintro rfl; exact hlen rfl
    simp only [getTime, if_neg (not_le.2 hv), if_neg hne, hlb, Res.bind_ok', if_true]
    rcases takeWhile_split (fun r : ℚ × ℚ => approxLt r.2 v tol) (a :: rest) with ⟨h1, h2⟩ |
      ⟨pre, r, post, hc, h2, h3, h4⟩
    · right
      exact ⟨h2, by rw [h1]; simp [at']⟩
    · left
      refine ⟨r, ⟨pre, post, hc, h4, fun x hx => by simp [h3 x hx]⟩, ?_⟩
      rw [h2, hc, at'_append]; rfl

theorem getTime_down {c : Curve} (h : OK c) (v : ℚ) {r0 : ℚ × ℚ} (h0 : c.head? = some r0) :
    ∃ τ, getTime c v false = .ok τ ∧
      ((τ = -1 ∧ (v ≤ r0.2 ∨ c.length = 1 ∨ ∀ r ∈ c, approxLt r.2 v tol = true)) ∨
       (r0.2 < v ∧ ∃ r, FirstAt (fun r => approxLt r.2 v tol = false) c r ∧
         ((approxEq r.2 v tol = true ∧ τ = r.1) ∨
          (approxLt v r.2 tol = true ∧ ∃ p ∈ c, approxLt p.2 v tol = true ∧
            (∀ x ∈ c, approxLt x.2 v tol = true → x.2 ≤ p.2) ∧
            ∃ q, FirstAt (fun x => approxLt x.2 p.2 tol = false) c q ∧ τ = q.1)))) := by
  by_cases hv : v ≤ r0.2
  · refine ⟨-1, ?_, Or.inl ⟨rfl, Or.inl hv⟩⟩
    cases c with
    | nil => rfl
    | cons a rest => simp at h0; subst h0; simp [getTime, hv]
  have hv' := not_le.1 hv
  by_cases hlen : c.length = 1
  · refine ⟨-1, ?_, Or.inl ⟨rfl, Or.inr (Or.inl hlen)⟩⟩
    cases c with
    | nil => rfl
    | cons a rest =>
      simp at h0; subst h0
      have : rest = [] := by simpa using hlen
      simp [getTime, hv', this]
  have hv0 : 0 ≤ v := by
    have := (h.nonneg r0 (List.mem_of_mem_head? h0)).2; linarith
  have hlb := lowerBound_count h hv0
  have hg : getTime c v false =
      ((lowerBound (fun r => approxLt r.2 v tol) c).bind fun j =>
        if j ≠ c.length then
          (at' c j).bind fun rj =>
            if approxEq rj.2 v tol then .ok rj.1
            else if rj.2 > v then
              (if j = 0 then .ub
               else (at' c (j - 1)).bind fun rp =>
                (lowerBound (fun r => approxLt r.2 rp.2 tol) (c.take j)).bind fun i =>
                  (at' c i).bind fun ri => .ok ri.1)
            else .ok (-1)
        else .ok (-1)) := by
    cases c with
    | nil => cases h0
    | cons a rest =>
      simp at h0; subst h0
      have hne : rest ≠ [] := by rintro rfl; exact hlen rfl
      simp only [getTime, if_neg hv, if_neg hne, Bool.false_eq_true, if_false]
  rw [hg, hlb, Res.bind_ok']
  clear hg
  rcases takeWhile_split (fun r : ℚ × ℚ => approxLt r.2 v tol) c with ⟨h1, h2⟩ |
    ⟨pre, r, post, hc, h2, h3, h4⟩
  · rw [if_neg (not_not.2 h1)]
    exact ⟨-1, rfl, Or.inl ⟨rfl, Or.inr (Or.inr h2)⟩⟩
  · have hlen' : pre.length ≠ c.length := by rw [hc]; simp
    have hat : at' c pre.length = .ok r := by rw [hc]; exact at'_append _ _ _
    rw [h2, if_pos hlen', hat, Res.bind_ok']
    have hfirst : FirstAt (fun r => approxLt r.2 v tol = false) c r :=
      ⟨pre, post, hc, h4, fun x hx => by simp [h3 x hx]⟩
    have hrn := (h.nonneg r (by rw [hc]; simp)).2
    by_cases heq : approxEq r.2 v tol = true
    · rw [if_pos heq]
      exact ⟨r.1, rfl, Or.inr ⟨hv', r, hfirst, Or.inl ⟨heq, rfl⟩⟩⟩
    · have hgt : approxLt v r.2 tol = true := by
        rcases approx_trichotomy hrn hv0 with h' | h' | h'
        · rw [h4] at h'; cases h'
        · exact absurd h' heq
        · exact h'
      have hgt' := approxLt_lt hv0 hrn hgt
      have hprene : pre ≠ [] := by
        rintro rfl
        rw [hc] at h0
        simp at h0; subst h0
        exact absurd hgt' (not_lt.2 hv'.le)
      obtain ⟨d, p, rfl⟩ := exists_last hprene
      have hj : (d ++ [p]).length ≠ 0 := by simp
      have hj1 : (d ++ [p]).length - 1 = d.length := by simp
      have hat2 : at' c d.length = .ok p := by
        rw [hc]; simpa using at'_append d p (r :: post)
      have htake : c.take (d ++ [p]).length = d ++ [p] := by rw [hc]; exact List.take_left' rfl
      rw [if_neg heq, if_pos hgt', if_neg hj, hj1, hat2, Res.bind_ok', htake]
      have hpc : p ∈ c := by rw [hc]; simp
      have hpn := (h.nonneg p hpc).2
      have hlt := h.lt
      have hsub : ∀ x ∈ d ++ [p], x ∈ c := fun x hx => by
        rw [hc]; exact List.mem_append_left _ hx
      have hlb2 : lowerBound (fun x => approxLt x.2 p.2 tol) (d ++ [p])
          = .ok ((d ++ [p]).takeWhile (fun x => approxLt x.2 p.2 tol)).length := by
        apply lowerBound_ok
        rw [hc, List.pairwise_append] at hlt
        refine List.Pairwise.imp_of_mem ?_ hlt.1
        intro a b ha hb hab hl
        exact approxLt_mono (h.nonneg a (hsub a ha)).2 hab.2 hpn hl
      rw [hlb2, Res.bind_ok']
      have hpp : approxLt p.2 p.2 tol = false := by
        rw [Bool.eq_false_iff]; intro hpp
        exact absurd (approxLt_lt hpn hpn hpp) (lt_irrefl _)
      rcases takeWhile_split (fun x : ℚ × ℚ => approxLt x.2 p.2 tol) (d ++ [p]) with ⟨_, hall⟩ |
        ⟨pre2, q, post2, hc2, hl2, ha2, hb2⟩
      · have := hall p (by simp)
        simp [hpp] at this
      · have hat3 : at' c pre2.length = .ok q := by
          rw [hc, hc2, List.append_assoc]; exact at'_append _ _ _
        rw [hl2, hat3]
        refine ⟨q.1, rfl, Or.inr ⟨hv', r, hfirst, Or.inr ⟨hgt, p, hpc, h3 p (by simp), ?_, q,
          ⟨pre2, post2 ++ r :: post, ?_, hb2, ?_⟩, rfl⟩⟩⟩
        · intro x hx hxv
          by_contra hcon
          -- x after p would be in r :: post, but those are not clearly below v
          rw [hc] at hx
          simp only [List.append_assoc, List.mem_append, List.mem_cons, List.not_mem_nil,
            or_false] at hx
          rw [hc, List.pairwise_append] at hlt
          rcases hx with hx | rfl | rfl | hx
          · exact hcon ((List.pairwise_append.1 hlt.1).2.2 x hx p (by simp)).2
          · exact hcon (le_refl _)
          · rw [h4] at hxv; cases hxv
          · have hxr := ((List.pairwise_cons.1 hlt.2.1).1 x hx).2
            have := approxLt_mono hrn hxr hv0 hxv
            rw [h4] at this; cases this
        · rw [hc, hc2]; simp
        · intro x hx; simp [ha2 x hx]

theorem lastValidScan_ok {c : Curve} (h : OK c) {cc t0 : ℚ} : ∀ (is : List ℕ),
    (∃ i ∈ is, ∀ v, getResult c (t0 + i) = .ok v → approxLt cc v tol = true) →
    ∃ i ∈ is, lastValidScan c cc t0 is = .ok (t0 + i - 1)
  | [], hex => by obtain ⟨i, hi, _⟩ := hex; cases hi
  | i :: is, hex => by
    obtain ⟨r, _, hr, _⟩ := getResult_total h (t0 + i)
    unfold lastValidScan
    rw [hr, Res.bind_ok']
    by_cases hlt : approxLt cc r.2 tol = true
    · rw [if_pos hlt]; exact ⟨i, by simp, rfl⟩
    · rw [if_neg hlt]
      obtain ⟨j, hj, hv⟩ := hex
      rcases List.mem_cons.1 hj with rfl | hj
      · exact absurd (hv _ hr) hlt
      · obtain ⟨k, hk, e⟩ := lastValidScan_ok h is ⟨j, hj, hv⟩
        exact ⟨k, by simp [hk], e⟩

theorem getResult_after_last {c : Curve} (h : OK c) {b : ℚ × ℚ} (hb : c.getLast? = some b) {t : ℚ}
    (ht : b.1 ≤ t) : getResult c t = .ok b.2 := by
  have h0 : ∀ r ∈ c.head?, r.1 ≤ t := fun r hr =>
    le_trans (le_last h hb (List.mem_of_mem_head? hr)).2 ht
  obtain ⟨r, h1, pre, post, hc, ha, hp, hd⟩ := getResult_finds h h0
  rw [h1]
  cases post using List.reverseRecOn with
  | nil => rw [hc] at hb; simp at hb; rw [hb]
  | append_singleton l a =>
    have : c.getLast? = some a := by rw [hc]; simp [List.getLast?_append, List.getLast?_cons]
    rw [hb] at this; cases this
    have := hp b (by simp)
    linarith

theorem foldl_step_ok : ∀ (rs : List (ℚ × ℚ)) (c : Curve), (∀ r ∈ rs, 0 ≤ r.1 ∧ 0 ≤ r.2) → OK c →
    OK (rs.foldl step c)
  | [], c, _, hc => hc
  | r :: rs, c, hr, hc => by
    refine foldl_step_ok rs _ (fun x hx => hr x (by simp [hx])) ?_
    unfold step
    cases he : addIncrement c r with
    | ok c' => exact addIncrement_ok hc (hr r (by simp)).1 (hr r (by simp)).2 he
    | throw m => exact hc
    | ub => exact hc
    | diverge => exact hc

theorem reachable_ok (rs : List (ℚ × ℚ)) (h : ∀ r ∈ rs, 0 ≤ r.1 ∧ 0 ≤ r.2) :
    OK (rs.foldl step install) := foldl_step_ok rs install h install_ok

theorem flowBetween_ok {c : Curve} (h : OK c) (s t : ℚ) :
    ∃ a b, getResult c s = .ok a ∧ getResult c t = .ok b ∧ flowBetween c s t = .ok (b - a) := by
  obtain ⟨r, _, h1, _⟩ := getResult_total h s
  obtain ⟨r', _, h1', _⟩ := getResult_total h t
  exact ⟨r.2, r'.2, h1, h1', by simp [flowBetween, h1, h1']⟩

theorem arrange_ok {c : Curve} (h : OK c) : arrange c = c := by
  unfold arrange
  apply List.mergeSort_of_pairwise
  refine List.Pairwise.imp ?_ h.lt
  intro a b hab
  simp [hab.1.le]

end Verif.Curve

import Verif.Model.Emission
import Verif.Lemmas.LinkMisc
import Mathlib.Tactic.Positivity
import Mathlib.Tactic.NormNum
import Mathlib.Tactic.Linarith
import Mathlib.Tactic.Ring

namespace Verif.Emis
open Lnk Curve

variable {V : Type}

theorem fuelEco_pos {v : ℚ} (h5 : 5 ≤ v) (h65 : v ≤ 65) : 0 < fuelEco v := by
  have e : fuelEco v = (28732603013/2073600000000000000) * (v-5)^0 * (65-v)^5 + (464848112567/2073600000000000000) * (v-5)^1 * (65-v)^4 + (44508860173/115200000000000000) * (v-5)^2 * (65-v)^3 + (483400652659/1036800000000000000) * (v-5)^3 * (65-v)^2 + (424681848401/2073600000000000000) * (v-5)^4 * (65-v)^1 + (23298403937/691200000000000000) * (v-5)^5 * (65-v)^0 := by
    unfold fuelEco
    norm_num
    ring
  rw [e]
  have a : 0 ≤ v - 5 := by linarith
  have b : 0 ≤ 65 - v := by linarith
  rcases eq_or_lt_of_le a with ha | ha
  · have : v = 5 := by linarith
    subst this
    norm_num
  · have h1 : 0 < (v - 5) ^ 5 := by positivity
    positivity

theorem fuelRate_ok {v : ℚ} (h5 : 5 ≤ v) (h65 : v ≤ 65) : ∃ r, fuelRate v = some r ∧ 0 ≤ r := by
  have := fuelEco_pos h5 h65
  unfold fuelRate
  rw [if_neg this.ne']
  exact ⟨_, rfl, le_max_right _ _⟩

theorem co2Rate_ok {v : ℚ} (h5 : 5 ≤ v) (h65 : v ≤ 65) : ∃ r, co2Rate v = some r ∧ 0 ≤ r := by
  obtain ⟨r, h, _⟩ := fuelRate_ok h5 h65
  unfold co2Rate
  rw [h]
  exact ⟨_, rfl, le_max_right _ _⟩

/-- The parameters that matter are in range. -/
def Sound (l : Link V) : Prop :=
  0 < l.scalar ∧ 0 < len l ∧ ∃ t, l.tt = some t ∧ 0 < t

theorem checkBase_ok {lanes : ℤ} {length ffs : ℚ} {u : Unit} (h : checkBase lanes length ffs = .ok u) :
    0 ≤ ffs := by
  unfold checkBase at h
  split at h
  · cases h
  · linarith

theorem mkLink_sound {k : LinkKind} {a : LinkArgs} {l : Link V} (h : mkLink k a = .ok l) (hl : 0 < a.lanes)
    (hlen : 0 < a.length) (hcap : 0 ≤ a.cap) {l' : Link V} (hp : l'.params = l.params) : Sound l' := by
  have hl' : (0 : ℚ) < a.lanes := by exact_mod_cast hl
  cases k with
  | pq =>
    simp only [mkLink] at h
    rw [Res.bind_eq_ok'] at h
    obtain ⟨x, hx, h⟩ := h
    cases h
    unfold Pq.mk' at hx
    rw [Res.bind_eq_ok'] at hx
    obtain ⟨_, hb, hx⟩ := hx
    split at hx
    · simp at hx
    · rename_i hc
      push Not at hc
      rw [Res.bind_eq_ok'] at hx
      obtain ⟨m, _, hx⟩ := hx
      cases hx
      have hf : 0 < a.ffs := lt_of_le_of_ne (checkBase_ok hb) (Ne.symm hc.2.2)
      cases l' with
      | pq y =>
        simp only [Link.params, Prod.mk.injEq, true_and] at hp
        obtain ⟨p1, p2, p3, p4, p5, p6⟩ := hp
        refine ⟨?_, ?_, ?_⟩
        · show 0 < y.scalar
          rw [p6]; exact hc.1
        · show 0 < y.length
          rw [p2]; exact hlen
        · obtain ⟨t, h1, h2, _⟩ := linkTt_bounds (lowest := dblEps) (flow := y.flow) (hold := a.hold)
            (by norm_num [dblEps]) (by norm_num [dblEps]) hl hlen hf hcap
          refine ⟨t, ?_, h2⟩
          simp only [Link.tt]
          rw [p1, p2, p3, p4, p5]
          exact h1
      | ctm y => simp [Link.params] at hp
      | lq y => simp [Link.params] at hp
      | ltm y => simp [Link.params] at hp
  | ctm =>
    simp only [mkLink] at h
    rw [Res.bind_eq_ok'] at h
    obtain ⟨x, hx, h⟩ := h
    cases h
    obtain ⟨e0, hs, _, _, _, _, e1, e2, e3, _, _, hf, _, hc, _⟩ := ctm_mk_wf hx
    cases l' with
    | ctm y =>
      simp only [Link.params, Prod.mk.injEq, true_and] at hp
      obtain ⟨p1, p2, p3, p4, p5, p6⟩ := hp
      refine ⟨?_, ?_, ?_⟩
      · show 0 < y.scalar
        rw [p6, e0]; exact hs
      · show 0 < y.length
        rw [p2, e2]; exact hlen
      · obtain ⟨t, h1, h2, _⟩ := linkTt_bounds (lowest := 1 / 1000) (flow := y.flow) (hold := x.hold)
          (by norm_num) (by norm_num) hl hlen hf hc
        refine ⟨t, ?_, h2⟩
        simp only [Link.tt]
        rw [p1, p2, p3, p4, p5, e1, e2, e3]
        exact h1
    | pq y => simp [Link.params] at hp
    | lq y => simp [Link.params] at hp
    | ltm y => simp [Link.params] at hp
  | lq =>
    simp only [mkLink] at h
    rw [Res.bind_eq_ok'] at h
    obtain ⟨x, hx, h⟩ := h
    cases h
    unfold Lq.mk' at hx
    rw [Res.bind_eq_ok'] at hx
    obtain ⟨_, hb, hx⟩ := hx
    split at hx
    · simp at hx
    · rename_i hc
      push Not at hc
      have hf : 0 < a.ffs := lt_of_le_of_ne (checkBase_ok hb) (Ne.symm hc.2.2.1)
      simp only at hx
      have hcap' : 0 ≤ (if a.cap * a.lanes * a.unit * a.scalar < 1 then 1 / (a.lanes * a.unit * a.scalar)
          else a.cap : ℚ) := by
        split
        · have := hc.1; have := hc.2.1; positivity
        · exact hcap
      generalize (if a.cap * a.lanes * a.unit * a.scalar < 1 then _ else a.cap : ℚ) = cap at hx hcap'
      split at hx
      · simp at hx
      · cases hx
        cases l' with
        | lq y =>
          simp only [Link.params, Prod.mk.injEq, true_and] at hp
          obtain ⟨p1, p2, p3, p4, p5, p6⟩ := hp
          refine ⟨?_, ?_, ?_⟩
          · show 0 < y.scalar
            rw [p6]; exact hc.1
          · show 0 < y.length
            rw [p2]; exact hlen
          · obtain ⟨t, h1, h2, _⟩ := linkTt_bounds (lowest := dblEps) (flow := y.flow) (hold := a.hold)
              (by norm_num [dblEps]) (by norm_num [dblEps]) hl hlen hf hcap'
            refine ⟨t, ?_, h2⟩
            simp only [Link.tt]
            rw [p1, p2, p3, p4, p5]
            exact h1
        | ctm y => simp [Link.params] at hp
        | pq y => simp [Link.params] at hp
        | ltm y => simp [Link.params] at hp
  | ltm =>
    simp only [mkLink] at h
    rw [Res.bind_eq_ok'] at h
    obtain ⟨x, hx, h⟩ := h
    cases h
    unfold Ltm.mk' at hx
    rw [Res.bind_eq_ok'] at hx
    obtain ⟨_, hb, hx⟩ := hx
    split at hx
    · simp at hx
    · rename_i hc
      push Not at hc
      have hf : 0 < a.ffs := lt_of_le_of_ne (checkBase_ok hb) (Ne.symm hc.2.2.1)
      simp only at hx
      rw [Res.bind_eq_ok'] at hx
      obtain ⟨m, _, hx⟩ := hx
      cases hx
      cases l' with
      | ltm y =>
        simp only [Link.params, Prod.mk.injEq, true_and] at hp
        obtain ⟨p1, p2, p3, p4, p5, p6⟩ := hp
        refine ⟨?_, ?_, ?_⟩
        · show 0 < y.scalar
          rw [p6]; exact hc.1
        · show 0 < y.length
          rw [p2]; exact hlen
        · obtain ⟨t, h1, h2, _⟩ := linkTt_bounds (lowest := dblEps) (flow := y.volume / y.scalar) (hold := a.hold)
            (by norm_num [dblEps]) (by norm_num [dblEps]) hl hlen hf hcap
          refine ⟨t, ?_, h2⟩
          simp only [Link.tt]
          rw [p1, p2, p3, p4, p5]
          exact h1
      | ctm y => simp [Link.params] at hp
      | pq y => simp [Link.params] at hp
      | lq y => simp [Link.params] at hp

/-- Component-wise order of the totals. -/
def Totals.le (s t : Totals) : Prop :=
  s.fuel ≤ t.fuel ∧ s.co2 ≤ t.co2 ∧ s.hc ≤ t.hc ∧ s.co ≤ t.co ∧ s.nox ≤ t.nox ∧ s.vmt ≤ t.vmt ∧
  s.vmtEv ≤ t.vmtEv

theorem Totals.le_refl (s : Totals) : s.le s := by simp [Totals.le]

theorem Totals.le_trans {s t u : Totals} (h1 : s.le t) (h2 : t.le u) : s.le u := by
  unfold Totals.le at *
  obtain ⟨a1, a2, a3, a4, a5, a6, a7⟩ := h1
  obtain ⟨b1, b2, b3, b4, b5, b6, b7⟩ := h2
  exact ⟨a1.trans b1, a2.trans b2, a3.trans b3, a4.trans b4, a5.trans b5, a6.trans b6, a7.trans b7⟩

/-- Miles driven on a link in one interval of `unit` seconds, by all its vehicles. -/
def miles (unit : ℚ) (l : Link V) : ℚ :=
  match l.tt with
  | none => 0
  | some tt => (l.travelling.length + l.finished.length : ℕ) / l.scalar * (len l / tt * unit / 1600)

theorem count_split (isEv : V → Bool) (xs : List V) :
    (xs.filter fun v => !isEv v).length + (xs.filter isEv).length = xs.length := by
  induction xs with
  | nil => rfl
  | cons x xs ih =>
    cases h : isEv x <;> simp [h] <;> omega

theorem addLink_sound (isEv : V → Bool) {unit : ℚ} (hu : 0 ≤ unit) (s : Totals) {l : Link V} (h : Sound l) :
    ∃ t, addLink isEv unit s l = some t ∧ s.le t ∧ t.vmtEv - s.vmtEv ≤ t.vmt - s.vmt ∧
      t.vmt = s.vmt + miles unit l := by
  obtain ⟨hs, hl, tt, htt, hpos⟩ := h
  unfold addLink
  rw [htt]
  simp only [if_neg hpos.ne']
  have hv5 : 5 ≤ min (max (len l / tt * 3600 / 1600) 5) 65 := by
    rw [le_min_iff]; exact ⟨le_max_right _ _, by norm_num⟩
  have hv65 : min (max (len l / tt * 3600 / 1600) 5) 65 ≤ 65 := min_le_right _ _
  generalize min (max (len l / tt * 3600 / 1600) 5) 65 = vc at hv5 hv65
  obtain ⟨f, e1, h1⟩ := fuelRate_ok hv5 hv65
  obtain ⟨c, e2, h2⟩ := co2Rate_ok hv5 hv65
  rw [e1, e2]
  have hd : 0 ≤ len l / tt * unit / 1600 := by positivity
  have hn1 : 0 ≤ (flowEmission isEv l).1 := by
    unfold flowEmission
    exact div_nonneg (Nat.cast_nonneg _) hs.le
  have hn2 : 0 ≤ (flowEmission isEv l).2 := by
    unfold flowEmission
    exact div_nonneg (Nat.cast_nonneg _) hs.le
  have hsum : (flowEmission isEv l).1 + (flowEmission isEv l).2 =
      ((l.travelling.length + l.finished.length : ℕ) : ℚ) / l.scalar := by
    unfold flowEmission
    simp only
    rw [← add_div, ← Nat.cast_add]
    congr 2
    have := count_split isEv l.travelling
    have := count_split isEv l.finished
    omega
  have hm : miles unit l = len l / tt * unit / 1600 * ((flowEmission isEv l).1 + (flowEmission isEv l).2) := by
    unfold miles
    rw [htt, hsum, mul_comm]
  rw [hm]
  generalize len l / tt * unit / 1600 = d at hd
  generalize flowEmission isEv l = n at hn1 hn2
  refine ⟨_, rfl, ?_, ?_, rfl⟩
  · have hhc : 0 ≤ hcRate vc := le_max_right _ _
    have hco : 0 ≤ coRate vc := le_max_right _ _
    have hnox : 0 ≤ noxRate vc := le_max_right _ _
    refine ⟨?_, ?_, ?_, ?_, ?_, ?_, ?_⟩ <;> simp only [le_add_iff_nonneg_right] <;> positivity
  · simp only
    have : 0 ≤ d * n.1 := mul_nonneg hd hn1
    linarith

theorem fold_sound (isEv : V → Bool) {unit : ℚ} (hu : 0 ≤ unit) : ∀ (ls : List (Link V)) (s : Totals),
    (∀ l ∈ ls, Sound l) → ∃ t, ls.foldlM (addLink isEv unit) s = some t ∧ s.le t ∧
      t.vmtEv - s.vmtEv ≤ t.vmt - s.vmt ∧ t.vmt = s.vmt + (ls.map (miles unit)).sum := by
  intro ls
  induction ls with
  | nil => intro s _; exact ⟨s, rfl, Totals.le_refl s, by simp, by simp⟩
  | cons l ls ih =>
    intro s h
    obtain ⟨t, e1, e2, e3, e4⟩ := addLink_sound isEv hu s (h l (by simp))
    obtain ⟨u, f1, f2, f3, f4⟩ := ih t fun x hx => h x (by simp [hx])
    refine ⟨u, ?_, Totals.le_trans e2 f2, by linarith, ?_⟩
    · rw [List.foldlM_cons, e1]; exact f1
    · rw [f4, e4, List.map_cons, List.sum_cons]; ring

end Verif.Emis

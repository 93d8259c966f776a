import Verif.Lemmas.LinkCtm
import Verif.Lemmas.LinkPq
import Mathlib.Tactic.Linarith

/-! Travel times, reported flows, parameters. -/

namespace Verif.Lnk
open Ults Curve
variable {V : Type}

/-- Speed on the congested branch. -/
theorem speed_antitone {cap hold rhok a b : ℚ} (hcap : 0 ≤ cap) (hk : rhok < hold)
    (ha : 0 < a) (hab : a ≤ b) (hb : b ≤ hold) :
    cap * (hold - b) / ((hold - rhok) * b) ≤ cap * (hold - a) / ((hold - rhok) * a) := by
  have h1 : 0 < hold - rhok := by linarith
  have h2 : 0 < b := by linarith
  rw [div_le_div_iff₀ (mul_pos h1 h2) (mul_pos h1 ha)]
  have e1 : cap * (hold - b) * ((hold - rhok) * a) = (cap * (hold - rhok)) * ((hold - b) * a) := by
    ring
  have e2 : cap * (hold - a) * ((hold - rhok) * b) = (cap * (hold - rhok)) * ((hold - a) * b) := by
    ring
  rw [e1, e2]
  refine mul_le_mul_of_nonneg_left ?_ (mul_nonneg hcap h1.le)
  nlinarith

theorem speed_at_critical {cap hold ffs : ℚ} (hf : 0 < ffs) (hcap : 0 < cap)
    (hk : cap / ffs < hold) :
    cap * (hold - cap / ffs) / ((hold - cap / ffs) * (cap / ffs)) = ffs := by
  have h1 : hold - cap / ffs ≠ 0 := by linarith
  have h2 : cap / ffs ≠ 0 := (div_pos hcap hf).ne'
  rw [mul_comm cap, mul_div_mul_left _ _ h1, div_div_eq_mul_div, mul_comm cap, mul_div_assoc,
    div_self hcap.ne', mul_one]

/-- The travel time formula: always finite for valid parameters, between the free-flow time and
`1 / lowest` times the free-flow time below jam density, one hour from jam density on. -/
theorem linkTt_bounds {lowest : ℚ} {lanes : ℤ} {length ffs hold cap flow : ℚ} (hlow : 0 < lowest)
    (hlow1 : lowest ≤ 1) (hlanes : 0 < lanes) (hlen : 0 < length) (hf : 0 < ffs) (hcap : 0 ≤ cap) :
    ∃ t, linkTt lowest lanes length ffs hold cap flow = some t ∧ 0 < t ∧
      (hold ≤ flow / lanes / length → t = 3600) ∧
      (flow / lanes / length < hold →
        length / ffs ≤ t ∧ t ≤ length / ffs / lowest ∧
        (flow / lanes / length ≤ cap / ffs → t = length / ffs)) := by
  have hl' : (0 : ℚ) < lanes := by exact_mod_cast hlanes
  unfold linkTt
  rw [if_neg (by push Not; exact ⟨hl'.ne', hlen.ne', hf.ne'⟩)]
  simp only
  generalize hrho : flow / lanes / length = rho
  split
  · rename_i h
    exact ⟨3600, rfl, by norm_num, fun _ => rfl, fun h' => absurd h (not_le.2 h')⟩
  · rename_i hjam
    have hjam := not_le.1 hjam
    have hff : 0 < length / ffs := div_pos hlen hf
    have hup : length / ffs ≤ length / ffs / lowest := by
      rw [le_div_iff₀ hlow]; nlinarith
    split
    · exact ⟨_, rfl, hff, fun h => absurd hjam (not_lt.2 h), fun _ => ⟨le_refl _, hup, fun _ => rfl⟩⟩
    · rename_i hcrit
      have hcrit := not_le.1 hcrit
      have hk0 : 0 ≤ cap / ffs := div_nonneg hcap hf.le
      have hrho0 : 0 < rho := by linarith
      have hprod : 0 < (hold - cap / ffs) * rho := mul_pos (by linarith) hrho0
      rw [if_neg hprod.ne']
      have hspd_pos : 0 < max (lowest * ffs) (cap * (hold - rho) / ((hold - cap / ffs) * rho)) :=
        lt_max_of_lt_left (mul_pos hlow hf)
      have hspd_le : max (lowest * ffs) (cap * (hold - rho) / ((hold - cap / ffs) * rho)) ≤ ffs := by
        apply max_le
        · nlinarith
        · rcases lt_or_eq_of_le hcap with hc | hc
          · have h1 := speed_antitone (rhok := cap / ffs) hcap (by linarith) (div_pos hc hf)
              hcrit.le hjam.le
            rw [speed_at_critical hf hc (by linarith)] at h1
            exact h1
          · rw [← hc]; simp; exact hf.le
      refine ⟨_, rfl, div_pos hlen hspd_pos, fun h => absurd hjam (not_lt.2 h), fun _ =>
        ⟨?_, ?_, fun h => absurd hcrit (not_lt.2 h)⟩⟩
      · exact div_le_div_of_nonneg_left hlen.le hspd_pos hspd_le
      · rw [div_div, mul_comm ffs lowest]
        exact div_le_div_of_nonneg_left hlen.le (mul_pos hlow hf) (le_max_left _ _)

theorem linkTt_mono {lowest : ℚ} {lanes : ℤ} {length ffs hold cap f g : ℚ} (hlow : 0 < lowest)
    (hlow1 : lowest ≤ 1) (hlanes : 0 < lanes) (hlen : 0 < length) (hf : 0 < ffs) (hcap : 0 ≤ cap)
    (hfg : f ≤ g) (hg : g / lanes / length < hold) {s t : ℚ}
    (hs : linkTt lowest lanes length ffs hold cap f = some s)
    (ht : linkTt lowest lanes length ffs hold cap g = some t) : s ≤ t := by
  have hl' : (0 : ℚ) < lanes := by exact_mod_cast hlanes
  have hrho : f / lanes / length ≤ g / lanes / length := by
    apply div_le_div_of_nonneg_right _ hlen.le
    exact div_le_div_of_nonneg_right hfg hl'.le
  obtain ⟨t', e1, _, _, e2⟩ := linkTt_bounds (flow := g) (hold := hold) hlow hlow1 hlanes hlen hf hcap
  rw [ht] at e1; cases e1
  obtain ⟨s', e3, _, _, e4⟩ := linkTt_bounds (flow := f) (hold := hold) hlow hlow1 hlanes hlen hf hcap
  rw [hs] at e3; cases e3
  by_cases hc : f / lanes / length ≤ cap / ffs
  · rw [(e4 (by linarith)).2.2 hc]; exact (e2 hg).1
  · have hc := not_le.1 hc
    have hk0 : 0 ≤ cap / ffs := div_nonneg hcap hf.le
    unfold linkTt at hs ht
    have hcond : ¬ ((lanes : ℚ) = 0 ∨ length = 0 ∨ ffs = 0) := by
      push Not; exact ⟨hl'.ne', hlen.ne', hf.ne'⟩
    rw [if_neg hcond] at hs ht
    simp only at hs ht
    generalize f / lanes / length = a at *
    generalize g / lanes / length = b at *
    rw [if_neg (not_le.2 (by linarith)), if_neg (not_le.2 hc),
      if_neg (mul_pos (by linarith) (by linarith)).ne'] at hs
    rw [if_neg (not_le.2 hg), if_neg (not_le.2 (by linarith)),
      if_neg (mul_pos (by linarith) (by linarith)).ne'] at ht
    cases hs; cases ht
    have hspd_pos : 0 < max (lowest * ffs) (cap * (hold - b) / ((hold - cap / ffs) * b)) :=
      lt_max_of_lt_left (mul_pos hlow hf)
    apply div_le_div_of_nonneg_left hlen.le hspd_pos
    apply max_le_max (le_refl _)
    exact speed_antitone hcap (by linarith) (by linarith) hrho hg.le

/-! ### Parameters never change -/

/-- Kind and parameters of a link. -/
def Link.params : Link V → LinkKind × ℤ × ℚ × ℚ × ℚ × ℚ × ℚ
  | .pq l => (.pq, l.lanes, l.length, l.ffs, l.hold, l.cap, l.scalar)
  | .ctm l => (.ctm, l.lanes, l.length, l.ffs, l.hold, l.cap, l.scalar)
  | .lq l => (.lq, l.lanes, l.length, l.ffs, l.hold, l.cap, l.scalar)
  | .ltm l => (.ltm, l.lanes, l.length, l.ffs, l.hold, l.cap, l.scalar)

theorem doMove_params (l : Link V) (m : Move V) : (l.doMove m).1.params = l.params := by
  cases m with
  | arrive v => cases l <;> rfl
  | depart p =>
    simp only [Link.doMove]
    split
    · rfl
    · cases l <;> rfl

theorem doMoves_params (l : Link V) (ms : List (Move V)) : (l.doMoves ms).1.params = l.params := by
  induction ms generalizing l with
  | nil => rfl
  | cons m ms ih => simp only [Link.doMoves]; rw [ih, doMove_params]

theorem doMoves_inv (l : Link V) (ms : List (Move V)) (h : Inv l) : Inv (l.doMoves ms).1 := by
  induction ms generalizing l with
  | nil => exact h
  | cons m ms ih => simp only [Link.doMoves]; exact ih _ (doMove_inv l m h)

theorem clear_params {l l' : Link V} (h : l.clear = .ok l') : l'.params = l.params := by
  cases l with
  | pq l =>
    simp only [Link.clear] at h
    rw [Res.bind_eq_ok'] at h
    obtain ⟨x, hx, h⟩ := h
    cases h
    unfold Pq.clear at hx
    rw [Res.bind_eq_ok'] at hx
    obtain ⟨s, _, hx⟩ := hx
    cases hx; rfl
  | ctm l =>
    simp only [Link.clear] at h
    rw [Res.bind_eq_ok'] at h
    obtain ⟨x, hx, h⟩ := h
    cases h
    unfold Ctm.clear at hx
    split at hx
    · simp at hx
    · split at hx
      · simp at hx
      · rw [Res.bind_eq_ok'] at hx
        obtain ⟨s, _, hx⟩ := hx
        cases hx; rfl
  | lq l =>
    simp only [Link.clear] at h
    rw [Res.bind_eq_ok'] at h
    obtain ⟨x, hx, h⟩ := h
    cases h
    unfold Lq.clear at hx
    rw [Res.bind_eq_ok'] at hx
    obtain ⟨s, _, hx⟩ := hx
    split at hx
    · simp at hx
    · rw [Res.bind_eq_ok'] at hx
      obtain ⟨p, hp, hx⟩ := hx
      cases hx; rfl
  | ltm l =>
    simp only [Link.clear] at h
    rw [Res.bind_eq_ok'] at h
    obtain ⟨x, hx, h⟩ := h
    cases h
    unfold Ltm.clear at hx
    rw [Res.bind_eq_ok'] at hx
    obtain ⟨sup, _, hx⟩ := hx
    rw [Res.bind_eq_ok'] at hx
    obtain ⟨s, _, hx⟩ := hx
    split at hx
    · simp at hx
    · rw [Res.bind_eq_ok'] at hx
      obtain ⟨c, _, hx⟩ := hx
      rw [Res.bind_eq_ok'] at hx
      obtain ⟨p, hp, hx⟩ := hx
      cases hx; rfl

theorem evolve_params {hasNext : V → Bool} {u : ℕ → ℚ} {l l' : Link V}
    (h : l.evolve hasNext u = .ok l') : l'.params = l.params := by
  cases l with
  | pq l => simp only [Link.evolve] at h; cases h; rfl
  | ctm l =>
    simp only [Link.evolve] at h
    rw [Res.bind_eq_ok'] at h
    obtain ⟨x, hx, h⟩ := h
    cases h
    obtain ⟨_, rfl⟩ := ctm_evolve_eq hx
    rfl
  | lq l =>
    simp only [Link.evolve] at h
    rw [Res.bind_eq_ok'] at h
    obtain ⟨x, hx, h⟩ := h
    cases h
    unfold Lq.evolve at hx
    rw [Res.bind_eq_ok'] at hx
    obtain ⟨p, hp, hx⟩ := hx
    cases hx; rfl
  | ltm l =>
    simp only [Link.evolve] at h
    rw [Res.bind_eq_ok'] at h
    obtain ⟨x, hx, h⟩ := h
    cases h
    unfold Ltm.evolve at hx
    rw [Res.bind_eq_ok'] at hx
    obtain ⟨c1, _, hx⟩ := hx
    rw [Res.bind_eq_ok'] at hx
    obtain ⟨c2, _, hx⟩ := hx
    simp only at hx
    rw [Res.bind_eq_ok'] at hx
    obtain ⟨d, _, hx⟩ := hx
    rw [Res.bind_eq_ok'] at hx
    obtain ⟨p, hp, hx⟩ := hx
    cases hx; rfl

theorem step_params {hasNext : V → Bool} {l : Link V} {op : LinkOp V} {r : Link V × List V}
    (h : l.step hasNext op = .ok r) : r.1.params = l.params := by
  cases op with
  | move m => simp only [Link.step] at h; cases h; exact doMove_params l m
  | clear =>
    simp only [Link.step] at h
    rw [Res.bind_eq_ok'] at h
    obtain ⟨x, hx, h⟩ := h
    cases h
    exact clear_params hx
  | evolve u =>
    simp only [Link.step] at h
    rw [Res.bind_eq_ok'] at h
    obtain ⟨x, hx, h⟩ := h
    cases h
    exact evolve_params hx

theorem run_params {hasNext : V → Bool} : ∀ {ops : List (LinkOp V)} {l : Link V}
    {r : Link V × List V}, l.run hasNext ops = .ok r → r.1.params = l.params
  | [], l, r, h => by simp [Link.run] at h; subst h; rfl
  | op :: ops, l, r, h => by
    simp only [Link.run] at h
    rw [Res.bind_eq_ok'] at h
    obtain ⟨x, hx, h⟩ := h
    rw [Res.bind_eq_ok'] at h
    obtain ⟨y, hy, h⟩ := h
    cases h
    exact (run_params hy).trans (step_params hx)

theorem interval_params {hasNext : V → Bool} {l : Link V} {i : Interval V}
    {r : Link V × IntervalLog V} (h : l.interval hasNext i = .ok r) : r.1.params = l.params := by
  unfold Link.interval at h
  simp only at h
  rw [Res.bind_eq_ok'] at h
  obtain ⟨l2, h2, h⟩ := h
  rw [Res.bind_eq_ok'] at h
  obtain ⟨l3, h3, h⟩ := h
  cases h
  exact (evolve_params h3).trans ((clear_params h2).trans (doMoves_params _ _))

theorem interval_inv {hasNext : V → Bool} {l : Link V} {i : Interval V}
    {r : Link V × IntervalLog V} (hi : Inv l) (h : l.interval hasNext i = .ok r) : Inv r.1 := by
  unfold Link.interval at h
  simp only at h
  rw [Res.bind_eq_ok'] at h
  obtain ⟨l2, h2, h⟩ := h
  rw [Res.bind_eq_ok'] at h
  obtain ⟨l3, h3, h⟩ := h
  cases h
  exact (evolve_inv (clear_inv (doMoves_inv l i.moves hi) h2).1 h3).1

theorem intervals_inv {hasNext : V → Bool} : ∀ {is : List (Interval V)} {l : Link V}
    {r : Link V × List (IntervalLog V)}, Inv l → l.intervals hasNext is = .ok r →
    Inv r.1 ∧ r.1.params = l.params
  | [], l, r, hi, h => by simp [Link.intervals] at h; subst h; exact ⟨hi, rfl⟩
  | i :: is, l, r, hi, h => by
    simp only [Link.intervals] at h
    rw [Res.bind_eq_ok'] at h
    obtain ⟨x, hx, h⟩ := h
    rw [Res.bind_eq_ok'] at h
    obtain ⟨y, hy, h⟩ := h
    cases h
    obtain ⟨h1, h2⟩ := intervals_inv (interval_inv hi hx) hy
    exact ⟨h1, h2.trans (interval_params hx)⟩

theorem mkLink_params {k : LinkKind} {a : LinkArgs} {l : Link V} (h : mkLink k a = .ok l) :
    l.params.1 = k ∧ l.scalar = a.scalar ∧ 0 < a.scalar := by
  cases k with
  | pq =>
    simp only [mkLink] at h
    rw [Res.bind_eq_ok'] at h
    obtain ⟨x, hx, h⟩ := h
    cases h
    unfold Pq.mk' at hx
    rw [Res.bind_eq_ok'] at hx
    obtain ⟨_, _, hx⟩ := hx
    split at hx
    · simp at hx
    · rename_i hc
      push Not at hc
      rw [Res.bind_eq_ok'] at hx
      obtain ⟨m, _, hx⟩ := hx
      cases hx
      exact ⟨rfl, rfl, hc.1⟩
  | ctm =>
    simp only [mkLink] at h
    rw [Res.bind_eq_ok'] at h
    obtain ⟨x, hx, h⟩ := h
    cases h
    obtain ⟨h1, h2, _⟩ := ctm_mk_wf hx
    exact ⟨rfl, h1, h2⟩
  | lq =>
    simp only [mkLink] at h
    rw [Res.bind_eq_ok'] at h
    obtain ⟨x, hx, h⟩ := h
    cases h
    unfold Lq.mk' at hx
    rw [Res.bind_eq_ok'] at hx
    obtain ⟨_, _, hx⟩ := hx
    split at hx
    · simp at hx
    · rename_i hc
      push Not at hc
      simp only at hx
      generalize (if a.cap * a.lanes * a.unit * a.scalar < 1 then _ else a.cap : ℚ) = cap at hx
      split at hx
      · simp at hx
      · cases hx
        exact ⟨rfl, rfl, hc.1⟩
  | ltm =>
    simp only [mkLink] at h
    rw [Res.bind_eq_ok'] at h
    obtain ⟨x, hx, h⟩ := h
    cases h
    unfold Ltm.mk' at hx
    rw [Res.bind_eq_ok'] at hx
    obtain ⟨_, _, hx⟩ := hx
    split at hx
    · simp at hx
    · rename_i hc
      push Not at hc
      simp only at hx
      rw [Res.bind_eq_ok'] at hx
      obtain ⟨m, _, hx⟩ := hx
      cases hx
      exact ⟨rfl, rfl, hc.1⟩

/-! ### Reported flow -/

theorem shifted_volume {fin : ℕ} : ∀ {cs : List (Cell V)} {inflow : List V}, cs ≠ [] →
    ((shifted fin inflow cs).map fun c => c.volume).sum
      = (cellVehs (shifted fin inflow cs)).length + fin
  | [], _, h => absurd rfl h
  | [c], inflow, _ => by simp [shifted]
  | c :: d :: rest, inflow, _ => by
    simp only [shifted, List.map_cons, List.sum_cons, cellVehs_cons, List.length_append]
    rw [shifted_volume (by simp)]
    simp
    omega

/-- Vehicles counted by `get_link_flow` after an interval. -/
theorem interval_flow {hasNext : V → Bool} {l : Link V} {i : Interval V}
    {r : Link V × IntervalLog V} (hi : Inv l) (hs : r.1.scalar ≠ 0)
    (h : l.interval hasNext i = .ok r) :
    r.1.flow * r.1.scalar = ((r.1.finished.length + r.1.travelling.length
      + (if r.1.params.1 = .ctm then r.1.finished.length else 0) : ℕ) : ℚ) := by
  unfold Link.interval at h
  simp only at h
  rw [Res.bind_eq_ok'] at h
  obtain ⟨l2, h2, h⟩ := h
  rw [Res.bind_eq_ok'] at h
  obtain ⟨l3, h3, h⟩ := h
  cases h
  have hi1 := doMoves_inv l i.moves hi
  generalize (l.doMoves i.moves).1 = l1 at h2 hi1
  obtain ⟨hi2, _, _⟩ := clear_inv hi1 h2
  obtain ⟨_, hlen, _⟩ := evolve_inv hi2 h3
  have hlen := congrArg List.length hlen
  simp only [List.length_append] at hlen
  simp only at hs ⊢
  cases l1 with
  | pq l =>
    simp only [Link.clear] at h2
    rw [Res.bind_eq_ok'] at h2
    obtain ⟨x, hx, h2⟩ := h2
    cases h2
    unfold Pq.clear at hx
    rw [Res.bind_eq_ok'] at hx
    obtain ⟨s, _, hx⟩ := hx
    cases hx
    simp only [Link.evolve] at h3
    cases h3
    simp only [Link.params]
    rw [hlen]
    simp only [Link.flow, Pq.flow, Link.scalar, Link.finished, Link.travelling, Pq.evolve] at hs ⊢
    rw [div_mul_cancel₀ _ hs]
    simp
  | ctm l =>
    simp only [Link.clear] at h2
    rw [Res.bind_eq_ok'] at h2
    obtain ⟨x, hx, h2⟩ := h2
    cases h2
    simp only [Link.evolve] at h3
    rw [Res.bind_eq_ok'] at h3
    obtain ⟨y, hy, h3⟩ := h3
    cases h3
    obtain ⟨hne, rfl⟩ := ctm_evolve_eq hy
    simp only [Link.flow, Ctm.flow, Link.scalar, Link.finished, Link.travelling,
      Link.params] at hs ⊢
    rw [div_mul_cancel₀ _ hs, shifted_volume (withOut_ne hne)]
    simp only [cellVehs, if_true]
    push_cast
    ring
  | lq l =>
    simp only [Link.clear] at h2
    rw [Res.bind_eq_ok'] at h2
    obtain ⟨x, hx, h2⟩ := h2
    cases h2
    unfold Lq.clear at hx
    rw [Res.bind_eq_ok'] at hx
    obtain ⟨s, _, hx⟩ := hx
    split at hx
    · simp at hx
    · rw [Res.bind_eq_ok'] at hx
      obtain ⟨p, hp, hx⟩ := hx
      cases hx
      simp only [Link.evolve] at h3
      rw [Res.bind_eq_ok'] at h3
      obtain ⟨y, hy, h3⟩ := h3
      cases h3
      unfold Lq.evolve at hy
      rw [Res.bind_eq_ok'] at hy
      obtain ⟨q, hq, hy⟩ := hy
      cases hy
      simp only [Link.params]
      rw [hlen]
      simp only [Link.flow, Lq.flow, Link.scalar, Link.finished, Link.travelling] at hs ⊢
      rw [div_mul_cancel₀ _ hs]
      simp
  | ltm l =>
    simp only [Link.clear] at h2
    rw [Res.bind_eq_ok'] at h2
    obtain ⟨x, hx, h2⟩ := h2
    cases h2
    unfold Ltm.clear at hx
    rw [Res.bind_eq_ok'] at hx
    obtain ⟨sup, _, hx⟩ := hx
    rw [Res.bind_eq_ok'] at hx
    obtain ⟨s, _, hx⟩ := hx
    split at hx
    · simp at hx
    · rw [Res.bind_eq_ok'] at hx
      obtain ⟨c, _, hx⟩ := hx
      rw [Res.bind_eq_ok'] at hx
      obtain ⟨p, hp, hx⟩ := hx
      cases hx
      simp only [Link.evolve] at h3
      rw [Res.bind_eq_ok'] at h3
      obtain ⟨y, hy, h3⟩ := h3
      cases h3
      unfold Ltm.evolve at hy
      rw [Res.bind_eq_ok'] at hy
      obtain ⟨c1, _, hy⟩ := hy
      rw [Res.bind_eq_ok'] at hy
      obtain ⟨c2, _, hy⟩ := hy
      simp only at hy
      rw [Res.bind_eq_ok'] at hy
      obtain ⟨d, _, hy⟩ := hy
      rw [Res.bind_eq_ok'] at hy
      obtain ⟨q, hq, hy⟩ := hy
      cases hy
      simp only [Link.params]
      rw [hlen]
      simp only [Link.flow, Link.scalar, Link.finished, Link.travelling] at hs ⊢
      rw [div_mul_cancel₀ _ hs]
      simp

end Verif.Lnk

namespace Verif.Lnk
open Ults Curve
variable {V : Type}

theorem shifted_get {fin : ℕ} : ∀ {cs : List (Cell V)} {inflow : List V} {i : ℕ} {c : Cell V},
    cs[i]? = some c → ∃ c', (shifted fin inflow cs)[i]? = some c' ∧
      c'.queue = c.queue.drop c.outVeh.toNat ++
        (if i = 0 then inflow
         else ((cs[i - 1]?).elim [] fun x => x.queue.take x.outVeh.toNat))
  | [], _, i, c, h => by simp at h
  | [d], inflow, i, c, h => by
    cases i with
    | zero => simp at h; subst h; exact ⟨_, rfl, by simp⟩
    | succ i => simp at h
  | d :: e :: rest, inflow, i, c, h => by
    cases i with
    | zero => simp at h; subst h; exact ⟨_, rfl, by simp⟩
    | succ i =>
      simp only [List.getElem?_cons_succ] at h
      obtain ⟨c', h1, h2⟩ := shifted_get (fin := fin)
        (inflow := d.queue.take d.outVeh.toNat) (cs := e :: rest) h
      refine ⟨c', by simpa [shifted] using h1, ?_⟩
      rw [h2]
      cases i with
      | zero => simp
      | succ i => simp

theorem withOut_get {s : ℚ} {u : ℕ → ℚ} : ∀ {cs : List (Cell V)} {k i : ℕ} {c : Cell V},
    cs[i]? = some c → (withOut s u k cs)[i]? = some { c with
      outVeh := (cs[i + 1]?).elim (c.queue.length : ℤ) fun d =>
        min (c.queue.length : ℤ) (roundVal (min c.demand d.supply * s) (u (k + i))) }
  | [], k, i, c, h => by simp at h
  | [d], k, i, c, h => by
    cases i with
    | zero => simp at h; subst h; simp [withOut]
    | succ i => simp at h
  | d :: e :: rest, k, i, c, h => by
    cases i with
    | zero => simp at h; subst h; simp [withOut]
    | succ i =>
      simp only [List.getElem?_cons_succ] at h
      have := withOut_get (s := s) (u := u) (cs := e :: rest) (k := k + 1) h
      simp only [withOut, List.getElem?_cons_succ]
      rw [this]
      have e : k + 1 + i = k + (i + 1) := by omega
      rw [e]
      rfl

theorem pq_run_ok {hasNext : V → Bool} : ∀ (ops : List (LinkOp V)) (l : Pq V),
    -2147483648 ≤ l.cap * l.lanes * l.unit * l.scalar →
    l.cap * l.lanes * l.unit * l.scalar < 2147483648 → ∃ r, (Link.pq l).run hasNext ops = .ok r
  | [], l, _, _ => ⟨_, rfl⟩
  | op :: ops, l, h0, h1 => by
    have key : ∃ l' w, (Link.pq l).step hasNext op = .ok (.pq l', w) ∧
        l'.cap = l.cap ∧ l'.lanes = l.lanes ∧ l'.unit = l.unit ∧ l'.scalar = l.scalar := by
      cases op with
      | move m =>
        cases m with
        | arrive v => exact ⟨_, _, rfl, rfl, rfl, rfl, rfl⟩
        | depart p =>
          simp only [Link.step, Link.doMove]
          split
          · exact ⟨_, _, rfl, rfl, rfl, rfl, rfl⟩
          · exact ⟨_, _, rfl, rfl, rfl, rfl, rfl⟩
      | clear =>
        have : ∃ n, toInt (l.supply * l.scalar) = .ok n := by
          refine ⟨_, toInt_ok_iff.2 ⟨rfl, ?_, ?_⟩⟩
          · unfold trunc
            split
            · rename_i h
              have := Int.floor_nonneg.2 h
              omega
            · rw [Int.le_ceil_iff]
              push_cast
              unfold Pq.supply
              linarith
          · unfold trunc
            have hlt : l.supply * l.scalar < 2147483648 := h1
            split
            · have : ⌊l.supply * l.scalar⌋ < 2147483648 := by
                rw [Int.floor_lt]; exact_mod_cast hlt
              omega
            · rename_i h
              rw [Int.ceil_le]
              push_cast
              linarith
        obtain ⟨n, hn⟩ := this
        simp only [Link.step, Link.clear, Pq.clear]
        rw [hn]
        exact ⟨_, _, rfl, rfl, rfl, rfl, rfl⟩
      | evolve u => exact ⟨_, _, rfl, rfl, rfl, rfl, rfl⟩
    obtain ⟨l', w, hstep, e1, e2, e3, e4⟩ := key
    obtain ⟨r, hr⟩ := pq_run_ok (hasNext := hasNext) ops l' (by rw [e1, e2, e3, e4]; exact h0)
      (by rw [e1, e2, e3, e4]; exact h1)
    simp only [Link.run]
    rw [hstep, Res.bind_ok', hr]
    exact ⟨_, rfl⟩

end Verif.Lnk

namespace Verif.Lnk
open Ults Curve
variable {V : Type}

/-- The fixed attributes of the cells. -/
def cellAttrs (cs : List (Cell V)) : List (ℚ × ℚ × ℚ) := cs.map fun c => (c.hold, c.cap, c.scalar)

theorem shifted_attrs {fin : ℕ} : ∀ {cs : List (Cell V)} {inflow : List V},
    cellAttrs (shifted fin inflow cs) = cellAttrs cs
  | [], _ => rfl
  | [_], _ => rfl
  | c :: d :: rest, _ => by
    have := shifted_attrs (fin := fin) (cs := d :: rest) (inflow := c.queue.take c.outVeh.toNat)
    simp only [cellAttrs, shifted, List.map_cons] at *
    rw [this]

theorem withOut_attrs {s : ℚ} {u : ℕ → ℚ} : ∀ {cs : List (Cell V)} {k : ℕ},
    cellAttrs (withOut s u k cs) = cellAttrs cs
  | [], _ => rfl
  | [_], _ => rfl
  | _ :: d :: rest, k => by
    have := withOut_attrs (s := s) (u := u) (cs := d :: rest) (k := k + 1)
    simp only [cellAttrs, withOut, List.map_cons] at *
    rw [this]

theorem ctm_interval_attrs {hasNext : V → Bool} {l : Ctm V} {i : Interval V}
    {r : Link V × IntervalLog V} (h : (Link.ctm l).interval hasNext i = .ok r) :
    ∃ l', r.1 = .ctm l' ∧ cellAttrs l'.cells = cellAttrs l.cells := by
  unfold Link.interval at h
  obtain ⟨l1, e1, e2, e3, e4⟩ := doMoves_ctm l i.moves
  simp only [e1] at h
  rw [Res.bind_eq_ok'] at h
  obtain ⟨l2, hl2, h⟩ := h
  simp only [Link.clear] at hl2
  rw [Res.bind_eq_ok'] at hl2
  obtain ⟨l2', hc, hl2⟩ := hl2
  cases hl2
  rw [Res.bind_eq_ok'] at h
  obtain ⟨l3, hl3, h⟩ := h
  simp only [Link.evolve] at hl3
  rw [Res.bind_eq_ok'] at hl3
  obtain ⟨l3', he, hl3⟩ := hl3
  cases hl3
  cases h
  refine ⟨l3', rfl, ?_⟩
  rw [← e2]
  have h2 : cellAttrs l2'.cells = cellAttrs l1.cells := by
    unfold Ctm.clear at hc
    cases hcs : l1.cells with
    | nil => rw [hcs] at hc; simp at hc
    | cons c rest =>
      rw [hcs] at hc
      simp only at hc
      split at hc
      · simp at hc
      rw [Res.bind_eq_ok'] at hc
      obtain ⟨p, _, hc⟩ := hc
      cases hc
      rfl
  obtain ⟨_, he'⟩ := ctm_evolve_eq he
  subst he'
  simp only
  rw [shifted_attrs, withOut_attrs, h2]

theorem ctm_intervals_attrs {hasNext : V → Bool} : ∀ (is : List (Interval V)) {l : Ctm V}
    {r : Link V × List (IntervalLog V)}, (Link.ctm l).intervals hasNext is = .ok r →
    ∃ l', r.1 = .ctm l' ∧ cellAttrs l'.cells = cellAttrs l.cells
  | [], l, r, h => by simp [Link.intervals] at h; subst h; exact ⟨l, rfl, rfl⟩
  | i :: is, l, r, h => by
    simp only [Link.intervals] at h
    rw [Res.bind_eq_ok'] at h
    obtain ⟨x, hx, h⟩ := h
    rw [Res.bind_eq_ok'] at h
    obtain ⟨y, hy, h⟩ := h
    cases h
    obtain ⟨l', h1, h2⟩ := ctm_interval_attrs hx
    rw [h1] at hy
    obtain ⟨l'', h3, h4⟩ := ctm_intervals_attrs is hy
    exact ⟨l'', h3, h4.trans h2⟩

end Verif.Lnk

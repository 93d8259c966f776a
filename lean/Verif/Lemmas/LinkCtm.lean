import Verif.Lemmas.Link
import Verif.Lemmas.Ults
import Mathlib.Tactic.FieldSimp

/-! Flow and density facts of the cell transmission link. -/

namespace Verif.Lnk
open Ults Curve
variable {V : Type}

/-- What the constructor guarantees about every cell. -/
structure CellWf (c : Cell V) : Prop where
  scalar : 0 < c.scalar
  hold : 0 ≤ c.hold
  one : 1 ≤ c.cap * c.scalar
  wave : ∀ w, c.wave = some w → 0 ≤ w ∧ (c.hold - c.cap) * w ≤ c.cap ∧
    (w ≤ 1 → 2 * c.cap ≤ c.hold ∨ c.cap * c.scalar = 1)

theorem CellWf.cap_pos {c : Cell V} (h : CellWf c) : 0 < c.cap := by
  by_contra hn
  have := mul_nonpos_of_nonpos_of_nonneg (not_lt.1 hn) h.scalar.le
  linarith [h.one]

theorem CellWf.upd {c : Cell V} (h : CellWf c) (q : List V) (n : ℕ) (o : ℤ) :
    CellWf { c with queue := q, volume := n, outVeh := o } := ⟨h.scalar, h.hold, h.one, h.wave⟩

theorem demand_bounds {c : Cell V} (h : CellWf c) :
    0 ≤ c.demand ∧ c.demand ≤ c.cap ∧ c.demand * c.scalar ≤ c.volume := by
  have h1 : (0 : ℚ) ≤ c.volume / c.scalar := div_nonneg (by positivity) h.scalar.le
  refine ⟨le_min h1 h.cap_pos.le, min_le_right _ _, ?_⟩
  have : c.demand ≤ c.volume / c.scalar := min_le_left _ _
  calc c.demand * c.scalar ≤ c.volume / c.scalar * c.scalar :=
        mul_le_mul_of_nonneg_right this h.scalar.le
    _ = c.volume := div_mul_cancel₀ _ h.scalar.ne'

theorem supply_bounds {c : Cell V} (h : CellWf c) :
    0 ≤ c.supply ∧ c.supply ≤ c.cap := by
  have hv : (0 : ℚ) ≤ c.volume / c.scalar := div_nonneg (by positivity) h.scalar.le
  have hc := h.cap_pos
  unfold Cell.supply
  simp only
  split
  · exact ⟨le_refl _, hc.le⟩
  · rename_i hlt
    have hlt := not_le.1 hlt
    split
    · rename_i w hw
      obtain ⟨w0, w1, _⟩ := h.wave w hw
      split
      · split
        · exact ⟨hc.le, le_refl _⟩
        · rename_i hcv
          have hcv := not_lt.1 hcv
          refine ⟨mul_nonneg (by linarith) w0, ?_⟩
          have : (c.hold - c.volume / c.scalar) * w ≤ (c.hold - c.cap) * w :=
            mul_le_mul_of_nonneg_right (by linarith) w0
          linarith
      · exact ⟨le_min hc.le (by linarith), min_le_left _ _⟩
    · exact ⟨le_min hc.le (by linarith), min_le_left _ _⟩

/-- Adding fewer than one vehicle more than the supply keeps a cell within one vehicle of its
holding capacity. -/
theorem supply_room {c : Cell V} (h : CellWf c) {k : ℕ} (hk : (k : ℚ) < c.supply * c.scalar + 1)
    (hv : (c.volume : ℚ) ≤ c.hold * c.scalar + 1) :
    ((c.volume + k : ℕ) : ℚ) ≤ c.hold * c.scalar + 1 := by
  have hs := h.scalar
  have e : (c.volume : ℚ) / c.scalar * c.scalar = c.volume := div_mul_cancel₀ _ hs.ne'
  unfold Cell.supply at hk
  simp only at hk
  push_cast
  split at hk
  · have : k < 1 := by
      have : (k : ℚ) < 1 := by linarith
      exact_mod_cast this
    have : k = 0 := by omega
    subst this; simpa using hv
  · rename_i hlt
    have hlt := not_le.1 hlt
    have hlt' : (c.volume : ℚ) < c.hold * c.scalar := by
      have := mul_lt_mul_of_pos_right hlt hs
      rwa [e] at this
    have hmin : (k : ℚ) < min c.cap (c.hold - c.volume / c.scalar) * c.scalar + 1 →
        (c.volume : ℚ) + k ≤ c.hold * c.scalar + 1 := by
      intro hk
      have : min c.cap (c.hold - c.volume / c.scalar) * c.scalar
          ≤ (c.hold - c.volume / c.scalar) * c.scalar :=
        mul_le_mul_of_nonneg_right (min_le_right _ _) hs.le
      rw [sub_mul, e] at this
      linarith
    split at hk
    · rename_i w hw
      obtain ⟨w0, w1, w2⟩ := h.wave w hw
      split at hk
      · rename_i hw1
        split at hk
        · rename_i hcv
          rcases w2 hw1 with h2 | h2
          · have h3 : (c.volume : ℚ) < c.cap * c.scalar := by
              have := mul_lt_mul_of_pos_right hcv hs
              rwa [e] at this
            have h4 := mul_le_mul_of_nonneg_right h2 hs.le
            linarith
          · have h3 : (c.volume : ℚ) < 1 := by
              have := mul_lt_mul_of_pos_right hcv hs
              rw [e, h2] at this; exact this
            have hv0 : c.volume = 0 := by
              have : c.volume < 1 := by exact_mod_cast h3
              omega
            rw [h2] at hk
            have hk1 : k < 2 := by
              have : (k : ℚ) < 2 := by linarith
              exact_mod_cast this
            have hk2 : (k : ℚ) ≤ 1 := by
              have : k ≤ 1 := by omega
              exact_mod_cast this
            rw [hv0]
            have : 0 ≤ c.hold * c.scalar := mul_nonneg h.hold hs.le
            push_cast; linarith
        · have : (c.hold - c.volume / c.scalar) * w ≤ (c.hold - c.volume / c.scalar) * 1 :=
            mul_le_mul_of_nonneg_left hw1 (by linarith)
          have h5 := mul_le_mul_of_nonneg_right this hs.le
          have h6 : (c.hold - c.volume / c.scalar) * c.scalar = c.hold * c.scalar - c.volume := by
            rw [sub_mul, e]
          rw [mul_one, h6] at h5
          linarith
      · exact hmin hk
    · exact hmin hk

/-! ### The moves of one `evolve`, in closed form -/

/-- All cells move at once: each cell loses the first `out` vehicles and receives what the cell
before it loses.  `fin` vehicles wait at the exit afterwards. -/
def shifted (fin : ℕ) (inflow : List V) : List (Cell V) → List (Cell V)
  | [] => []
  | [c] =>
    [{ c with
      queue := c.queue.drop c.outVeh.toNat ++ inflow
      volume := (c.queue.drop c.outVeh.toNat ++ inflow).length + fin }]
  | c :: d :: rest =>
    { c with
      queue := c.queue.drop c.outVeh.toNat ++ inflow
      volume := (c.queue.drop c.outVeh.toNat ++ inflow).length } ::
    shifted fin (c.queue.take c.outVeh.toNat) (d :: rest)

/-- Result of the first loop (`movePrev`), which leaves the last cell untouched but for what it
receives. -/
def shiftedPrev (inflow : List V) : List (Cell V) → List (Cell V)
  | [] => []
  | [c] => [{ c with queue := c.queue ++ inflow }]
  | c :: d :: rest =>
    { c with queue := c.queue.drop c.outVeh.toNat ++ inflow } ::
    shiftedPrev (c.queue.take c.outVeh.toNat) (d :: rest)

/-- The vehicles leaving the last cell. -/
def leaving : List (Cell V) → List V
  | [] => []
  | [c] => c.queue.take c.outVeh.toNat
  | _ :: d :: rest => leaving (d :: rest)

theorem moveFrom_ok : ∀ (rest : List (Cell V)) (c : Cell V) (inflow : List V),
    (∀ x ∈ c :: rest, x.outVeh.toNat ≤ x.queue.length) →
    Ctm.moveFrom { c with queue := c.queue ++ inflow } rest = .ok (shiftedPrev inflow (c :: rest))
  | [], c, inflow, _ => rfl
  | d :: rest, c, inflow, h => by
    have hc := h c (by simp)
    simp only [Ctm.moveFrom]
    rw [moveQueue_ok _ _ _ (by simp; omega)]
    simp only [Res.bind_ok', List.take_append_of_le_length hc, List.drop_append_of_le_length hc]
    have := moveFrom_ok rest d (c.queue.take c.outVeh.toNat) (fun x hx => h x (by simp [hx]))
    rw [this]
    rfl

theorem moveOut_ok {hasNext : V → Bool} : ∀ (n : ℕ) (q fin : List V), n ≤ q.length →
    (∀ v ∈ q.take n, hasNext v = true) →
    Ctm.moveOut hasNext n q fin = .ok (q.drop n, fin ++ q.take n)
  | 0, q, fin, _, _ => by simp [Ctm.moveOut]
  | n + 1, [], _, h, _ => by simp at h
  | n + 1, v :: q, fin, h, hn => by
    simp at h
    simp only [Ctm.moveOut]
    rw [if_pos (hn v (by simp)), moveOut_ok n q _ h (fun x hx => hn x (by simp [hx]))]
    simp

theorem moveLast_eq {hasNext : V → Bool} : ∀ {cs : List (Cell V)} {inflow fin : List V}
    {p : List (Cell V) × List V},
    (∀ x ∈ cs, x.outVeh.toNat ≤ x.queue.length) →
    Ctm.moveLast hasNext (shiftedPrev inflow cs) fin = .ok p →
    p = (shifted (fin ++ leaving cs).length inflow cs, fin ++ leaving cs)
  | [], _, _, _, _, h => by simp [shiftedPrev, Ctm.moveLast] at h
  | [c], inflow, fin, p, hout, h => by
    simp only [shiftedPrev, Ctm.moveLast] at h
    rw [Res.bind_eq_ok'] at h
    obtain ⟨x, hx, h⟩ := h
    cases h
    obtain ⟨_, rfl⟩ := moveOut_inv hx
    have hc := hout c (by simp)
    simp [shifted, leaving, List.take_append_of_le_length hc, List.drop_append_of_le_length hc]
  | c :: d :: rest, inflow, fin, p, hout, h => by
    obtain ⟨y, ys, hy⟩ : ∃ y ys, shiftedPrev (c.queue.take c.outVeh.toNat) (d :: rest) = y :: ys := by
      cases rest <;> exact ⟨_, _, rfl⟩
    simp only [shiftedPrev] at h
    rw [hy] at h
    simp only [Ctm.moveLast] at h
    rw [Res.bind_eq_ok'] at h
    obtain ⟨x, hx, h⟩ := h
    cases h
    rw [← hy] at hx
    have := moveLast_eq (fun x hx => hout x (by simp [hx])) hx
    subst this
    rfl

theorem moveLast_ok {hasNext : V → Bool} : ∀ {cs : List (Cell V)} {inflow fin : List V},
    cs ≠ [] → (∀ x ∈ cs, x.outVeh.toNat ≤ x.queue.length) →
    (∀ v ∈ leaving cs, hasNext v = true) →
    Ctm.moveLast hasNext (shiftedPrev inflow cs) fin
      = .ok (shifted (fin ++ leaving cs).length inflow cs, fin ++ leaving cs)
  | [], _, _, h, _, _ => absurd rfl h
  | [c], inflow, fin, _, hout, hn => by
    have hc := hout c (by simp)
    simp only [shiftedPrev, Ctm.moveLast]
    rw [moveOut_ok _ _ _ (by simp; omega)
      (by rw [List.take_append_of_le_length hc]; exact hn)]
    simp [shifted, leaving, List.take_append_of_le_length hc, List.drop_append_of_le_length hc]
  | c :: d :: rest, inflow, fin, _, hout, hn => by
    obtain ⟨y, ys, hy⟩ : ∃ y ys, shiftedPrev (c.queue.take c.outVeh.toNat) (d :: rest) = y :: ys := by
      cases rest <;> exact ⟨_, _, rfl⟩
    simp only [shiftedPrev]
    rw [hy]
    simp only [Ctm.moveLast]
    rw [← hy, moveLast_ok (cs := d :: rest) (by simp) (fun x hx => hout x (by simp [hx])) hn]
    rfl

/-- The cells after `update_out_veh`, in closed form (values of the draws included). -/
def withOut (scalar : ℚ) (u : ℕ → ℚ) : ℕ → List (Cell V) → List (Cell V)
  | _, [] => []
  | _, [c] => [{ c with outVeh := c.queue.length }]
  | i, c :: d :: rest =>
    { c with outVeh := min (c.queue.length : ℤ) (roundVal (min c.demand d.supply * scalar) (u i)) }
      :: withOut scalar u (i + 1) (d :: rest)

theorem updateOut_eq {scalar : ℚ} {u : ℕ → ℚ} : ∀ {i : ℕ} {cs cs' : List (Cell V)},
    Ctm.updateOut scalar u i cs = .ok cs' → cs' = withOut scalar u i cs ∧ cs ≠ []
  | _, [], _, h => by simp [Ctm.updateOut] at h
  | _, [c], _, h => by simp [Ctm.updateOut] at h; subst h; exact ⟨rfl, by simp⟩
  | i, c :: d :: rest, cs', h => by
    simp only [Ctm.updateOut] at h
    rw [Res.bind_eq_ok'] at h
    obtain ⟨r, hr, h⟩ := h
    rw [Res.bind_eq_ok'] at h
    obtain ⟨rest', hrest, h⟩ := h
    cases h
    obtain ⟨h1, _⟩ := updateOut_eq hrest
    rw [h1, Ults.round_ok hr]
    exact ⟨rfl, by simp⟩

theorem withOut_le {scalar : ℚ} {u : ℕ → ℚ} : ∀ {i : ℕ} {cs : List (Cell V)},
    ∀ x ∈ withOut scalar u i cs, x.outVeh.toNat ≤ x.queue.length
  | _, [], x, hx => by simp [withOut] at hx
  | _, [c], x, hx => by simp [withOut] at hx; subst hx; simp
  | i, c :: d :: rest, x, hx => by
    simp only [withOut, List.mem_cons] at hx
    rcases hx with rfl | hx
    · simp
    · exact withOut_le x hx

theorem withOut_ne {scalar : ℚ} {u : ℕ → ℚ} {i : ℕ} {cs : List (Cell V)} (h : cs ≠ []) :
    withOut scalar u i cs ≠ [] := by
  match cs, h with
  | [c], _ => simp [withOut]
  | c :: d :: rest, _ => simp [withOut]

/-- `evolve` in closed form. -/
theorem ctm_evolve_eq {hasNext : V → Bool} {u : ℕ → ℚ} {l l' : Ctm V}
    (h : l.evolve hasNext u = .ok l') :
    let cs := withOut l.scalar u 0 l.cells
    l.cells ≠ [] ∧ l' = { l with
      cells := shifted (l.finished ++ leaving cs).length [] cs
      finished := l.finished ++ leaving cs } := by
  intro cs
  unfold Ctm.evolve at h
  rw [Res.bind_eq_ok'] at h
  obtain ⟨c1, h1, h⟩ := h
  rw [Res.bind_eq_ok'] at h
  obtain ⟨c2, h2, h⟩ := h
  rw [Res.bind_eq_ok'] at h
  obtain ⟨p, h3, h⟩ := h
  cases h
  obtain ⟨e1, hne⟩ := updateOut_eq h1
  refine ⟨hne, ?_⟩
  have hcs : cs ≠ [] := withOut_ne hne
  have hle : ∀ x ∈ cs, x.outVeh.toNat ≤ x.queue.length := withOut_le
  subst e1
  change Ctm.movePrev cs = _ at h2
  generalize cs = cs at *
  cases cs with
  | nil => exact absurd rfl hcs
  | cons c rest =>
    have e2 := moveFrom_ok rest c [] hle
    simp only [List.append_nil] at e2
    simp only [Ctm.movePrev] at h2
    rw [e2] at h2
    cases h2
    have := moveLast_eq hle h3
    subst this
    rfl

theorem updateOut_ok {scalar : ℚ} {u : ℕ → ℚ} (hs : 0 < scalar) :
    ∀ {i : ℕ} {cs : List (Cell V)}, cs ≠ [] →
    (∀ c ∈ cs, CellWf c ∧ c.cap * scalar < 2147483647) →
    Ctm.updateOut scalar u i cs = .ok (withOut scalar u i cs)
  | _, [], h, _ => absurd rfl h
  | _, [c], _, _ => rfl
  | i, c :: d :: rest, _, hwf => by
    obtain ⟨hc, hmax⟩ := hwf c (by simp)
    obtain ⟨hd, _⟩ := hwf d (by simp)
    simp only [Ctm.updateOut]
    have h0 : 0 ≤ min c.demand d.supply * scalar :=
      mul_nonneg (le_min (demand_bounds hc).1 (supply_bounds hd).1) hs.le
    have h1 : min c.demand d.supply * scalar < 2147483647 := by
      refine lt_of_le_of_lt (mul_le_mul_of_nonneg_right ?_ hs.le) hmax
      exact le_trans (min_le_left _ _) (demand_bounds hc).2.1
    rw [round_nonneg_ok h0 h1, Res.bind_ok', updateOut_ok hs (by simp) (fun x hx => hwf x (by simp [hx]))]
    rfl

/-- `evolve` never fails on a well-formed link whose leaving vehicles have a next link. -/
theorem ctm_evolve_ok {hasNext : V → Bool} {u : ℕ → ℚ} {l : Ctm V} (hne : l.cells ≠ [])
    (hs : 0 < l.scalar) (hwf : ∀ c ∈ l.cells, CellWf c ∧ c.cap * l.scalar < 2147483647)
    (hn : ∀ c ∈ l.cells, ∀ v ∈ c.queue, hasNext v = true) :
    ∃ l', l.evolve hasNext u = .ok l' := by
  unfold Ctm.evolve
  rw [updateOut_ok hs hne hwf, Res.bind_ok']
  have hcs : withOut l.scalar u 0 l.cells ≠ [] := withOut_ne hne
  have hle : ∀ x ∈ withOut l.scalar u 0 l.cells, x.outVeh.toNat ≤ x.queue.length := withOut_le
  have hleave : ∀ v ∈ leaving (withOut l.scalar u 0 l.cells), hasNext v = true := by
    have key : ∀ (i : ℕ) (cs : List (Cell V)), (∀ c ∈ cs, ∀ v ∈ c.queue, hasNext v = true) →
        ∀ v ∈ leaving (withOut l.scalar u i cs), hasNext v = true := by
      intro i cs
      induction cs generalizing i with
      | nil => intro _ v hv; simp [withOut, leaving] at hv
      | cons c cs ih =>
        intro hq v hv
        cases cs with
        | nil =>
          simp only [withOut, leaving] at hv
          exact hq c (by simp) v (List.mem_of_mem_take hv)
        | cons d rest =>
          have : leaving (withOut l.scalar u i (c :: d :: rest))
              = leaving (withOut l.scalar u (i + 1) (d :: rest)) := by
            have hne := withOut_ne (scalar := l.scalar) (u := u) (i := i + 1) (cs := d :: rest)
              (by simp)
            simp only [withOut]
            cases hh : withOut l.scalar u (i + 1) (d :: rest) with
            | nil => exact absurd hh hne
            | cons y ys => rfl
          rw [this] at hv
          exact ih (i + 1) (fun x hx => hq x (by simp [hx])) v hv
    exact key 0 l.cells hn
  generalize withOut l.scalar u 0 l.cells = cs at *
  cases cs with
  | nil => exact absurd rfl hcs
  | cons c rest =>
    have e2 := moveFrom_ok rest c [] hle
    simp only [List.append_nil] at e2
    simp only [Ctm.movePrev]
    rw [e2, Res.bind_ok', moveLast_ok hcs hle hleave]
    exact ⟨_, rfl⟩

/-! ### Cells made by the constructor -/

theorem mkCell_wf {lanes : ℤ} {ffs unit scalar h q : ℚ} (hl : 0 ≤ lanes) (hf : 0 < ffs)
    (hu : 0 < unit) (hs : 0 < scalar) (hh : 0 ≤ h) (hq : 0 ≤ q)
    (hw : ¬ ∃ w ∈ (divO q (h - q / ffs)).map (· / ffs), w < 0) :
    CellWf (Cell.mk' (V := V) (lanes * (ffs * unit) * h) (lanes * q * unit) scalar
      ((divO q (h - q / ffs)).map (· / ffs))) := by
  have hl' : (0 : ℚ) ≤ lanes := by exact_mod_cast hl
  set capN : ℚ := lanes * q * unit with hcapN
  set cap' : ℚ := if capN * scalar < 1 then 1 / scalar else capN with hcap'
  have hone : 1 ≤ cap' * scalar := by
    rw [hcap']; split
    · rw [one_div, inv_mul_cancel₀ hs.ne']
    · rename_i h; exact not_lt.1 h
  have hge : capN ≤ cap' := by
    rw [hcap']; split
    · rename_i h; rw [le_div_iff₀ hs]; exact h.le
    · exact le_refl _
  refine ⟨hs, mul_nonneg (mul_nonneg hl' (mul_nonneg hf.le hu.le)) hh, hone, ?_⟩
  intro w hww
  have hww' : (divO q (h - q / ffs)).map (· / ffs) = some w := hww
  have hw0 : 0 ≤ w := by
    by_contra hneg
    exact hw ⟨w, by rw [hww']; simp, not_le.1 hneg⟩
  unfold divO at hww'
  split at hww'
  · simp at hww'
  · rename_i hD
    simp at hww'
    have hwq : w * (h - q / ffs) * ffs = q := by
      rw [← hww', div_mul_eq_mul_div, div_mul_cancel₀ _ hf.ne', div_mul_cancel₀ _ hD]
    have hkey : ((lanes : ℚ) * (ffs * unit) * h - capN) * w = capN := by
      have : ((lanes : ℚ) * (ffs * unit) * h - capN) = lanes * unit * ((h - q / ffs) * ffs) := by
        rw [hcapN, sub_mul, div_mul_cancel₀ _ hf.ne']; ring
      rw [this, hcapN]
      calc (lanes : ℚ) * unit * ((h - q / ffs) * ffs) * w
          = lanes * unit * (w * (h - q / ffs) * ffs) := by ring
        _ = lanes * q * unit := by rw [hwq]; ring
    refine ⟨hw0, ?_, ?_⟩
    · show ((lanes : ℚ) * (ffs * unit) * h - cap') * w ≤ cap'
      have := mul_le_mul_of_nonneg_right
        (show ((lanes : ℚ) * (ffs * unit) * h - cap') ≤ ((lanes : ℚ) * (ffs * unit) * h - capN)
          by linarith) hw0
      linarith
    · intro hw1
      show 2 * cap' ≤ (lanes : ℚ) * (ffs * unit) * h ∨ cap' * scalar = 1
      by_cases hb : capN * scalar < 1
      · right; rw [hcap', if_pos hb, one_div, inv_mul_cancel₀ hs.ne']
      · left
        rw [hcap', if_neg hb]
        have hDpos : 0 < h - q / ffs := by
          rcases lt_or_gt_of_ne hD with hneg | hpos
          · exfalso
            have : q ≤ 0 := by
              rw [← hwq]
              have := mul_nonpos_of_nonneg_of_nonpos hw0 hneg.le
              exact mul_nonpos_of_nonpos_of_nonneg this hf.le
            have hq0 : q = 0 := le_antisymm this hq
            rw [hq0] at hneg; simp at hneg; linarith
          · exact hpos
        have h1 : q ≤ (h - q / ffs) * ffs := by
          have := mul_le_mul_of_nonneg_right hw1 (mul_nonneg hDpos.le hf.le)
          rw [← mul_assoc, hwq, one_mul] at this
          exact this
        rw [sub_mul, div_mul_cancel₀ _ hf.ne'] at h1
        have h2 : 2 * q ≤ ffs * h := by linarith
        have := mul_le_mul_of_nonneg_left h2 (mul_nonneg hl' hu.le)
        rw [hcapN]; nlinarith

theorem ctm_mk_wf {hold cap : ℚ} {lanes : ℤ} {length ffs unit scalar : ℚ} {l : Ctm V}
    (h : Ctm.mk' hold cap lanes length ffs unit scalar = .ok l) :
    l.scalar = scalar ∧ 0 < scalar ∧ (∀ c ∈ l.cells, CellWf c ∧ c.scalar = scalar ∧ c.queue = [] ∧
      c.volume = 0) ∧
    l.finished = [] ∧ l.incoming = [] ∧ (0 < length → l.cells ≠ []) ∧
    l.lanes = lanes ∧ l.length = length ∧ l.ffs = ffs ∧ 0 ≤ lanes ∧ 0 ≤ length ∧ 0 < ffs ∧
    0 ≤ l.hold ∧ 0 ≤ l.cap ∧ l.cap / l.ffs ≤ l.hold ∧ 0 < unit ∧
    (0 < length → (l.cells.length : ℤ) = l.numCells) ∧ 1 ≤ l.numCells := by
  unfold Ctm.mk' at h
  rw [Res.bind_eq_ok'] at h
  obtain ⟨_, hb, h⟩ := h
  unfold checkBase at hb
  split at hb
  · simp at hb
  rename_i hb1
  split at hb
  · simp at hb
  rename_i hb2
  split at hb
  · simp at hb
  rename_i hb3
  split at h
  · simp at h
  rename_i h1
  split at h
  · simp at h
  rename_i h2
  split at h
  · simp at h
  rename_i h3
  push Not at hb1 hb2 hb3 h1 h2 h3
  obtain ⟨hs, hu, hf⟩ := h3
  have hf : 0 < ffs := lt_of_le_of_ne hb1 (Ne.symm hf)
  rw [Res.bind_eq_ok'] at h
  obtain ⟨n0, hn0, h⟩ := h
  have hn : 1 ≤ Ctm.cellCount n0 := by
    obtain ⟨e, _⟩ := toInt_ok_iff.1 hn0
    rw [trunc_int] at e
    have : 0 ≤ n0 := by
      rw [e]; exact Int.floor_nonneg.2 (div_nonneg hb3 (mul_nonneg hf.le hu.le))
    unfold Ctm.cellCount; split <;> omega
  generalize Ctm.cellCount n0 = n at h hn
  have hH : 0 ≤ Ctm.clampHold hold := by unfold Ctm.clampHold; split <;> [norm_num; exact h1]
  have hC : 0 ≤ Ctm.clampCap cap := by unfold Ctm.clampCap; split <;> [norm_num; exact h2]
  generalize Ctm.clampHold hold = H at h hH
  generalize Ctm.clampCap cap = C at h hC
  unfold Ctm.build at h
  simp only at h
  split at h
  · simp at h
  rename_i hw1
  split at h
  · simp at h
  rename_i hw2
  have hHL : 0 ≤ max ((length - ((n - 1 : ℤ) : ℚ) * (ffs * unit)) / (ffs * unit) * H) H :=
    le_trans hH (le_max_right _ _)
  have wf1 := mkCell_wf (V := V) hb2 hf hu hs hH hC hw1
  have wf2 := mkCell_wf (V := V) hb2 hf hu hs hHL hC hw2
  have hcrit : C / ffs ≤ H := by
    by_contra hlt
    have hlt := not_le.1 hlt
    apply hw1
    have hCpos : 0 < C := by
      rcases lt_or_eq_of_le hC with h | h
      · exact h
      · rw [← h] at hlt; simp at hlt; linarith
    have hne : H - C / ffs ≠ 0 := by linarith
    refine ⟨C / (H - C / ffs) / ffs, by simp [divO, hne], ?_⟩
    exact div_neg_of_neg_of_pos (div_neg_of_pos_of_neg hCpos (by linarith)) hf
  cases h
  refine ⟨rfl, hs, ?_, rfl, rfl, ?_, rfl, rfl, rfl, hb2, hb3, hf, hH, hC, hcrit, hu, ?_, hn⟩
  · intro c hc
    rcases List.mem_append.1 hc with hc | hc
    · rw [(List.mem_replicate.1 hc).2]; exact ⟨wf1, rfl, rfl, rfl⟩
    · split at hc
      · rw [List.mem_singleton.1 hc]; exact ⟨wf2, rfl, rfl, rfl⟩
      · simp at hc
  · intro hlen
    simp [hlen]
  · intro hlen
    simp [hlen]
    omega

/-! ### Density -/

/-- Between intervals: the stored volumes cover the vehicles, and no cell exceeds its holding
capacity by more than one vehicle. -/
def Dens (fin : ℕ) : List (Cell V) → Prop
  | [] => True
  | [c] => c.queue.length + fin ≤ c.volume ∧ (c.volume : ℚ) ≤ c.hold * c.scalar + 1
  | c :: d :: rest => c.queue.length = c.volume ∧ (c.volume : ℚ) ≤ c.hold * c.scalar + 1 ∧
      Dens fin (d :: rest)

theorem Dens.mono {fin fin' : ℕ} (h : fin' ≤ fin) : ∀ {cs : List (Cell V)}, Dens fin cs →
    Dens fin' cs
  | [], _ => trivial
  | [c], hd => ⟨by have := hd.1; omega, hd.2⟩
  | _ :: _ :: _, hd => ⟨hd.1, hd.2.1, Dens.mono h hd.2.2⟩

/-- After `clear_incoming_array` the entrance cell holds what it received. -/
def HeadOk (fin : ℕ) (extra : ℕ) : List (Cell V) → Prop
  | [] => True
  | [c] => ((c.queue.length + extra + fin : ℕ) : ℚ) ≤ c.hold * c.scalar + 1
  | c :: d :: rest => ((c.queue.length + extra : ℕ) : ℚ) ≤ c.hold * c.scalar + 1 ∧
      Dens fin (d :: rest)

theorem out_lt {x u : ℚ} (hx : 0 ≤ x) (hu : 0 ≤ u) {q k : ℕ}
    (hk : (k : ℤ) ≤ (min (q : ℤ) (roundVal x u))) : (k : ℚ) < x + 1 := by
  have h1 : (k : ℤ) ≤ roundVal x u := le_trans hk (min_le_right _ _)
  have h2 : (k : ℚ) ≤ roundVal x u := by exact_mod_cast h1
  rw [roundVal_nonneg hx] at h2
  split at h2
  · rename_i h
    push_cast at h2
    have : Int.fract x = x - ⌊x⌋ := rfl
    linarith
  · have := Int.floor_le x; linarith

theorem shifted_cons (fin : ℕ) (inflow : List V) (c : Cell V) {cs : List (Cell V)} (h : cs ≠ []) :
    shifted fin inflow (c :: cs) =
      { c with
        queue := c.queue.drop c.outVeh.toNat ++ inflow
        volume := (c.queue.drop c.outVeh.toNat ++ inflow).length } ::
      shifted fin (c.queue.take c.outVeh.toNat) cs := by
  cases cs with
  | nil => exact absurd rfl h
  | cons d rest => rfl

theorem leaving_cons (c : Cell V) {cs : List (Cell V)} (h : cs ≠ []) :
    leaving (c :: cs) = leaving cs := by
  cases cs with
  | nil => exact absurd rfl h
  | cons d rest => rfl

theorem dens_cons {fin : ℕ} {c : Cell V} {cs : List (Cell V)} (h : cs ≠ []) :
    Dens fin (c :: cs) ↔ c.queue.length = c.volume ∧ (c.volume : ℚ) ≤ c.hold * c.scalar + 1 ∧
      Dens fin cs := by
  cases cs with
  | nil => exact absurd rfl h
  | cons d rest => rfl

theorem shifted_ne {fin : ℕ} {inflow : List V} {cs : List (Cell V)} (h : cs ≠ []) :
    shifted fin inflow cs ≠ [] := by
  cases cs with
  | nil => exact absurd rfl h
  | cons c rest => cases rest <;> simp [shifted]

theorem shift_dens {scalar : ℚ} {u : ℕ → ℚ} (hs : 0 < scalar) (hu : ∀ i, 0 ≤ u i) {fin : ℕ} :
    ∀ {cs : List (Cell V)} {inflow : List V} {i : ℕ},
    (∀ c ∈ cs, CellWf c ∧ c.scalar = scalar) → cs ≠ [] → HeadOk fin inflow.length cs →
    Dens (fin + (leaving (withOut scalar u i cs)).length)
      (shifted (fin + (leaving (withOut scalar u i cs)).length) inflow (withOut scalar u i cs))
  | [], _, _, _, h, _ => absurd rfl h
  | [c], inflow, i, hwf, _, hh => by
    simp only [withOut, leaving, shifted, Dens]
    simp only [HeadOk] at hh
    refine ⟨by simp, ?_⟩
    refine le_trans ?_ hh
    simp
    linarith
  | c :: d :: rest, inflow, i, hwf, _, hh => by
    obtain ⟨hc, hcs⟩ := hwf c (by simp)
    obtain ⟨hd, hds⟩ := hwf d (by simp)
    obtain ⟨h1, h2⟩ := hh
    have hne := withOut_ne (scalar := scalar) (u := u) (i := i + 1) (cs := d :: rest) (by simp)
    simp only [withOut]
    rw [shifted_cons _ _ _ hne, leaving_cons _ hne, dens_cons (shifted_ne hne)]
    refine ⟨rfl, ?_, ?_⟩
    · refine le_trans ?_ h1
      simp
    · apply shift_dens hs hu (fun x hx => hwf x (by simp [hx])) (by simp)
      have hx0 : 0 ≤ min c.demand d.supply * scalar :=
        mul_nonneg (le_min (demand_bounds hc).1 (supply_bounds hd).1) hs.le
      have hk : ((List.take (min (c.queue.length : ℤ)
          (roundVal (min c.demand d.supply * scalar) (u i))).toNat c.queue).length : ℚ)
          < d.supply * d.scalar + 1 := by
        refine lt_of_lt_of_le (out_lt hx0 (hu i) (q := c.queue.length) ?_) ?_
        · have := roundVal_natCast_nonneg (u := u i) hx0
          simp
          omega
        · rw [hds]
          have := mul_le_mul_of_nonneg_right (min_le_right c.demand d.supply) hs.le
          linarith
      cases rest with
      | nil =>
        obtain ⟨e1, e2⟩ := h2
        have := supply_room hd hk e2
        refine le_trans ?_ this
        push_cast
        have e1' : (d.queue.length : ℚ) + fin ≤ d.volume := by exact_mod_cast e1
        linarith
      | cons e rest =>
        obtain ⟨e1, e2, e3⟩ := h2
        refine ⟨?_, e3⟩
        rw [e1]
        exact supply_room hd hk e2

theorem withOut_mem {scalar : ℚ} {u : ℕ → ℚ} : ∀ {i : ℕ} {cs : List (Cell V)} {x : Cell V},
    x ∈ withOut scalar u i cs → ∃ c ∈ cs, ∃ o, x = { c with outVeh := o }
  | _, [], x, hx => by simp [withOut] at hx
  | _, [c], x, hx => by simp [withOut] at hx; exact ⟨c, by simp, _, hx⟩
  | i, c :: d :: rest, x, hx => by
    simp only [withOut, List.mem_cons] at hx
    rcases hx with rfl | hx
    · exact ⟨c, by simp, _, rfl⟩
    · obtain ⟨y, hy, o, ho⟩ := withOut_mem hx
      exact ⟨y, by simp [hy], o, ho⟩

theorem shifted_mem {fin : ℕ} : ∀ {inflow : List V} {cs : List (Cell V)} {x : Cell V},
    x ∈ shifted fin inflow cs → ∃ c ∈ cs, ∃ q n, x = { c with queue := q, volume := n }
  | _, [], x, hx => by simp [shifted] at hx
  | inflow, [c], x, hx => by simp only [shifted, List.mem_singleton] at hx; exact ⟨c, by simp, _, _, hx⟩
  | inflow, c :: d :: rest, x, hx => by
    simp only [shifted, List.mem_cons] at hx
    rcases hx with rfl | hx
    · exact ⟨c, by simp, _, _, rfl⟩
    · obtain ⟨y, hy, q, n, ho⟩ := shifted_mem hx
      exact ⟨y, by simp [hy], q, n, ho⟩

theorem evolve_cell_wf {scalar : ℚ} {u : ℕ → ℚ} {fin i : ℕ} {inflow : List V} {cs : List (Cell V)}
    {s : ℚ} (h : ∀ c ∈ cs, CellWf c ∧ c.scalar = s) :
    ∀ c ∈ shifted fin inflow (withOut scalar u i cs), CellWf c ∧ c.scalar = s := by
  intro c hc
  obtain ⟨y, hy, q, n, rfl⟩ := shifted_mem hc
  obtain ⟨z, hz, o, rfl⟩ := withOut_mem hy
  exact ⟨(h z hz).1.upd q n o, (h z hz).2⟩

theorem doMoves_ctm (l : Ctm V) (ms : List (Move V)) :
    ∃ l', ((Link.ctm l).doMoves ms).1 = .ctm l' ∧ l'.cells = l.cells ∧ l'.scalar = l.scalar ∧
      l'.finished.length ≤ l.finished.length := by
  induction ms generalizing l with
  | nil => exact ⟨l, rfl, rfl, rfl, le_refl _⟩
  | cons m ms ih =>
    have : ∃ l1, ((Link.ctm l).doMove m).1 = .ctm l1 ∧ l1.cells = l.cells ∧ l1.scalar = l.scalar ∧
        l1.finished.length ≤ l.finished.length := by
      cases m with
      | arrive v => exact ⟨_, rfl, rfl, rfl, le_refl _⟩
      | depart p =>
        simp only [Link.doMove]
        split
        · exact ⟨_, rfl, rfl, rfl, le_refl _⟩
        · rename_i v rest hr
          obtain ⟨a, b, h1, h2, _⟩ := removeFirst_some hr
          refine ⟨_, rfl, rfl, rfl, ?_⟩
          simp only [Link.finished] at h1
          simp [h1, h2]
    obtain ⟨l1, h1, h2, h3, h4⟩ := this
    obtain ⟨l', e1, e2, e3, e4⟩ := ih l1
    refine ⟨l', ?_, by rw [e2, h2], by rw [e3, h3], le_trans e4 h4⟩
    simp only [Link.doMoves]
    rw [h1, e1]

/-- State of a cell transmission link between two intervals. -/
structure CtmOk (l : Ctm V) : Prop where
  scalar : 0 < l.scalar
  wf : ∀ c ∈ l.cells, CellWf c ∧ c.scalar = l.scalar
  dens : Dens l.finished.length l.cells

theorem ctm_interval {hasNext : V → Bool} {l : Ctm V} {i : Interval V}
    {r : Link V × IntervalLog V} (hok : CtmOk l) (hu : ∀ k, 0 ≤ i.draws k)
    (h : (Link.ctm l).interval hasNext i = .ok r) : ∃ l', r.1 = .ctm l' ∧ CtmOk l' := by
  unfold Link.interval at h
  obtain ⟨l1, e1, e2, e3, e4⟩ := doMoves_ctm l i.moves
  simp only [e1] at h
  rw [Res.bind_eq_ok'] at h
  obtain ⟨l2, hl2, h⟩ := h
  simp only [Link.clear] at hl2
  rw [Res.bind_eq_ok'] at hl2
  obtain ⟨l2', hc, hl2⟩ := hl2
  cases hl2
  rw [Res.bind_eq_ok'] at h
  obtain ⟨l3, hl3, h⟩ := h
  simp only [Link.evolve] at hl3
  rw [Res.bind_eq_ok'] at hl3
  obtain ⟨l3', he, hl3⟩ := hl3
  cases hl3
  cases h
  refine ⟨l3', rfl, ?_⟩
  unfold Ctm.clear at hc
  have hd1 : Dens l1.finished.length l1.cells := by rw [e2]; exact hok.dens.mono e4
  have hwf1 : ∀ c ∈ l1.cells, CellWf c ∧ c.scalar = l1.scalar := by rw [e2, e3]; exact hok.wf
  have hs1 : 0 < l1.scalar := by rw [e3]; exact hok.scalar
  clear e1 e2 e3 e4 hok l
  cases hcs : l1.cells with
  | nil => rw [hcs] at hc; simp at hc
  | cons c rest =>
    rw [hcs] at hc hd1 hwf1
    simp only at hc
    split at hc
    · simp at hc
    rename_i hsup
    rw [moveQueue_ok _ _ _ (le_refl _)] at hc
    simp only [Res.bind_ok', List.take_length, List.drop_length] at hc
    cases hc
    obtain ⟨hcw, hcsc⟩ := hwf1 c (by simp)
    have hsup' : (l1.incoming.length : ℚ) < c.supply * c.scalar + 1 := by
      rw [hcsc]; have := not_lt.1 hsup; linarith
    obtain ⟨hne, he'⟩ := ctm_evolve_eq he
    subst he'
    have hwf2 : ∀ x ∈ ({ c with queue := c.queue ++ l1.incoming, volume :=
        (c.queue ++ l1.incoming).length } : Cell V) :: rest, CellWf x ∧ x.scalar = l1.scalar := by
      intro x hx
      rcases List.mem_cons.1 hx with rfl | hx
      · exact ⟨hcw.upd _ _ _, hcsc⟩
      · exact hwf1 x (by simp [hx])
    refine ⟨hs1, evolve_cell_wf hwf2, ?_⟩
    show Dens (l1.finished ++ _).length (shifted (l1.finished ++ _).length [] _)
    rw [List.length_append]
    have := shift_dens (u := i.draws) (i := 0) (inflow := ([] : List V)) (fin := l1.finished.length)
      hs1 hu hwf2 (by simp) ?_
    · exact this
    · cases rest with
      | nil =>
        obtain ⟨d1, d2⟩ := hd1
        have := supply_room hcw hsup' d2
        refine le_trans ?_ this
        simp only [List.length_append, List.length_nil]
        push_cast
        have d1' : (c.queue.length : ℚ) + l1.finished.length ≤ c.volume := by exact_mod_cast d1
        linarith
      | cons d rest =>
        obtain ⟨d1, d2, d3⟩ := hd1
        refine ⟨?_, d3⟩
        have := supply_room hcw hsup' d2
        simp only [List.length_append, List.length_nil]
        rw [d1]
        simpa using this

theorem ctm_intervals {hasNext : V → Bool} : ∀ (is : List (Interval V)) {l : Ctm V}
    {r : Link V × List (IntervalLog V)}, CtmOk l → (∀ i ∈ is, ∀ k, 0 ≤ i.draws k) →
    (Link.ctm l).intervals hasNext is = .ok r → ∃ l', r.1 = .ctm l' ∧ CtmOk l'
  | [], l, r, hok, _, h => by simp [Link.intervals] at h; subst h; exact ⟨l, rfl, hok⟩
  | i :: is, l, r, hok, hu, h => by
    simp only [Link.intervals] at h
    rw [Res.bind_eq_ok'] at h
    obtain ⟨x, hx, h⟩ := h
    rw [Res.bind_eq_ok'] at h
    obtain ⟨y, hy, h⟩ := h
    cases h
    obtain ⟨l', h1, h2⟩ := ctm_interval hok (hu i (by simp)) hx
    rw [h1] at hy
    obtain ⟨l'', h3⟩ := ctm_intervals is h2 (fun j hj => hu j (by simp [hj])) hy
    exact ⟨l'', h3⟩

theorem ctm_mk_ok {hold cap : ℚ} {lanes : ℤ} {length ffs unit scalar : ℚ} {l : Ctm V}
    (h : Ctm.mk' hold cap lanes length ffs unit scalar = .ok l) : CtmOk l := by
  obtain ⟨h1, h2, h3, h4, _⟩ := ctm_mk_wf h
  refine ⟨by rw [h1]; exact h2, fun c hc => ⟨(h3 c hc).1, by rw [h1]; exact (h3 c hc).2.1⟩, ?_⟩
  rw [h4]
  have key : ∀ cs : List (Cell V), (∀ c ∈ cs, CellWf c ∧ c.queue = [] ∧ c.volume = 0) →
      Dens 0 cs := by
    intro cs
    induction cs with
    | nil => intro _; trivial
    | cons c cs ih =>
      intro hcs
      obtain ⟨a, b, d⟩ := hcs c (by simp)
      have hpos : (0 : ℚ) ≤ c.hold * c.scalar + 1 := by
        have := mul_nonneg a.hold a.scalar.le; linarith
      cases cs with
      | nil => simp [Dens, b, d, hpos]
      | cons e rest =>
        exact ⟨by simp [b, d], by simpa [d] using hpos, ih (fun x hx => hcs x (by simp [hx]))⟩
  exact key _ (fun c hc => ⟨(h3 c hc).1, (h3 c hc).2.2⟩)

theorem Dens.cell {fin : ℕ} : ∀ {cs : List (Cell V)}, Dens fin cs → ∀ c ∈ cs,
    (c.queue.length : ℚ) ≤ c.hold * c.scalar + 1
  | [], _, c, hc => by simp at hc
  | [d], hd, c, hc => by
    simp at hc; subst hc
    have : (c.queue.length : ℚ) ≤ c.volume := by
      have : c.queue.length ≤ c.volume := by have := hd.1; omega
      exact_mod_cast this
    linarith [hd.2]
  | d :: e :: rest, hd, c, hc => by
    rcases List.mem_cons.1 hc with rfl | hc
    · rw [hd.1]; exact hd.2.1
    · exact Dens.cell hd.2.2 c hc

theorem Dens.last {fin : ℕ} : ∀ {cs : List (Cell V)}, Dens fin cs → ∀ c, cs.getLast? = some c →
    ((c.queue.length + fin : ℕ) : ℚ) ≤ c.hold * c.scalar + 1
  | [], _, c, hc => by simp at hc
  | [d], hd, c, hc => by
    simp at hc; subst hc
    have : ((d.queue.length + fin : ℕ) : ℚ) ≤ d.volume := by exact_mod_cast hd.1
    linarith [hd.2]
  | d :: e :: rest, hd, c, hc => by
    rw [List.getLast?_cons_cons] at hc
    exact Dens.last hd.2.2 c hc

end Verif.Lnk

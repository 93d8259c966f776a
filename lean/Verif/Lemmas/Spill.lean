import Verif.Spec.Spill
import Verif.Lemmas.Record

/-! # Lemmas: the spillback flag of two-class links -/

namespace Verif.Spill
open Ults Curve MNet Rec MLnk

/-! ### Links -/

/-- Attributes in range, and nothing in the buffers of a link queue. -/
def Reg : MLnk.Link ℕ → Prop
  | .ctm l => 0 < l.args.scalar ∧ 0 < l.args.length ∧ 0 ≤ l.args.factor ∧ 0 < l.args.unit
  | .lq l => 0 < l.args.scalar ∧ 0 < l.args.length ∧ 0 ≤ l.args.factor ∧ l.bufCar = [] ∧ l.bufTruck = [] ∧
      l.dia.holdCar = l.args.holdCar * l.args.lanes
  | .pq _ => True

theorem derive_length {a : Args} {r : Derived} (h : derive a = .ok r) (hf : 0 ≤ a.ffsCar) (hu : 0 < a.unit)
    (hl : 0 ≤ a.length ∨ 1 ≤ r.num) : 0 < r.args.length := by
  unfold derive at h
  split at h
  · simp at h
  rename_i hne
  have hpos : 0 < a.ffsCar * a.unit := mul_pos (lt_of_le_of_ne hf (Ne.symm hne)) hu
  rw [Res.bind_eq_ok'] at h
  obtain ⟨n, hn, h⟩ := h
  rw [toInt_ok_iff, trunc_int] at hn
  simp only at h
  split at h
  · simp at h
  split at h
  · simp at h
  cases h
  simp only at hl ⊢
  by_cases hz : n = 0
  · rw [if_pos hz]; exact hpos
  · rw [if_neg hz]
    rw [if_neg hz] at hl
    have h1 : 1 ≤ n := by
      rcases hl with hl | hl
      · have : 0 ≤ n := by rw [hn.1]; exact Int.floor_nonneg.2 (div_nonneg hl hpos.le)
        omega
      · exact hl
    have h2 : (1 : ℚ) ≤ a.length / (a.ffsCar * a.unit) := by
      have := Int.floor_le (a.length / (a.ffsCar * a.unit))
      rw [← hn.1] at this
      have h3 : (1 : ℚ) ≤ n := by exact_mod_cast h1
      linarith
    rw [le_div_iff₀ hpos] at h2
    linarith

theorem checkAttrs_ffs {a a' : Args} (h : checkAttrs a = .ok a') :
    0 ≤ a'.ffsCar ∧ a'.length = a.length := by
  unfold checkAttrs at h
  split at h
  · simp at h
  split at h
  · simp at h
  split at h
  · simp at h
  rename_i hf
  cases h
  push Not at hf
  exact ⟨hf.1, rfl⟩

theorem mk_reg {k : Kind} {a : Args} {x : MLnk.Link ℕ} (h : mkLink k a = .ok x) :
    Reg x ∧ (attrs x).factor = a.factor ∧ x.com.spill = false := by
  cases k with
  | ctm =>
    simp only [mkLink] at h
    rw [Res.bind_eq_ok'] at h
    obtain ⟨y, hx, h⟩ := h
    cases h
    unfold Ctm.mk' at hx
    rw [Res.bind_eq_ok'] at hx
    obtain ⟨_, hb, hx⟩ := hx
    rw [Res.bind_eq_ok'] at hx
    obtain ⟨c, hc, hx⟩ := hx
    obtain ⟨c1, c2, c3⟩ := checkAttrs_keep hc
    obtain ⟨f1, f2⟩ := checkAttrs_ffs hc
    split at hx
    · simp at hx
    split at hx
    · simp at hx
    split at hx
    · simp at hx
    rename_i g1 g2 g3
    rw [Res.bind_eq_ok'] at hx
    obtain ⟨r, hr, hx⟩ := hx
    obtain ⟨d1, d2, d3⟩ := derive_keep hr
    have hlen : 0 ≤ c.length := by
      unfold Lnk.checkBase at hb
      split at hb
      · simp at hb
      split at hb
      · simp at hb
      split at hb
      · simp at hb
      rename_i hl
      rw [f2]; linarith
    have hL := derive_length hr f1 (by linarith) (.inl hlen)
    cases hx
    refine ⟨⟨?_, hL, ?_, ?_⟩, d3.trans c3, rfl⟩
    · simp only [d2]; linarith
    · simp only [d3]; linarith
    · simp only [d1]; linarith
  | lq =>
    simp only [mkLink] at h
    rw [Res.bind_eq_ok'] at h
    obtain ⟨y, hx, h⟩ := h
    cases h
    unfold Lq.mk' at hx
    rw [Res.bind_eq_ok'] at hx
    obtain ⟨_, _, hx⟩ := hx
    rw [Res.bind_eq_ok'] at hx
    obtain ⟨d, hd, hx⟩ := hx
    cases hx
    unfold lqDiagram at hd
    simp only at hd
    split at hd
    · simp at hd
    rename_i hn
    push Not at hn
    cases hd
    exact ⟨⟨hn.2.1, hn.2.2.1, hn.2.2.2.2.2.1.le, rfl, rfl, rfl⟩, rfl, rfl⟩
  | pq =>
    simp only [mkLink] at h
    rw [Res.bind_eq_ok'] at h
    obtain ⟨y, hx, h⟩ := h
    cases h
    unfold Pq.mk' at hx
    rw [Res.bind_eq_ok'] at hx
    obtain ⟨_, _, hx⟩ := hx
    split at hx
    · simp at hx
    rw [Res.bind_eq_ok'] at hx
    obtain ⟨r, _, hx⟩ := hx
    cases hx
    exact ⟨trivial, rfl, rfl⟩

theorem modify_reg {a : Args} {x y : MLnk.Link ℕ} (hx : Reg x) (h : x.modify a = .ok y) :
    Reg y ∧ (attrs y).factor = (attrs x).factor := by
  cases x with
  | ctm l =>
    simp only [MLnk.Link.modify] at h
    rw [Res.bind_eq_ok'] at h
    obtain ⟨x, hm, h⟩ := h
    cases h
    unfold Ctm.modify at hm
    rw [Res.bind_eq_ok'] at hm
    obtain ⟨c, hc, hm⟩ := hm
    rw [Res.bind_eq_ok'] at hm
    obtain ⟨r, hr, hm⟩ := hm
    obtain ⟨c1, c2, c3⟩ := checkAttrs_keep hc
    obtain ⟨f1, _⟩ := checkAttrs_ffs hc
    obtain ⟨d1, d2, d3⟩ := derive_keep hr
    obtain ⟨p1, p2, p3, p4⟩ := hx
    split at hm
    · simp at hm
    rename_i hnum
    push Not at hnum
    have key : ∀ z : Ctm ℕ, 1 ≤ r.num → z.args = r.args → Reg (.ctm z) ∧ z.args.factor = l.args.factor := by
      intro z h1 e
      have hL := derive_length hr f1 (by rw [c1]; exact p4) (.inr h1)
      refine ⟨⟨?_, ?_, ?_, ?_⟩, ?_⟩
      · rw [e, d2, c2]; exact p1
      · rw [e]; exact hL
      · rw [e, d3, c3]; exact p3
      · rw [e, d1, c1]; exact p4
      · rw [e, d3, c3]
    split at hm
    · rename_i f e hf he
      have h1 : 1 ≤ r.num := by
        rw [hnum]
        cases hcs : l.cells with
        | nil => rw [hcs] at hf; simp at hf
        | cons _ _ => simp
      split at hm
      · split at hm
        · cases hm; exact key _ h1 rfl
        · simp at hm
      · split at hm
        · cases hm; exact key _ h1 rfl
        · simp at hm
    · simp at hm
  | lq l =>
    simp only [MLnk.Link.modify] at h
    rw [Res.bind_eq_ok'] at h
    obtain ⟨x, hm, h⟩ := h
    cases h
    unfold Lq.modify at hm
    rw [Res.bind_eq_ok'] at hm
    obtain ⟨d, hd, hm⟩ := hm
    cases hm
    obtain ⟨p1, p2, p3, p4, p5, p6⟩ := hx
    unfold lqDiagram at hd
    simp only at hd
    split at hd
    · simp at hd
    rename_i hn
    push Not at hn
    cases hd
    exact ⟨⟨p1, hn.2.2.1, p3, p4, p5, rfl⟩, rfl⟩
  | pq l =>
    simp only [MLnk.Link.modify] at h
    cases h
    exact ⟨trivial, rfl⟩

theorem setBoth_reg {x : MLnk.Link ℕ} (hx : Reg x) (a b : List ℕ) :
    Reg ((x.setFinished a).setIncoming b) ∧ attrs ((x.setFinished a).setIncoming b) = attrs x ∧
      ((x.setFinished a).setIncoming b).com.spill = x.com.spill := by
  cases x <;> exact ⟨hx, rfl, rfl⟩

theorem clear_reg {truck : ℕ → Bool} {x y : MLnk.Link ℕ} (hx : Reg x) (h : x.clear truck = .ok y) :
    Reg y ∧ attrs y = attrs x ∧ y.com.spill = x.com.spill ∧ (¬ pointQueue x → y.incoming = []) := by
  cases x with
  | ctm l =>
    simp only [MLnk.Link.clear] at h
    rw [Res.bind_eq_ok'] at h
    obtain ⟨z, hm, h⟩ := h
    cases h
    unfold Ctm.clear at hm
    split at hm
    · simp at hm
    · simp only at hm
      cases hm
      exact ⟨hx, rfl, rfl, fun _ => rfl⟩
  | lq l =>
    simp only [MLnk.Link.clear] at h
    cases h
    exact ⟨hx, rfl, rfl, fun _ => rfl⟩
  | pq l =>
    simp only [MLnk.Link.clear] at h
    cases h
    exact ⟨trivial, rfl, rfl, fun h => (h trivial).elim⟩

theorem trunc_le {x : ℚ} (h : 0 ≤ x) : (trunc x : ℚ) ≤ x ∧ 0 ≤ trunc x := by
  rw [trunc_nonneg h]
  exact ⟨Int.floor_le x, Int.floor_nonneg.2 h⟩

theorem spillCount_spec {f : ℚ} (hf : 0 ≤ f) : ∀ (cs : List (Cell ℕ)) (n : ℤ), 0 ≤ n →
    (spillCount f cs n : ℚ) ≤ n + ((cs.map fun c => c.volCar).sum : ℕ) + f * ((cs.map fun c => c.volTruck).sum : ℕ) ∧
    ((∃ k : ℕ, f = k) → (spillCount f cs n : ℚ)
      = n + ((cs.map fun c => c.volCar).sum : ℕ) + f * ((cs.map fun c => c.volTruck).sum : ℕ))
  | [], n, _ => by simp [spillCount]
  | c :: cs, n, hn => by
    have hn' : (0 : ℚ) ≤ n := by exact_mod_cast hn
    have hx : 0 ≤ (((n + c.volCar : ℤ) : ℚ) + c.volTruck * f) := by
      push_cast
      have : (0 : ℚ) ≤ c.volTruck * f := mul_nonneg (by positivity) hf
      have : (0 : ℚ) ≤ c.volCar := by positivity
      linarith
    obtain ⟨t1, t2⟩ := trunc_le hx
    obtain ⟨a, b⟩ := spillCount_spec hf cs _ t2
    simp only [spillCount, List.map_cons, List.sum_cons]
    refine ⟨a.trans ?_, ?_⟩
    · push_cast at t1 ⊢
      linarith
    · rintro ⟨k, rfl⟩
      rw [b ⟨k, rfl⟩]
      have e : (((n + c.volCar : ℤ) : ℚ) + c.volTruck * (k : ℚ)) = ((n + c.volCar + c.volTruck * k : ℤ) : ℚ) := by
        push_cast; ring
      rw [e, trunc_int]
      push_cast
      ring

/-- What `evolve` does to the flag. -/
structure Flag (truck : ℕ → Bool) (x y : MLnk.Link ℕ) : Prop where
  reg : Reg y
  attrs : attrs y = attrs x
  pq : pointQueue y ↔ pointQueue x
  still : pointQueue x → y.com.spill = x.com.spill
  flag : ¬ pointQueue x → ∃ n : ℚ, y.com.spill = (x.com.spill || decide ((Spill.attrs x).holdCar * (Spill.attrs x).lanes
      < n / (Spill.attrs x).scalar / (Spill.attrs x).length)) ∧
    n ≤ (y.lane truck false).length + (Spill.attrs x).factor * (y.lane truck true).length ∧
    ((∃ k : ℕ, (Spill.attrs x).factor = k) →
      n = (y.lane truck false).length + (Spill.attrs x).factor * (y.lane truck true).length)

theorem evolve_flag {truck hasNext : ℕ → Bool} {u : Draws} {x y : MLnk.Link ℕ} (hx : Reg x) (hi : Inv truck x)
    (hin : ¬ pointQueue x → x.incoming = []) (h : x.evolve truck hasNext u = .ok y) : Flag truck x y := by
  obtain ⟨-, L, I, -⟩ := evolve_inv hi h
  cases x with
  | ctm l =>
    simp only [MLnk.Link.evolve] at h
    rw [Res.bind_eq_ok'] at h
    obtain ⟨z, hm, h⟩ := h
    cases h
    unfold Ctm.evolve at hm
    rw [Res.bind_eq_ok'] at hm
    obtain ⟨c1, h1, hm⟩ := hm
    rw [Res.bind_eq_ok'] at hm
    obtain ⟨c2, h2, hm⟩ := hm
    rw [Res.bind_eq_ok'] at hm
    obtain ⟨p, h3, hm⟩ := hm
    cases hm
    obtain ⟨e1, e2⟩ := ctm_volumes h3
    obtain ⟨s1, s2⟩ := spillCount_spec hx.2.2.1 p.1 0 (le_refl _)
    have hinc : l.com.incoming = [] := hin (by exact id)
    have key : ∀ z : Ctm ℕ, z.cells = p.1 → z.com.finished = p.2 → z.com.incoming = [] →
        ((((0 : ℤ) : ℚ) + ((p.1.map fun c => c.volCar).sum : ℕ)) + l.args.factor * ((p.1.map fun c => c.volTruck).sum : ℕ))
        = ((Link.ctm z).lane truck false).length + l.args.factor * ((Link.ctm z).lane truck true).length := by
      intro z z1 z2 z3
      unfold Link.lane
      rw [travelling_ctm, travelling_ctm, z1, e1, e2]
      show _ = (((ofCls truck false z.com.finished ++ cellVehs false p.1 ++ ofCls truck false z.com.incoming).length : ℕ) : ℚ)
        + l.args.factor * ((ofCls truck true z.com.finished ++ cellVehs true p.1 ++ ofCls truck true z.com.incoming).length : ℕ)
      rw [z2, z3]
      simp only [List.length_append, ofCls_nil, List.length_nil, ← cls_eq_length, cls_false, cls_true]
      push_cast
      ring
    refine ⟨hx, rfl, Iff.rfl, fun h => h.elim, fun _ => ⟨_, rfl, ?_, ?_⟩⟩
    · exact s1.trans (le_of_eq (key _ rfl rfl hinc))
    · intro hk
      exact (s2 hk).trans (key _ rfl rfl hinc)
  | lq l =>
    simp only [MLnk.Link.evolve] at h
    rw [Res.bind_eq_ok'] at h
    obtain ⟨z, hm, h⟩ := h
    cases h
    unfold Lq.evolve at hm
    simp only at hm
    rw [Res.bind_eq_ok'] at hm
    obtain ⟨rc, _, hm⟩ := hm
    rw [Res.bind_eq_ok'] at hm
    obtain ⟨rt, _, hm⟩ := hm
    rw [Res.bind_eq_ok'] at hm
    obtain ⟨pc, hpc, hm⟩ := hm
    rw [Res.bind_eq_ok'] at hm
    obtain ⟨pt, hpt, hm⟩ := hm
    rw [Res.bind_eq_ok'] at hm
    obtain ⟨r, hr, hm⟩ := hm
    split at hm
    · simp at hm
    rename_i hb
    push Not at hb
    cases hm
    obtain ⟨p1, p2, p3, p4, p5, p6⟩ := hx
    have hinc : l.com.incoming = [] := hin (by exact id)
    have v1 : ((Link.lq l).lane truck false).length = l.queueCar.length + cars truck l.com.finished := by
      show (ofCls truck false l.com.finished ++ (l.bufCar ++ l.queueCar) ++ ofCls truck false l.com.incoming).length = _
      rw [hinc, p4, List.length_append, List.length_append, ← cls_eq_length, cls_false]
      simp; omega
    have v2 : ((Link.lq l).lane truck true).length = l.queueTruck.length + trucks truck l.com.finished := by
      show (ofCls truck true l.com.finished ++ (l.bufTruck ++ l.queueTruck) ++ ofCls truck true l.com.incoming).length = _
      rw [hinc, p5, List.length_append, List.length_append, ← cls_eq_length, cls_true]
      simp; omega
    refine ⟨⟨p1, p2, p3, hb.1, hb.2, p6⟩, rfl, Iff.rfl, fun h => h.elim, fun _ => ?_⟩
    rw [L, L, v1, v2]
    have hnn : (0 : ℚ) ≤ ((l.queueCar.length + cars truck l.com.finished : ℕ) : ℚ)
        + ((l.queueTruck.length + trucks truck l.com.finished : ℕ) : ℚ) * l.args.factor :=
      add_nonneg (by positivity) (mul_nonneg (by positivity) p3)
    refine ⟨(trunc (((l.queueCar.length + cars truck l.com.finished : ℕ) : ℚ)
        + ((l.queueTruck.length + trucks truck l.com.finished : ℕ) : ℚ) * l.args.factor) : ℚ), ?_, ?_, ?_⟩
    · show (l.com.spill || decide (_ > l.dia.holdCar)) = _
      rw [p6]; rfl
    · refine (trunc_le hnn).1.trans (le_of_eq ?_)
      show _ = _ + l.args.factor * _
      ring
    · rintro ⟨k, hk⟩
      have hk' : l.args.factor = k := hk
      show _ = _ + l.args.factor * _
      rw [hk']
      have e : (((l.queueCar.length + cars truck l.com.finished : ℕ) : ℚ)
        + ((l.queueTruck.length + trucks truck l.com.finished : ℕ) : ℚ) * (k : ℚ))
        = (((l.queueCar.length + cars truck l.com.finished)
          + (l.queueTruck.length + trucks truck l.com.finished) * k : ℕ) : ℚ) := by push_cast; ring
      rw [e, ← Int.cast_natCast, trunc_int]
      push_cast
      ring
  | pq l =>
    simp only [MLnk.Link.evolve] at h
    cases h
    exact ⟨trivial, rfl, Iff.rfl, fun _ => rfl, fun h => (h trivial).elim⟩

/-! ### One interval -/

theorem setAttrs_reg {c : Cfg} {s s' : State} {ps : List (ℕ × Args)}
    (h : Res.foldlM (setAttr c) s ps = .ok s') (l : ℕ) (hl : Reg (s.links l).link) :
    Reg (s'.links l).link ∧ (attrs (s'.links l).link).factor = (attrs (s.links l).link).factor := by
  refine Res.foldlM_inv (P := fun t => Reg (t.links l).link ∧
    (attrs (t.links l).link).factor = (attrs (s.links l).link).factor) ?_ _ _ _ ⟨hl, rfl⟩ h
  intro b p b' hb he
  unfold setAttr at he
  split at he
  swap
  · simp at he
  rw [Res.bind_eq_ok'] at he
  obtain ⟨x, hx, he⟩ := he
  cases he
  by_cases e : l = p.1
  · subst e
    simp only [upd_same]
    obtain ⟨a1, a2⟩ := modify_reg hb.1 hx
    exact ⟨a1, a2.trans hb.2⟩
  · simp only [upd_other _ _ _ _ e]; exact hb

theorem pq_iff (x : MLnk.Link ℕ) : pointQueue x ↔ Rec.isPq x = true := by
  cases x <;> simp [pointQueue, Rec.isPq]

theorem linkStep_flag {o : StepOracle} {s s' : State} {l : ℕ} (hi : Inv s.truck (s.links l).link)
    (hr : Reg (s.links l).link) (h : linkStep o s l = .ok s') :
    Flag s.truck (s.links l).link (s'.links l).link := by
  unfold linkStep at h
  rw [Res.bind_eq_ok'] at h
  obtain ⟨x, hx, h⟩ := h
  rw [Res.bind_eq_ok'] at h
  obtain ⟨y, hy, h⟩ := h
  cases h
  obtain ⟨i1, _, _⟩ := clear_inv hi hx
  obtain ⟨a1, a2, a3, a4⟩ := clear_reg hr hx
  have hp : pointQueue x ↔ pointQueue (s.links l).link := by rw [pq_iff, pq_iff, clear_pq hx]
  have F := evolve_flag a1 i1 (fun hn => a4 (fun h => hn (hp.2 h))) hy
  simp only [upd_same]
  obtain ⟨f1, f2, f3, f4, f5⟩ := F
  rw [a2] at f2
  refine ⟨f1, f2, f3.trans hp, fun h => (f4 (hp.2 h)).trans a3, fun h => ?_⟩
  have := f5 (fun h' => h (hp.1 h'))
  rw [a2, a3] at this
  exact this

theorem linksStep_flag {o : StepOracle} : ∀ (ls : List ℕ) (s s' : State), ls.Nodup →
    (∀ l ∈ ls, Inv s.truck (s.links l).link ∧ Reg (s.links l).link) →
    Res.foldlM (linkStep o) s ls = .ok s' →
    ∀ l ∈ ls, Flag s.truck (s.links l).link (s'.links l).link
  | [], s, s', _, _, h => by simp
  | a :: ls, s, s', hn, hi, h => by
    rw [Res.foldlM_cons, Res.bind_eq_ok] at h
    obtain ⟨s1, h1, h2⟩ := h
    rw [List.nodup_cons] at hn
    obtain ⟨a1, a2, _⟩ := linkStep_evolved h1
    obtain ⟨_, b2, _⟩ := linksStep_evolved ls s1 s' hn.2 h2
    have a3 := linkStep_flag (hi a (by simp)).1 (hi a (by simp)).2 h1
    intro l hl
    by_cases e : l = a
    · subst e
      rw [b2 l hn.1]; exact a3
    · have hl' : l ∈ ls := by simpa [e] using hl
      have := linksStep_flag ls s1 s' hn.2 (fun k hk => by
        have hk' : k ≠ a := fun e => hn.1 (e ▸ hk)
        rw [a1, a2 k hk']; exact hi k (by simp [hk])) h2 l hl'
      rw [a1, a2 l e] at this
      exact this

/-- What one interval does to the flag of a link. -/
structure Step (s s' : State) (l : ℕ) : Prop where
  reg : Reg (s'.links l).link
  factor : (attrs (s'.links l).link).factor = (attrs (s.links l).link).factor
  pq : pointQueue (s'.links l).link ↔ pointQueue (s.links l).link
  still : pointQueue (s.links l).link → (s'.links l).link.com.spill = (s.links l).link.com.spill
  keep : (s.links l).link.com.spill = true → (s'.links l).link.com.spill = true
  sound : (s'.links l).link.com.spill = true → (s.links l).link.com.spill = true ∨ Overfull s' l
  complete : ¬ pointQueue (s.links l).link → (∃ k : ℕ, (attrs (s.links l).link).factor = k) → Overfull s' l →
    (s'.links l).link.com.spill = true

theorem loadOnce_step {c : Cfg} (hc : c.net.Ok) (hsc : c.net.scalar ≠ 0) {o : StepOracle} (ho : o.Ok c)
    {ts assign : ℕ} {s s' : State} (h : MInv c ts s) (hr : ∀ l ∈ c.net.linkIds, Reg (s.links l).link)
    (r : loadOnce c o ts assign s = .ok s') : ∀ l ∈ c.net.linkIds, Step s s' l := by
  have hM := loadOnce_inv hc hsc ho h r
  unfold loadOnce at r
  rw [Res.bind_eq_ok'] at r
  obtain ⟨s0, r0, r⟩ := r
  rw [Res.bind_eq_ok'] at r
  obtain ⟨s1, r1, r⟩ := r
  rw [Res.bind_eq_ok'] at r
  obtain ⟨s2, r2, r⟩ := r
  rw [Res.bind_eq_ok'] at r
  obtain ⟨s3, r3, r⟩ := r
  rw [Res.bind_eq_ok'] at r
  obtain ⟨s4, r4, r5⟩ := r
  have L0 := setAttrs_step h.inv r0
  have S0 := setAttrs_same r0
  have h0 := h.attrs L0
  obtain ⟨k, R⟩ := stepRelease_rel ho r1
  have h1 := h0.toMCore.rel hc R
  obtain ⟨T, Te, _⟩ := update_routed r2
  have h2 := h1.routed T Te
  have N := stepNodes_step hc ho r3
  have h3 := h2.node hsc N
  have l2 : s2.links = s0.links := by rw [Te]; exact R.links
  obtain ⟨F1, F2, _⟩ := receives_links r5
  obtain ⟨E1, _, _⟩ := linksStep_evolved _ _ _ hc.links r4
  have reg3 : ∀ l ∈ c.net.linkIds, Reg (s3.links l).link ∧
      (attrs (s3.links l).link).factor = (attrs (s.links l).link).factor ∧
      (s3.links l).link.com.spill = (s.links l).link.com.spill ∧
      (pointQueue (s3.links l).link ↔ pointQueue (s.links l).link) := by
    intro l hl
    obtain ⟨a1, a2⟩ := setAttrs_reg r0 l (hr l hl)
    rw [← l2] at a1 a2
    obtain ⟨b1, b2, b3⟩ := setBoth_reg a1 (s3.fin l) (s3.inc l)
    have b4 := (setBoth_same (s2.links l).link (s3.fin l) (s3.inc l)).1.pq
    rw [← N.link l] at b1 b2 b3 b4
    refine ⟨b1, by rw [b2, a2], ?_, ?_⟩
    · rw [b3, l2, (S0 l).2]
    · rw [pq_iff, pq_iff, b4, l2, (S0 l).1.pq]
  intro l hl
  obtain ⟨a1, a2, a3, a4⟩ := reg3 l hl
  have F := linksStep_flag _ _ _ hc.links (fun l hl => ⟨h3.inv l hl, (reg3 l hl).1⟩) r4 l hl
  have i5 := hM.inv l hl
  have len : ∀ b, ((s'.links l).link.lane s3.truck b).length = cls s'.truck b (s'.on l) := by
    intro b
    rw [← lane_length i5, F2, E1]
  rw [← F1] at F
  obtain ⟨f1, f2, f3, f4, f5⟩ := F
  have pos : ¬ pointQueue (s3.links l).link → 0 < (attrs (s3.links l).link).scalar ∧ 0 < (attrs (s3.links l).link).length := by
    intro hp
    cases e : (s3.links l).link with
    | ctm x => rw [e] at a1; exact ⟨a1.1, a1.2.1⟩
    | lq x => rw [e] at a1; exact ⟨a1.1, a1.2.1⟩
    | pq x => rw [e] at hp; exact (hp trivial).elim
  refine ⟨f1, by rw [f2, a2], f3.trans a4, fun hp => (f4 (a4.2 hp)).trans a3, ?_, ?_, ?_⟩
  · intro hs
    by_cases hp : pointQueue (s3.links l).link
    · rw [f4 hp, a3]; exact hs
    · obtain ⟨n, e, _⟩ := f5 hp
      rw [e, a3, hs]; rfl
  · intro hs
    by_cases hp : pointQueue (s3.links l).link
    · rw [f4 hp, a3] at hs; exact .inl hs
    · obtain ⟨n, e, hle, _⟩ := f5 hp
      rw [e, a3, Bool.or_eq_true, decide_eq_true_eq] at hs
      refine hs.imp id fun hs => ?_
      rw [len, len] at hle
      obtain ⟨q1, q2⟩ := pos hp
      unfold Overfull volume
      simp only
      rw [f2]
      refine hs.trans_le ?_
      gcongr
  · intro hp hk ho
    obtain ⟨n, e, _, he⟩ := f5 (fun h => hp (a4.1 h))
    rw [e]
    have := he (by rw [a2]; exact hk)
    rw [len, len] at this
    unfold Overfull volume at ho
    simp only at ho
    rw [f2, ← this] at ho
    simp [ho]

/-! ### Whole loadings -/

theorem loadMany_snoc {c : Cfg} (o : StepOracle) : ∀ (os : List StepOracle) (ts assign : ℕ) (s : State)
    (r : State × ℕ × ℕ), loadMany c (os ++ [o]) ts assign s = .ok r →
    ∃ q, loadMany c os ts assign s = .ok q ∧ loadOnce c o q.2.1 q.2.2 q.1 = .ok r.1 ∧ q.2.1 = ts + os.length ∧
      r.2.1 = ts + os.length + 1
  | [], ts, assign, p, r, e => by
    simp only [List.nil_append, loadMany] at e
    rw [Res.bind_eq_ok'] at e
    obtain ⟨q, e1, e2⟩ := e
    cases e2
    exact ⟨_, rfl, e1, rfl, rfl⟩
  | o' :: os, ts, assign, p, r, e => by
    simp only [List.cons_append, loadMany] at e
    rw [Res.bind_eq_ok'] at e
    obtain ⟨q, e1, e2⟩ := e
    obtain ⟨q', f1, f2, f3, f4⟩ := loadMany_snoc o os _ _ q r e2
    refine ⟨q', ?_, f2, ?_, ?_⟩
    · simp only [loadMany, e1, Res.bind_ok']; exact f1
    · rw [f3]; simp only [List.length_cons]; omega
    · rw [f4]; simp only [List.length_cons]; omega

/-- What the flag of a link says after a loading. -/
structure RunFlag (c : Cfg) (os : List StepOracle) (assign : ℕ) (s s' : State) (l : ℕ) : Prop where
  reg : Reg (s'.links l).link
  factor : (attrs (s'.links l).link).factor = (attrs (s.links l).link).factor
  pq : pointQueue (s'.links l).link ↔ pointQueue (s.links l).link
  still : pointQueue (s.links l).link → (s'.links l).link.com.spill = false
  sound : (s'.links l).link.com.spill = true → ∃ i < os.length, ∃ after,
    loadMany c (os.take (i + 1)) 0 assign s = .ok after ∧ Overfull after.1 l
  complete : ¬ pointQueue (s.links l).link → (∃ k : ℕ, (attrs (s.links l).link).factor = k) →
    (∃ i < os.length, ∃ after, loadMany c (os.take (i + 1)) 0 assign s = .ok after ∧ Overfull after.1 l) →
    (s'.links l).link.com.spill = true

theorem run_flag {c : Cfg} (hc : c.net.Ok) (hsc : c.net.scalar ≠ 0) {s : State} (hs : Fresh s) {assign : ℕ}
    (os : List StepOracle) : (∀ o ∈ os, o.Ok c) → ∀ r, loadMany c os 0 assign s = .ok r →
    (∀ l ∈ c.net.linkIds, RunFlag c os assign s r.1 l) ∧ MInv c os.length r.1 ∧ r.2.1 = os.length := by
  induction os using List.reverseRecOn with
  | nil =>
    intro _ r h
    simp only [loadMany, Res.ok.injEq] at h
    subst h
    refine ⟨?_, fresh_inv hs, rfl⟩
    intro l _
    obtain ⟨links, rfl, hl⟩ := hs
    obtain ⟨k, a, hk⟩ := (hl l).1
    obtain ⟨m1, m2, m3⟩ := mk_reg hk
    refine ⟨m1, rfl, Iff.rfl, fun _ => m3, fun h => ?_, fun _ _ h => ?_⟩
    · have e : ((State.init links).links l).link.com.spill = false := m3
      simp only at h
      rw [e] at h; simp at h
    · simp at h
  | append_singleton os o ih =>
    intro ho r h
    obtain ⟨p, e1, e2, e3, e4⟩ := loadMany_snoc o os 0 assign _ r h
    obtain ⟨I, M, hn⟩ := ih (fun x hx => ho x (by simp [hx])) p e1
    rw [hn] at e2
    have M' := loadOnce_inv hc hsc (ho o (by simp)) M e2
    have S := loadOnce_step hc hsc (ho o (by simp)) M (fun l hl => (I l hl).reg) e2
    have hlen : (os ++ [o]).length = os.length + 1 := by simp
    rw [hlen]
    refine ⟨?_, M', by rw [e4]; omega⟩
    intro l hl
    obtain ⟨i1, i2, i3, i4, i5, i6⟩ := I l hl
    obtain ⟨t1, t2, t3, t4, t5, t6, t7⟩ := S l hl
    have htake : ∀ i < os.length, (os ++ [o]).take (i + 1) = os.take (i + 1) := fun i hi =>
      List.take_append_of_le_length (by omega)
    refine ⟨t1, t2.trans i2, t3.trans i3, fun hp => (t4 (i3.2 hp)).trans (i4 hp), ?_, ?_⟩
    · intro hf
      rcases t6 hf with hf | hf
      · obtain ⟨i, hi, after, h1, h2⟩ := i5 hf
        exact ⟨i, by rw [hlen]; omega, after, by rw [htake i hi]; exact h1, h2⟩
      · refine ⟨os.length, by rw [hlen]; omega, r, ?_, hf⟩
        rw [← hlen, List.take_length]; exact h
    · rintro hp hk ⟨i, hi, after, h1, h2⟩
      rw [hlen] at hi
      rcases Nat.lt_or_ge i os.length with hlt | hge
      · rw [htake i hlt] at h1
        exact t5 (i6 hp hk ⟨i, hlt, after, h1, h2⟩)
      · have hi' : i = os.length := by omega
        subst hi'
        rw [← hlen, List.take_length, h] at h1
        cases h1
        exact t7 (fun h => hp (i3.1 h)) (by rw [i2]; exact hk) h2

end Verif.Spill

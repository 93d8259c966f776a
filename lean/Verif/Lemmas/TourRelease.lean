import Verif.Lemmas.Tour
import Verif.Lemmas.Ults
import Mathlib.Tactic.NormNum

/-! # Lemmas about the release of vehicles with tours, and about waiting at pick-ups -/

namespace Verif.Tour
open Ults

/-- The vehicles `l` have been made at `oid`. -/
structure Added (oid : ℕ) (l : List Veh) (s s' : State) : Prop where
  num : s'.num = s.num + l.length
  new : ∀ i v, l[i]? = some v → s'.veh (s.num + 1 + i) = v
  old : ∀ v ≤ s.num, s'.veh v = s.veh v
  map : s'.map = s.map ++ List.range' (s.num + 1) l.length
  queue : s'.queue oid = s.queue oid ++ List.range' (s.num + 1) l.length
  others : ∀ o, o ≠ oid → s'.queue o = s.queue o
  out : s'.out = s.out
  road : s'.road = s.road
  finished : s'.finished = s.finished
  total : s'.total = s.total

theorem Added.refl (oid : ℕ) (s : State) : Added oid [] s s := by
  constructor <;> simp

theorem Added.trans {oid : ℕ} {l l' : List Veh} {s s1 s2 : State} (h : Added oid l s s1) (h' : Added oid l' s1 s2) :
    Added oid (l ++ l') s s2 := by
  have e : s1.num + 1 = s.num + 1 + l.length := by rw [h.num]; omega
  refine ⟨?_, ?_, ?_, ?_, ?_, ?_, h'.out.trans h.out, h'.road.trans h.road, h'.finished.trans h.finished,
    h'.total.trans h.total⟩
  · rw [h'.num, h.num, List.length_append, Nat.add_assoc]
  · intro i v hi
    by_cases hl : i < l.length
    · rw [List.getElem?_append_left hl] at hi
      rw [h'.old _ (by rw [h.num]; omega)]
      exact h.new i v hi
    · rw [List.getElem?_append_right (by omega)] at hi
      have := h'.new _ v hi
      rw [e] at this
      rw [← this]
      congr 1
      omega
  · intro v hv
    rw [h'.old v (by rw [h.num]; omega), h.old v hv]
  · rw [h'.map, h.map, e, List.length_append, List.append_assoc, List.range'_append_1]
  · rw [h'.queue, h.queue, e, List.length_append, List.append_assoc, List.range'_append_1]
  · intro o ho
    rw [h'.others o ho, h.others o ho]

theorem added_make {oid : ℕ} {s : State} {v : Veh} (ho : v.origin = oid) : Added oid [v] s (s.make v) := by
  subst ho
  refine ⟨rfl, ?_, ?_, rfl, ?_, ?_, rfl, rfl, rfl, rfl⟩
  · intro i w hi
    obtain ⟨rfl, rfl⟩ : i = 0 ∧ v = w := by
      cases i with
      | zero => exact ⟨rfl, by simpa using hi⟩
      | succ i => simp at hi
    simp [State.make]
  · intro w hw
    show upd s.veh (s.num + 1) v w = _
    exact upd_other _ _ _ _ (by omega)
  · show upd s.queue v.origin _ v.origin = _
    rw [upd_same]
    rfl
  · intro o ho
    exact upd_other _ _ _ _ ho

theorem added_makeMany {oid : ℕ} {f : ℕ → Veh} (hf : ∀ i, (f i).origin = oid) (n : ℕ) (s : State) :
    Added oid ((List.range' (s.num + 1) n).map f) s (makeMany f n s) := by
  induction n generalizing s with
  | zero => exact Added.refl _ _
  | succ n ih =>
    have h1 : Added oid [f (s.num + 1)] s (s.make (f (s.num + 1))) := added_make (hf _)
    have := h1.trans (ih (s.make (f (s.num + 1))))
    rw [List.range'_succ]
    exact this

/-- The key of a vehicle: its tour and its destination. -/
def Veh.key (v : Veh) : Option (List (ℕ × ℕ)) × ℕ := (v.seq, v.dest)

theorem single_key (c : Cfg) (oid : ℕ) (orc : ReleaseOracle) (ts d id : ℕ) :
    (single c oid orc ts d id).key = (none, d) := by
  unfold single
  simp only
  split
  · split <;> rfl
  · rfl

theorem touring_key (c : Cfg) (oid : ℕ) (orc : ReleaseOracle) (ts d id : ℕ) (sq : List (ℕ × ℕ)) :
    (touring c oid orc ts sq d id).key = (some sq, d) := by
  unfold touring
  simp only
  split <;> rfl

theorem isEv_iff {c : Cfg} {l : ℤ} : c.isEv l = true ↔ (c.evLabel = some l ∧ 0 ≤ l) := by
  unfold Cfg.isEv
  split
  · rename_i h
    simp [h]
  · rename_i e h
    rw [h]
    simp only [decide_eq_true_eq, Option.some.injEq]
    constructor
    · rintro ⟨a, rfl⟩
      exact ⟨rfl, a⟩
    · rintro ⟨rfl, a⟩
      exact ⟨a, rfl⟩

theorem single_released (c : Cfg) (oid : ℕ) (orc : ReleaseOracle) (ts d id : ℕ) :
    Released c oid orc ts id (single c oid orc ts d id) := by
  unfold single
  simp only
  split
  case isTrue h =>
    have he := isEv_iff.1 h
    split
    case isTrue hr =>
      refine ⟨rfl, rfl, rfl, ?_, rfl, rfl, rfl, ?_, ?_, ?_⟩
      · push_cast; rfl
      · exact ⟨fun _ => he, fun _ => rfl⟩
      · rintro e ⟨⟩
        simp [Chg.Ev.make, hr]
      · simp [Chg.Ev.make]
    case isFalse hr =>
      refine ⟨rfl, rfl, rfl, ?_, rfl, rfl, rfl, ?_, ?_, ?_⟩
      · push_cast; rfl
      · exact ⟨fun _ => he, fun _ => rfl⟩
      · rintro e ⟨⟩
        simp [Chg.Ev.make, hr]
      · simp [Chg.Ev.make]
  case isFalse h =>
    refine ⟨rfl, rfl, rfl, ?_, rfl, rfl, rfl, ?_, ?_, ?_⟩
    · push_cast; rfl
    · exact ⟨fun hx => by simp at hx, fun hx => absurd (isEv_iff.2 hx) h⟩
    · intro e he
      cases he
    · simp

theorem touring_released (c : Cfg) (oid : ℕ) (orc : ReleaseOracle) (ts d id : ℕ) (sq : List (ℕ × ℕ)) :
    Released c oid orc ts id (touring c oid orc ts sq d id) := by
  unfold touring
  simp only
  split
  case isTrue h =>
    have he := isEv_iff.1 h
    refine ⟨rfl, rfl, rfl, ?_, rfl, rfl, rfl, ?_, ?_, ?_⟩
    · push_cast; rfl
    · exact ⟨fun _ => he, fun _ => rfl⟩
    · rintro e ⟨⟩
      simp [Chg.Ev.make]
    · by_cases hr : orc.road id ≤ (c.origin oid).roadside
      · have : (c.rangeRoadside ≤ 10⁻¹ * c.full) ↔ (c.rangeRoadside ≤ c.full / 10) := by
          rw [div_eq_inv_mul]
        by_cases hx : c.rangeRoadside ≤ c.full / 10
        · simp [Chg.Ev.make, hr, Chg.Ev.needCharging, this, hx]
        · simp [Chg.Ev.make, hr, Chg.Ev.needCharging, this, hx]
      · simp [Chg.Ev.make, hr]
  case isFalse h =>
    refine ⟨rfl, rfl, rfl, ?_, rfl, rfl, rfl, ?_, ?_, ?_⟩
    · push_cast; rfl
    · exact ⟨fun hx => by simp at hx, fun hx => absurd (isEv_iff.2 hx) h⟩
    · intro e he
      cases he
    · simp

/-- The vehicles `l` are released vehicles with numbers from `n` on. -/
def AllReleased (c : Cfg) (oid : ℕ) (orc : ReleaseOracle) (ts n : ℕ) (l : List Veh) : Prop :=
  ∀ i v, l[i]? = some v → Released c oid orc ts (n + 1 + i) v

theorem AllReleased.append {c : Cfg} {oid : ℕ} {orc : ReleaseOracle} {ts n : ℕ} {l l' : List Veh}
    (h : AllReleased c oid orc ts n l) (h' : AllReleased c oid orc ts (n + l.length) l') :
    AllReleased c oid orc ts n (l ++ l') := by
  intro i v hi
  by_cases hl : i < l.length
  · rw [List.getElem?_append_left hl] at hi
    exact h i v hi
  · rw [List.getElem?_append_right (by omega)] at hi
    have := h' _ v hi
    have e : n + l.length + 1 + (i - l.length) = n + 1 + i := by omega
    rwa [e] at this

theorem AllReleased.many {c : Cfg} {oid : ℕ} {orc : ReleaseOracle} {ts n k : ℕ} {f : ℕ → Veh}
    (h : ∀ i, Released c oid orc ts i (f i)) : AllReleased c oid orc ts n ((List.range' (n + 1) k).map f) := by
  intro i v hi
  by_cases hk : i < k
  · rw [List.getElem?_map, List.getElem?_range' hk] at hi
    simp at hi
    rw [← hi]
    exact h _
  · rw [List.getElem?_eq_none (by simpa using Nat.le_of_not_lt hk)] at hi
    cases hi

theorem rounded_of {x u : ℚ} {n : ℤ} (h0 : 0 ≤ x) (h : round x u = .ok n) : Rounded x u n.toNat := by
  rw [round_ok h]
  have hnn := roundVal_natCast_nonneg (u := u) h0
  have hz : (((roundVal x u).toNat : ℕ) : ℤ) = roundVal x u := by omega
  unfold Rounded
  rw [hz, roundVal_nonneg h0]
  split
  · rename_i hf; exact Or.inr ⟨rfl, hf⟩
  · rename_i hf; exact Or.inl ⟨rfl, not_lt.1 hf⟩

theorem keys_many {f : ℕ → Veh} {k : Option (List (ℕ × ℕ)) × ℕ} (hf : ∀ i, (f i).key = k) (a n : ℕ) :
    ((List.range' a n).map f).map Veh.key = List.replicate n k := by
  rw [List.map_map, List.eq_replicate_iff]
  refine ⟨by simp, ?_⟩
  intro b hb
  obtain ⟨i, -, rfl⟩ := List.mem_map.1 hb
  exact hf i

theorem releaseDests_added {c : Cfg} {oid : ℕ} {orc : ReleaseOracle} {ts assign : ℕ} (l : List (ℕ × (ℕ → ℚ))) {k : ℕ}
    (h0 : ∀ p ∈ l, 0 ≤ p.2 assign * c.scalar) {s s' : State} (r : releaseDests c oid orc ts assign k l s = .ok s') :
    ∃ (vs : List Veh) (ns : List ℕ), Added oid vs s s' ∧ AllReleased c oid orc ts s.num vs ∧ ns.length = l.length ∧
      (∀ i d f n, l[i]? = some (d, f) → ns[i]? = some n → Rounded (f assign * c.scalar) (orc.u (k + i)) n) ∧
      vs.map Veh.key = (l.zip ns).flatMap (fun p => List.replicate p.2 (none, p.1.1)) := by
  induction l generalizing s k with
  | nil =>
    obtain rfl := Res.ok.inj r
    exact ⟨[], [], Added.refl _ _, fun i v hi => by simp at hi, rfl, fun i d f n hi => by simp at hi, rfl⟩
  | cons x rest ih =>
    obtain ⟨d, dem⟩ := x
    unfold releaseDests at r
    rw [Res.bind_eq_ok'] at r
    obtain ⟨n, hn, r⟩ := r
    obtain ⟨vs, ns, a1, a2, a3, a4, a5⟩ := ih (fun p hp => h0 p (List.mem_cons_of_mem _ hp)) r
    have b1 := added_makeMany (f := single c oid orc ts d) (fun i => (single_fresh c oid orc ts d i).2) n.toNat s
    refine ⟨_, n.toNat :: ns, b1.trans a1, ?_, by simp [a3], ?_, ?_⟩
    · refine AllReleased.append (AllReleased.many (single_released c oid orc ts d)) ?_
      rw [b1.num] at a2
      exact a2
    · intro i d' f m hi hm
      cases i with
      | zero =>
        simp only [List.getElem?_cons_zero, Option.some.injEq, Prod.mk.injEq] at hi hm
        obtain ⟨rfl, rfl⟩ := hi
        subst hm
        exact rounded_of (h0 _ (List.mem_cons_self ..)) hn
      | succ i =>
        have := a4 i d' f m (by simpa using hi) (by simpa using hm)
        rwa [show k + 1 + i = k + (i + 1) by omega] at this
    · rw [List.map_append, keys_many (single_key c oid orc ts d), a5]
      rfl

theorem releaseTours_added {c : Cfg} {oid : ℕ} {orc : ReleaseOracle} {ts assign : ℕ}
    (l : List (List (ℕ × ℕ) × (ℕ → ℚ))) (hl : ∀ t ∈ l, ∃ d rest, t.1 = (oid, d) :: rest) {k : ℕ}
    (h0 : ∀ p ∈ l, 0 ≤ p.2 assign * c.scalar) {s s' : State} (r : releaseTours c oid orc ts assign k l s = .ok s') :
    ∃ (vs : List Veh) (ns : List ℕ), Added oid vs s s' ∧ AllReleased c oid orc ts s.num vs ∧ ns.length = l.length ∧
      (∀ i sq f n, l[i]? = some (sq, f) → ns[i]? = some n → Rounded (f assign * c.scalar) (orc.u' (k + i)) n) ∧
      vs.map Veh.key = (l.zip ns).flatMap
        (fun p => List.replicate p.2 (some p.1.1, ((p.1.1.head?.map Prod.snd).getD 0))) := by
  induction l generalizing s k with
  | nil =>
    obtain rfl := Res.ok.inj r
    exact ⟨[], [], Added.refl _ _, fun i v hi => by simp at hi, rfl, fun i d f n hi => by simp at hi, rfl⟩
  | cons x rest ih =>
    obtain ⟨sq, dem⟩ := x
    obtain ⟨d, sq', rfl⟩ : ∃ d rest, sq = (oid, d) :: rest := hl _ (List.mem_cons_self ..)
    unfold releaseTours at r
    rw [Res.bind_eq_ok'] at r
    obtain ⟨n, hn, r⟩ := r
    obtain ⟨vs, ns, a1, a2, a3, a4, a5⟩ := ih (fun t ht => hl t (List.mem_cons_of_mem _ ht))
      (fun p hp => h0 p (List.mem_cons_of_mem _ hp)) r
    have b1 := added_makeMany (f := touring c oid orc ts ((oid, d) :: sq') d)
      (fun i => (touring_fresh c oid orc ts d i sq').2) n.toNat s
    refine ⟨_, n.toNat :: ns, b1.trans a1, ?_, by simp [a3], ?_, ?_⟩
    · refine AllReleased.append (AllReleased.many fun i => touring_released c oid orc ts d i _) ?_
      rw [b1.num] at a2
      exact a2
    · intro i d' f m hi hm
      cases i with
      | zero =>
        simp only [List.getElem?_cons_zero, Option.some.injEq, Prod.mk.injEq] at hi hm
        obtain ⟨rfl, rfl⟩ := hi
        subst hm
        exact rounded_of (h0 _ (List.mem_cons_self ..)) hn
      | succ i =>
        have := a4 i d' f m (by simpa using hi) (by simpa using hm)
        rwa [show k + 1 + i = k + (i + 1) by omega] at this
    · rw [List.map_append, keys_many (fun i => touring_key c oid orc ts d i _), a5]
      rfl

theorem adjustVeh_veh {c : Cfg} {r : ℕ → ℚ} {s : State} {v : ℕ} :
    (∀ u, u ≠ v → (adjustVeh c r s v).veh u = s.veh u) ∧
    ((s.veh v).ev = none ∨ (s.veh v).seq = none → (adjustVeh c r s v).veh v = s.veh v) ∧
    (∀ e sq, (s.veh v).ev = some e → (s.veh v).seq = some sq → (adjustVeh c r s v).veh v =
      { s.veh v with adaptive := if e.needCharging then true else decide (r v ≤ c.ratio) }) ∧
    (adjustVeh c r s v).queue = s.queue ∧ (adjustVeh c r s v).map = s.map := by
  unfold adjustVeh
  split
  case h_1 e sq he hs =>
    refine ⟨fun u hu => upd_other _ _ _ _ hu, ?_, ?_, rfl, rfl⟩
    · rintro (h | h)
      · rw [he] at h
        cases h
      · rw [hs] at h
        cases h
    · intro e' sq' h h'
      rw [he] at h
      obtain rfl := Option.some.inj h
      exact upd_same _ _ _
  case h_2 hx =>
    refine ⟨fun _ _ => rfl, fun _ => rfl, ?_, rfl, rfl⟩
    intro e sq h h'
    exact absurd h' (hx e sq h)

theorem adjust_fold {c : Cfg} {r : ℕ → ℚ} (l : List ℕ) (s : State) (v : ℕ) :
    (v ∉ l ∨ (s.veh v).ev = none ∨ (s.veh v).seq = none → (l.foldl (adjustVeh c r) s).veh v = s.veh v) ∧
    (∀ e sq, v ∈ l → (s.veh v).ev = some e → (s.veh v).seq = some sq → (l.foldl (adjustVeh c r) s).veh v =
      { s.veh v with adaptive := if e.needCharging then true else decide (r v ≤ c.ratio) }) ∧
    (l.foldl (adjustVeh c r) s).queue = s.queue ∧ (l.foldl (adjustVeh c r) s).map = s.map := by
  induction l generalizing s with
  | nil => exact ⟨fun _ => rfl, fun e sq h => by simp at h, rfl, rfl⟩
  | cons u l ih =>
    obtain ⟨i1, i2, i3, i4⟩ := ih (adjustVeh c r s u)
    obtain ⟨a1, a2, a3, a4, a5⟩ := adjustVeh_veh (c := c) (r := r) (s := s) (v := u)
    have hcons : (u :: l).foldl (adjustVeh c r) s = l.foldl (adjustVeh c r) (adjustVeh c r s u) := rfl
    rw [hcons]
    refine ⟨?_, ?_, i3.trans a4, i4.trans a5⟩
    · intro h
      by_cases huv : v = u
      · subst huv
        have h' : (s.veh v).ev = none ∨ (s.veh v).seq = none := by
          rcases h with h | h
          · simp at h
          · exact h
        have e := a2 h'
        rw [i1 (Or.inr (by rw [e]; exact h')), e]
      · have e := a1 v huv
        rw [i1, e]
        rw [e]
        rcases h with h | h
        · exact Or.inl fun hx => h (List.mem_cons_of_mem _ hx)
        · exact Or.inr h
    · intro e sq hv he hs
      by_cases huv : v = u
      · subst huv
        have e1 := a3 e sq he hs
        by_cases hl : v ∈ l
        · rw [i2 e sq hl (by rw [e1]; exact he) (by rw [e1]; exact hs), e1]
        · rw [i1 (Or.inl hl), e1]
      · have e1 := a1 v huv
        have hl : v ∈ l := (List.mem_cons.1 hv).resolve_left huv
        rw [i2 e sq hl (by rw [e1]; exact he) (by rw [e1]; exact hs), e1]

/-! ## Waiting at pick-ups -/

/-- What the loop of `clear_incoming_array` does. -/
structure LetIn (delayed : ℕ → Bool) (m : ℚ) (vs : List ℕ) (w : ℕ → ℤ) (r : List ℕ × List ℕ × (ℕ → ℤ)) : Prop where
  perm : (r.1 ++ r.2.1).Perm vs
  stay : r.1.Sublist vs
  enter : r.2.1.Sublist vs
  ready : ∀ v ∈ r.2.1, delayed v = true → w v ≤ 0
  room : ∀ v ∈ r.1, (delayed v = true ∧ 0 < w v) ∨ m ≤ r.2.1.length
  down : ∀ v ∈ r.1, w v - 1 ≤ r.2.2 v ∧ r.2.2 v ≤ w v
  tick : ∀ v ∈ r.1, m ≤ r.2.1.length ∨ r.2.2 v = w v - 1
  other : ∀ v, v ∉ vs → r.2.2 v = w v
  bound : r.2.1 = [] ∨ (r.2.1.length : ℚ) < m + 1

theorem letIn_spec (delayed : ℕ → Bool) (m : ℚ) (vs : List ℕ) (w : ℕ → ℤ) (hn : vs.Nodup) :
    LetIn delayed m vs w (letIn delayed m vs w) := by
  induction vs generalizing m w with
  | nil => constructor <;> simp [letIn]
  | cons v vs ih =>
    obtain ⟨hv, hn'⟩ := List.nodup_cons.1 hn
    unfold letIn
    split
    case isFalse hm =>
      have hm : m ≤ 0 := not_lt.1 hm
      refine ⟨by simp, by simp, by simp, by simp, fun _ _ => Or.inr (by simpa using hm), fun u _ => ⟨by simp, le_refl _⟩,
        fun _ _ => Or.inl (by simpa using hm), fun _ _ => rfl, Or.inl rfl⟩
    case isTrue hm =>
    split
    case isTrue hd =>
      obtain ⟨hd1, hd2⟩ : delayed v = true ∧ 0 < w v := by simpa using hd
      have I := ih m (upd w v (w v - 1)) hn'
      have hw : ∀ u ∈ vs, upd w v (w v - 1) u = w u := fun u hu => upd_other _ _ _ _ fun e => hv (e ▸ hu)
      refine ⟨?_, ?_, ?_, ?_, ?_, ?_, ?_, ?_, I.bound⟩
      · exact List.Perm.cons v I.perm
      · exact I.stay.cons_cons v
      · exact I.enter.cons v
      · intro u hu h
        have := I.ready u hu h
        rwa [hw u (I.enter.subset hu)] at this
      · intro u hu
        rcases List.mem_cons.1 hu with rfl | hu
        · exact Or.inl ⟨hd1, hd2⟩
        · have := I.room u hu
          rwa [hw u (I.stay.subset hu)] at this
      · intro u hu
        rcases List.mem_cons.1 hu with rfl | hu
        · show w u - 1 ≤ (letIn delayed m vs (upd w u (w u - 1))).2.2 u ∧ _
          rw [I.other u hv, upd_same]
          omega
        · have := I.down u hu
          rwa [hw u (I.stay.subset hu)] at this
      · intro u hu
        rcases List.mem_cons.1 hu with rfl | hu
        · right
          show (letIn delayed m vs (upd w u (w u - 1))).2.2 u = _
          rw [I.other u hv, upd_same]
        · have := I.tick u hu
          rwa [hw u (I.stay.subset hu)] at this
      · intro u hu
        have hu : u ≠ v ∧ u ∉ vs := by simpa using hu
        show (letIn delayed m vs (upd w v (w v - 1))).2.2 u = _
        rw [I.other u hu.2, upd_other _ _ _ _ hu.1]
    case isFalse hd =>
      have hd : delayed v = true → w v ≤ 0 := by
        intro h
        by_contra hx
        exact hd (by simp [h]; omega)
      generalize hw' : (if delayed v then upd w v 0 else w) = w'
      have hw : ∀ u, u ≠ v → w' u = w u := by
        intro u hu
        rw [← hw']
        split
        · exact upd_other _ _ _ _ hu
        · rfl
      have hne : ∀ u ∈ vs, u ≠ v := fun u hu e => hv (e ▸ hu)
      have I := ih (m - 1) w' hn'
      refine ⟨?_, ?_, ?_, ?_, ?_, ?_, ?_, ?_, ?_⟩
      · exact List.perm_middle.trans (List.Perm.cons v I.perm)
      · exact I.stay.cons v
      · exact I.enter.cons_cons v
      · intro u hu h
        rcases List.mem_cons.1 hu with rfl | hu
        · exact hd h
        · have := I.ready u hu h
          rwa [hw u (hne u (I.enter.subset hu))] at this
      · intro u hu
        have := I.room u hu
        rw [hw u (hne u (I.stay.subset hu))] at this
        rcases this with h | h
        · exact Or.inl h
        · right
          simp only [List.length_cons, Nat.cast_add, Nat.cast_one]
          linarith
      · intro u hu
        have := I.down u hu
        rwa [hw u (hne u (I.stay.subset hu))] at this
      · intro u hu
        have := I.tick u hu
        rw [hw u (hne u (I.stay.subset hu))] at this
        rcases this with h | h
        · left
          simp only [List.length_cons, Nat.cast_add, Nat.cast_one]
          linarith
        · exact Or.inr h
      · intro u hu
        have hu : u ≠ v ∧ u ∉ vs := by simpa using hu
        show (letIn delayed (m - 1) vs w').2.2 u = _
        rw [I.other u hu.2, hw u hu.1]
      · right
        rcases I.bound with h | h
        · simp [h, hm]
        · simp only [List.length_cons, Nat.cast_add, Nat.cast_one]
          linarith

theorem Pq.run_append (l : Pq) (xs : List Coming) (x : Coming) (ts : ℕ) :
    l.run (xs ++ [x]) ts = (l.run xs ts).step (ts + xs.length) x := by
  induction xs generalizing l ts with
  | nil => rfl
  | cons y xs ih =>
    show (l.step ts y).run (xs ++ [x]) (ts + 1) = _
    rw [ih, List.length_cons, show ts + 1 + xs.length = ts + (xs.length + 1) by omega]
    rfl

theorem comes_append (xs : List Coming) (x : Coming) (ts : ℕ) :
    comes (xs ++ [x]) ts = comes xs ts ++ x.ins.map fun p => (ts + xs.length, p.1, p.2) := by
  induction xs generalizing ts with
  | nil => simp [comes]
  | cons y xs ih =>
    show _ ++ comes (xs ++ [x]) (ts + 1) = _ ++ comes xs (ts + 1) ++ _
    rw [ih, List.append_assoc, List.length_cons, show ts + 1 + xs.length = ts + (xs.length + 1) by omega]

theorem come_other (ins : List (ℕ × ℤ)) (w : ℕ → ℤ) (v : ℕ) (hv : v ∉ ins.map (·.1)) :
    ins.foldl (fun w p => upd w p.1 p.2) w v = w v := by
  induction ins generalizing w with
  | nil => rfl
  | cons p ins ih =>
    have hv : v ≠ p.1 ∧ v ∉ ins.map (·.1) := by simpa using hv
    show ins.foldl _ (upd w p.1 p.2) v = _
    rw [ih _ hv.2, upd_other _ _ _ _ hv.1]

theorem come_mem (ins : List (ℕ × ℤ)) (w : ℕ → ℤ) (hn : (ins.map (·.1)).Nodup) (p : ℕ × ℤ) (hp : p ∈ ins) :
    ins.foldl (fun w p => upd w p.1 p.2) w p.1 = p.2 := by
  induction ins generalizing w with
  | nil => simp at hp
  | cons q ins ih =>
    obtain ⟨h1, h2⟩ := List.nodup_cons.1 hn
    show ins.foldl _ (upd w q.1 q.2) p.1 = _
    rcases List.mem_cons.1 hp with rfl | hp
    · rw [come_other ins _ _ h1, upd_same]
    · exact ih _ h2 hp

/-- What holds at a point queue after the intervals `xs`. -/
structure PqInv (l0 : Pq) (xs : List Coming) (l : Pq) : Prop where
  supply : l.supply = l0.supply
  atOrigin : l.atOrigin = l0.atOrigin
  delivery : l.delivery = l0.delivery
  perm : (l.incoming ++ l.log.map (·.2)).Perm ((comes xs 0).map (·.2.1))
  before : ∀ t v w, (t, v, w) ∈ comes xs 0 → t < xs.length
  wait : ∀ t v w, (t, v, w) ∈ comes xs 0 → v ∈ l.incoming → w - (xs.length - t) ≤ l.wait v
  log : ∀ t v w t', (t, v, w) ∈ comes xs 0 → (t', v) ∈ l.log → t + l0.must v w ≤ t' ∧ t' < xs.length
  few : ∀ t, (l.log.filter (·.1 = t)) = [] ∨ ((l.log.filter (·.1 = t)).length : ℚ) < l0.supply + 1
  exact : ((comes xs 0).length : ℚ) ≤ l0.supply →
    (∀ t v w, (t, v, w) ∈ comes xs 0 → v ∈ l.incoming →
      (l0.atOrigin && l0.delivery v) = true ∧ l.wait v = w - (xs.length - t) ∧ 0 ≤ l.wait v) ∧
    (∀ t v w t', (t, v, w) ∈ comes xs 0 → (t', v) ∈ l.log → t' = t + l0.must v w)

theorem pq_inv (sup : ℚ) (at' : Bool) (del : ℕ → Bool) (xs : List Coming)
    (hn : ((comes xs 0).map (·.2.1)).Nodup) :
    PqInv (Pq.empty sup at' del) xs ((Pq.empty sup at' del).run xs 0) := by
  induction xs using List.reverseRecOn with
  | nil =>
    constructor <;> simp [Pq.run, Pq.empty, comes]
  | append_singleton xs x ih =>
    rw [Pq.run_append, Nat.zero_add]
    have hn0 := hn
    rw [comes_append, List.map_append, Nat.zero_add, List.map_map] at hn
    obtain ⟨n1, n2, n3⟩ := List.nodup_append.1 hn
    have n2' : (x.ins.map (·.1)).Nodup := n2
    have I := ih n1
    generalize hl : (Pq.empty sup at' del).run xs 0 = l at I
    generalize hl0 : Pq.empty sup at' del = l0 at I
    have nd : (l.incoming ++ l.log.map (·.2)).Nodup := I.perm.nodup_iff.2 n1
    have old : ∀ v, v ∈ l.incoming ++ l.log.map (·.2) → v ∉ x.ins.map (·.1) := by
      intro v hv hx
      exact n3 v (I.perm.mem_iff.1 hv) v hx rfl
    have oldc : ∀ t v w, (t, v, w) ∈ comes xs 0 → v ∉ x.ins.map (·.1) := by
      intro t v w hv hx
      exact n3 v (List.mem_map.2 ⟨_, hv, rfl⟩) v hx rfl
    have nd2 : (l.incoming ++ x.ins.map (·.1)).Nodup := by
      rw [List.nodup_append]
      refine ⟨(List.nodup_append.1 nd).1, n2', ?_⟩
      intro a ha b hb e
      exact old a (List.mem_append_left _ ha) (e ▸ hb)
    have R := letIn_spec (fun v => l.atOrigin && l.delivery v) l.supply (l.incoming ++ x.ins.map (·.1))
      (x.ins.foldl (fun w p => upd w p.1 p.2) l.wait) nd2
    have hinc : (l.step xs.length x).incoming = (letIn (fun v => l.atOrigin && l.delivery v) l.supply
      (l.incoming ++ x.ins.map (·.1)) (x.ins.foldl (fun w p => upd w p.1 p.2) l.wait)).1 := rfl
    have hwait : (l.step xs.length x).wait = (letIn (fun v => l.atOrigin && l.delivery v) l.supply
      (l.incoming ++ x.ins.map (·.1)) (x.ins.foldl (fun w p => upd w p.1 p.2) l.wait)).2.2 := rfl
    have hlog : (l.step xs.length x).log = l.log ++ ((letIn (fun v => l.atOrigin && l.delivery v) l.supply
      (l.incoming ++ x.ins.map (·.1)) (x.ins.foldl (fun w p => upd w p.1 p.2) l.wait)).2.1).map
        fun v => (xs.length, v) := rfl
    generalize letIn (fun v => l.atOrigin && l.delivery v) l.supply (l.incoming ++ x.ins.map (·.1))
      (x.ins.foldl (fun w p => upd w p.1 p.2) l.wait) = r at R hinc hwait hlog
    have wold : ∀ v, v ∉ x.ins.map (·.1) → x.ins.foldl (fun w p => upd w p.1 p.2) l.wait v = l.wait v :=
      fun v hv => come_other _ _ _ hv
    have wnew : ∀ v w, (v, w) ∈ x.ins → x.ins.foldl (fun w p => upd w p.1 p.2) l.wait v = w :=
      fun v w hv => come_mem _ _ n2' (v, w) hv
    generalize x.ins.foldl (fun w p => upd w p.1 p.2) l.wait = W at R wold wnew
    have dl : ∀ v, (l.atOrigin && l.delivery v) = (l0.atOrigin && l0.delivery v) := by
      intro v
      rw [I.atOrigin, I.delivery]
    have cm : ∀ t v w, (t, v, w) ∈ comes (xs ++ [x]) 0 ↔
        ((t, v, w) ∈ comes xs 0 ∨ (t = xs.length ∧ (v, w) ∈ x.ins)) := by
      intro t v w
      rw [comes_append, List.mem_append, Nat.zero_add, List.mem_map]
      refine or_congr Iff.rfl ⟨?_, ?_⟩
      · rintro ⟨⟨a, b⟩, h, e⟩
        cases e
        exact ⟨rfl, h⟩
      · rintro ⟨rfl, h⟩
        exact ⟨_, h, rfl⟩
    have instay : ∀ v, v ∈ r.1 → v ∈ l.incoming ++ x.ins.map (·.1) := fun v hv => R.stay.subset hv
    have inenter : ∀ v, v ∈ r.2.1 → v ∈ l.incoming ++ x.ins.map (·.1) := fun v hv => R.enter.subset hv
    -- a vehicle with an old arrival is old
    have oldin : ∀ t v w, (t, v, w) ∈ comes xs 0 → v ∈ l.incoming ++ x.ins.map (·.1) → v ∈ l.incoming := by
      intro t v w hc hv
      rcases List.mem_append.1 hv with hv | hv
      · exact hv
      · exact absurd hv (oldc t v w hc)
    have mustw : ∀ v w, (l0.atOrigin && l0.delivery v) = true → l0.must v w = w.toNat := by
      intro v w h
      unfold Pq.must
      rw [if_pos h]
    have must0 : ∀ v w, ¬ (l0.atOrigin && l0.delivery v) = true → l0.must v w = 0 := by
      intro v w h
      unfold Pq.must
      rw [if_neg h]
    have len : (xs ++ [x]).length = xs.length + 1 := by simp
    have newlog : ∀ t' v, (t', v) ∈ (l.step xs.length x).log ↔ ((t', v) ∈ l.log ∨ (t' = xs.length ∧ v ∈ r.2.1)) := by
      intro t' v
      rw [hlog, List.mem_append, List.mem_map]
      refine or_congr Iff.rfl ⟨?_, ?_⟩
      · rintro ⟨a, h, e⟩
        cases e
        exact ⟨rfl, h⟩
      · rintro ⟨rfl, h⟩
        exact ⟨_, h, rfl⟩
    -- a vehicle that enters in this interval has not entered before
    have nolog : ∀ v w t', (v, w) ∈ x.ins → (t', v) ∉ l.log := by
      intro v w t' hi hx
      exact old v (List.mem_append_right _ (List.mem_map.2 ⟨_, hx, rfl⟩)) (List.mem_map.2 ⟨_, hi, rfl⟩)
    refine ⟨I.supply, I.atOrigin, I.delivery, ?_, ?_, ?_, ?_, ?_, ?_⟩
    · rw [hinc, hlog, comes_append, List.map_append, List.map_append, List.map_map, List.map_map]
      have e1 : (r.2.1.map ((·.2) ∘ fun v => (xs.length, v))) = r.2.1 := by
        rw [show ((·.2) ∘ fun v : ℕ => (xs.length, v)) = id from rfl, List.map_id]
      rw [e1]
      show (r.1 ++ (l.log.map (·.2) ++ r.2.1)).Perm ((comes xs 0).map (·.2.1) ++ x.ins.map (·.1))
      refine List.Perm.trans ?_ (I.perm.append_right _)
      have p1 : (r.1 ++ (l.log.map (·.2) ++ r.2.1)).Perm (r.1 ++ (r.2.1 ++ l.log.map (·.2))) :=
        List.Perm.append_left _ List.perm_append_comm
      refine p1.trans ?_
      rw [← List.append_assoc]
      refine (R.perm.append_right _).trans ?_
      rw [List.append_assoc, List.append_assoc]
      exact List.Perm.append_left _ List.perm_append_comm
    · intro t v w h
      rw [len]
      rcases (cm t v w).1 h with h | ⟨rfl, -⟩
      · have := I.before t v w h
        omega
      · omega
    · intro t v w h hv
      rw [hinc] at hv
      rw [hwait, len]
      have hd := R.down v hv
      rcases (cm t v w).1 h with h | ⟨e, h⟩
      · have h1 := oldin t v w h (instay v hv)
        have h2 := I.wait t v w h h1
        rw [wold v (oldc t v w h)] at hd
        have h3 := I.before t v w h
        push_cast
        omega
      · rw [wnew v w h] at hd
        push_cast
        omega
    · intro t v w t' h hv
      rw [len]
      rcases (newlog t' v).1 hv with hv | ⟨e', hv⟩
      · rcases (cm t v w).1 h with h | ⟨e, h⟩
        · have := I.log t v w t' h hv
          omega
        · exact absurd hv (nolog v w t' h)
      · refine ⟨?_, by omega⟩
        rcases (cm t v w).1 h with h | ⟨e, h⟩
        · have h1 := oldin t v w h (inenter v hv)
          have h2 := I.wait t v w h h1
          have h3 := I.before t v w h
          by_cases hd : (l0.atOrigin && l0.delivery v) = true
          · have h4 := R.ready v hv ((dl v).trans hd)
            rw [wold v (oldc t v w h)] at h4
            rw [mustw v w hd]
            omega
          · rw [must0 v w hd]
            omega
        · by_cases hd : (l0.atOrigin && l0.delivery v) = true
          · have h4 := R.ready v hv ((dl v).trans hd)
            rw [wnew v w h] at h4
            rw [mustw v w hd]
            omega
          · rw [must0 v w hd]
            omega
    · intro t
      rw [hlog, List.filter_append]
      by_cases ht : t = xs.length
      · have e1 : l.log.filter (·.1 = t) = [] := by
          rw [List.filter_eq_nil_iff]
          rintro ⟨t', v⟩ hv
          have hm : v ∈ (comes xs 0).map (·.2.1) :=
            I.perm.mem_iff.1 (List.mem_append_right _ (List.mem_map.2 ⟨_, hv, rfl⟩))
          obtain ⟨⟨a, b, w⟩, h1, h2⟩ := List.mem_map.1 hm
          have h2 : b = v := h2
          subst h2
          have := (I.log a b w t' h1 hv).2
          simp only [decide_eq_true_eq]
          omega
        rw [e1, List.nil_append]
        have e2 : (r.2.1.map fun v => (xs.length, v)).filter (·.1 = t) = r.2.1.map fun v => (xs.length, v) := by
          rw [List.filter_eq_self]
          intro a ha
          obtain ⟨b, -, rfl⟩ := List.mem_map.1 ha
          simp [ht]
        rw [e2, List.length_map]
        rcases R.bound with h | h
        · left
          rw [h]
          rfl
        · right
          rw [← I.supply]
          exact h
      · have e2 : (r.2.1.map fun v => (xs.length, v)).filter (·.1 = t) = [] := by
          rw [List.filter_eq_nil_iff]
          intro a ha
          obtain ⟨b, -, rfl⟩ := List.mem_map.1 ha
          simp only [decide_eq_true_eq]
          omega
        rw [e2, List.append_nil]
        exact I.few t
    · intro hs
      have hs0 : ((comes xs 0).length : ℚ) ≤ l0.supply := by
        refine le_trans ?_ hs
        rw [comes_append, List.length_append]
        push_cast
        have : (0 : ℚ) ≤ ((x.ins.map fun p => (0 + xs.length, p.1, p.2)).length : ℚ) := Nat.cast_nonneg _
        linarith
      obtain ⟨E1, E2⟩ := I.exact hs0
      have enough : ∀ v ∈ r.1, ¬ l.supply ≤ r.2.1.length := by
        intro v hv hx
        have h1 := R.perm.length_eq
        have h2 : 0 < r.1.length := List.length_pos_of_mem hv
        have h3 := I.perm.length_eq
        rw [List.length_append, List.length_append, List.length_map] at h1
        rw [List.length_append, List.length_map, List.length_map] at h3
        rw [comes_append, List.length_append, List.length_map] at hs
        have h4 : (r.2.1.length : ℚ) + 1 ≤ (comes xs 0).length + x.ins.length := by
          have : r.2.1.length + 1 ≤ (comes xs 0).length + x.ins.length := by omega
          exact_mod_cast this
        rw [I.supply] at hx
        push_cast at hs
        linarith
      refine ⟨?_, ?_⟩
      · intro t v w h hv
        rw [hinc] at hv
        rw [hwait, len]
        have hr := (R.room v hv).resolve_right (enough v hv)
        have ht := (R.tick v hv).resolve_left (enough v hv)
        have hd : (l0.atOrigin && l0.delivery v) = true := (dl v).symm.trans hr.1
        refine ⟨hd, ?_, by have := hr.2; omega⟩
        rcases (cm t v w).1 h with h | ⟨e, h⟩
        · have h1 := E1 t v w h (oldin t v w h (instay v hv))
          rw [wold v (oldc t v w h)] at ht
          push_cast
          omega
        · rw [wnew v w h] at ht
          push_cast
          omega
      · intro t v w t' h hv
        rcases (newlog t' v).1 hv with hv | ⟨e', hv⟩
        · rcases (cm t v w).1 h with h | ⟨e, h⟩
          · exact E2 t v w t' h hv
          · exact absurd hv (nolog v w t' h)
        · rcases (cm t v w).1 h with h | ⟨e, h⟩
          · have h1 := E1 t v w h (oldin t v w h (inenter v hv))
            have h3 := I.before t v w h
            have h4 := R.ready v hv ((dl v).trans h1.1)
            rw [wold v (oldc t v w h)] at h4
            rw [mustw v w h1.1]
            omega
          · by_cases hd : (l0.atOrigin && l0.delivery v) = true
            · have h4 := R.ready v hv ((dl v).trans hd)
              rw [wnew v w h] at h4
              rw [mustw v w hd]
              omega
            · rw [must0 v w hd]
              omega

end Verif.Tour

import Verif.Spec.Net
import Verif.Lemmas.LinkMisc
import Mathlib.Algebra.Order.BigOperators.Group.List
import Mathlib.Algebra.Order.Ring.Int
import Mathlib.Data.List.Nodup

/-! # Lemmas about nodes -/

namespace Verif.Net
open Ults Curve Lnk

/-! ### Links: the two queues are independent fields -/

section
variable {V : Type}

@[simp] theorem fin_setInc (l : Link V) (a : List V) : (l.setIncoming a).finished = l.finished := by
  cases l <;> rfl
@[simp] theorem inc_setInc (l : Link V) (a : List V) : (l.setIncoming a).incoming = a := by
  cases l <;> rfl
@[simp] theorem trav_setInc (l : Link V) (a : List V) :
    (l.setIncoming a).travelling = l.travelling := by cases l <;> rfl
@[simp] theorem fin_setFin (l : Link V) (a : List V) : (l.setFinished a).finished = a := by
  cases l <;> rfl
@[simp] theorem inc_setFin (l : Link V) (a : List V) : (l.setFinished a).incoming = l.incoming := by
  cases l <;> rfl
@[simp] theorem trav_setFin (l : Link V) (a : List V) :
    (l.setFinished a).travelling = l.travelling := by cases l <;> rfl
theorem set_same (l : Link V) : (l.setFinished l.finished).setIncoming l.incoming = l := by
  cases l <;> rfl
theorem set_set (l : Link V) (a b c d : List V) :
    (((l.setFinished a).setIncoming b).setFinished c).setIncoming d
      = (l.setFinished c).setIncoming d := by cases l <;> rfl
theorem setInc_setInc (l : Link V) (a b : List V) :
    (l.setIncoming a).setIncoming b = l.setIncoming b := by cases l <;> rfl
theorem setFin_setFin (l : Link V) (a b : List V) :
    (l.setFinished a).setFinished b = l.setFinished b := by cases l <;> rfl
theorem setFin_same (l : Link V) : l.setFinished l.finished = l := by cases l <;> rfl
theorem setInc_same (l : Link V) : l.setIncoming l.incoming = l := by cases l <;> rfl

@[simp] theorem supply_setInc (l : Link V) (a : List V) : (l.setIncoming a).supply = l.supply := by
  cases l <;> rfl

/-! ### `takeFirst` -/

theorem takeFirst_fst (p : V → Bool) : ∀ (n : ℕ) (q : List V),
    (takeFirst p n q).1 = (q.filter p).take n
  | 0, q => by simp [takeFirst]
  | n + 1, [] => by simp [takeFirst]
  | n + 1, v :: q => by
    simp only [takeFirst]
    split
    · rename_i h; simp [h, takeFirst_fst p n q]
    · rename_i h; simp [h, takeFirst_fst p (n + 1) q]

theorem takeFirst_snd (p : V → Bool) : ∀ (n : ℕ) (q : List V),
    (takeFirst p n q).2.filter p = (q.filter p).drop n
  | 0, q => by simp [takeFirst]
  | n + 1, [] => by simp [takeFirst]
  | n + 1, v :: q => by
    simp only [takeFirst]
    split
    · rename_i h; simp [h, takeFirst_snd p n q]
    · rename_i h; simp [h, takeFirst_snd p (n + 1) q]

theorem takeFirst_other (p r : V → Bool) (hr : ∀ v, r v = true → p v = false) :
    ∀ (n : ℕ) (q : List V), (takeFirst p n q).2.filter r = q.filter r
  | 0, q => by simp [takeFirst]
  | n + 1, [] => by simp [takeFirst]
  | n + 1, v :: q => by
    simp only [takeFirst]
    split
    · rename_i h
      have : r v = false := by
        cases hv : r v with
        | false => rfl
        | true => rw [hr v hv] at h; simp at h
      simp [this, takeFirst_other p r hr n q]
    · by_cases hv : r v = true
      · simp [hv, takeFirst_other p r hr (n + 1) q]
      · simp [hv, takeFirst_other p r hr (n + 1) q]

theorem takeFirst_sublist (p : V → Bool) : ∀ (n : ℕ) (q : List V),
    (takeFirst p n q).2.Sublist q
  | 0, q => by simp [takeFirst]
  | n + 1, [] => by simp [takeFirst]
  | n + 1, v :: q => by
    simp only [takeFirst]
    split
    · exact (takeFirst_sublist p n q).cons v
    · exact (takeFirst_sublist p (n + 1) q).cons_cons v

theorem takeFirst_perm (p : V → Bool) : ∀ (n : ℕ) (q : List V),
    ((takeFirst p n q).1 ++ (takeFirst p n q).2).Perm q
  | 0, q => by simp [takeFirst]
  | n + 1, [] => by simp [takeFirst]
  | n + 1, v :: q => by
    simp only [takeFirst]
    split
    · exact (takeFirst_perm p n q).cons v
    · exact (List.perm_middle).trans ((takeFirst_perm p (n + 1) q).cons v)

end

/-! ### Sums of columns -/

theorem fwj_sum (s D : ℚ) (k : ℚ) (d : List ℚ) (hk : k = if D = 0 then 0 else min 1 (s / D))
    (hd : ∀ x ∈ d, 0 ≤ x) (hz : D = 0 → ∀ x ∈ d, x = 0) :
    (d.map fun x => min x (divide x D * s)).sum = d.sum * k ∧
    ∀ x ∈ d, min x (divide x D * s) = x * k := by
  have key : ∀ x ∈ d, min x (divide x D * s) = x * k := by
    intro x hx
    have hx0 := hd x hx
    by_cases h0 : D = 0
    · have := hz h0 x hx
      subst this
      simp [divide]
    · rw [hk, if_neg h0, mul_min_of_nonneg _ _ hx0, mul_one]
      congr 1
      unfold divide
      by_cases hx1 : x = 0
      · simp [hx1]
      · rw [if_neg hx1, if_neg h0]; ring
  refine ⟨?_, key⟩
  clear hk hz
  induction d with
  | nil => simp
  | cons x d ih =>
    simp only [List.map_cons, List.sum_cons]
    rw [ih (fun y hy => hd y (by simp [hy])) (fun y hy => key y (by simp [hy])),
      key x (by simp)]
    ring

theorem fwjCol_spec (d : List ℚ) (s : ℚ) (hd : ∀ x ∈ d, 0 ≤ x) (hs : 0 ≤ s) :
    (fwjCol d s).length = d.length ∧
    (∀ (i : ℕ) f x, (fwjCol d s)[i]? = some f → d[i]? = some x → 0 ≤ f ∧ f ≤ x) ∧
    (fwjCol d s).sum = min d.sum s := by
  have hD : 0 ≤ d.sum := List.sum_nonneg hd
  have hz : d.sum = 0 → ∀ x ∈ d, x = 0 := by
    intro h x hx
    have := List.single_le_sum hd x hx
    exact le_antisymm (by linarith) (hd x hx)
  obtain ⟨h1, h2⟩ := fwj_sum s d.sum _ d rfl hd hz
  refine ⟨by simp [fwjCol], ?_, ?_⟩
  · intro i f x hf hx
    simp only [fwjCol, List.getElem?_map, hx, Option.map_some, Option.some.injEq] at hf
    subst hf
    refine ⟨?_, min_le_left _ _⟩
    rw [h2 x (List.mem_of_getElem? hx)]
    apply mul_nonneg (hd x (List.mem_of_getElem? hx))
    split
    · exact le_refl _
    · exact le_min (by norm_num) (div_nonneg hs hD)
  · unfold fwjCol
    rw [h1]
    split
    · rename_i h; rw [h]; simp [hs]
    · rename_i h
      have hpos : 0 < d.sum := lt_of_le_of_ne hD (Ne.symm h)
      rw [mul_min_of_nonneg _ _ hD, mul_one, mul_div_cancel₀ _ h]

/-! ### Rounding a column -/

theorem roundCol_get {scalar : ℚ} {u : ℕ → ℚ} : ∀ {fs : List ℚ} {i : ℕ} {mv : List ℤ},
    roundCol scalar u i fs = .ok mv → mv.length = fs.length ∧
      ∀ k f, fs[k]? = some f → mv[k]? = some (roundVal (f * scalar) (u (i + k)))
  | [], i, mv, h => by simp [roundCol] at h; subst h; simp
  | f :: fs, i, mv, h => by
    simp only [roundCol] at h
    rw [Res.bind_eq_ok'] at h
    obtain ⟨n, hn, h⟩ := h
    rw [Res.bind_eq_ok'] at h
    obtain ⟨r, hr, h⟩ := h
    cases h
    obtain ⟨h1, h2⟩ := roundCol_get hr
    refine ⟨by simp [h1], ?_⟩
    intro k g hk
    cases k with
    | zero => simp at hk; subst hk; simp [round_ok hn]
    | succ k =>
      simp at hk
      have := h2 k g hk
      simp only [List.getElem?_cons_succ]
      rw [this]
      have e : i + 1 + k = i + (k + 1) := by omega
      rw [e]

theorem roundVal_le_of_le {x u : ℚ} {n : ℕ} (h0 : 0 ≤ x) (hx : x ≤ n) (hu : 0 ≤ u) :
    roundVal x u ≤ n := by
  rw [roundVal_nonneg h0]
  split
  · rename_i h
    have hfr : 0 < Int.fract x := lt_of_le_of_lt hu h
    have hlt : (⌊x⌋ : ℚ) < x := by
      have : Int.fract x = x - ⌊x⌋ := rfl
      linarith
    have : (⌊x⌋ : ℚ) < n := lt_of_lt_of_le hlt hx
    have : ⌊x⌋ < (n : ℤ) := by exact_mod_cast this
    omega
  · have := Int.floor_le x
    have : (⌊x⌋ : ℚ) ≤ n := le_trans this hx
    exact_mod_cast this

/-! ### The loop that takes vehicles back -/

theorem set_sum : ∀ (mv : List ℤ) (i : ℕ), i < mv.length →
    (mv.set i (mv.getD i 0 - 1)).sum = mv.sum - 1
  | [], i, h => by simp at h
  | m :: mv, 0, _ => by simp; ring
  | m :: mv, i + 1, h => by
    have := set_sum mv i (by simpa using h)
    simp only [List.set_cons_succ, List.sum_cons, List.getD_cons_succ]
    rw [this]; ring

theorem getD_nonneg {mv : List ℤ} (hm : ∀ m ∈ mv, 0 ≤ m) (k : ℕ) : 0 ≤ mv.getD k 0 := by
  rw [List.getD_eq_getElem?_getD]
  cases h : mv[k]? with
  | none => simp
  | some m => exact hm m (List.mem_of_getElem? h)

theorem reduceLoop_spec {sup : ℚ} : ∀ {draws : List ℕ} {mv mv' : List ℤ} {tot : ℤ},
    reduceLoop sup draws mv tot = .ok mv' → tot = mv.sum → (∀ m ∈ mv, 0 ≤ m) →
    mv'.length = mv.length ∧ (∀ (k : ℕ), 0 ≤ mv'.getD k 0 ∧ mv'.getD k 0 ≤ mv.getD k 0) ∧
      mv'.sum = min tot ⌊sup⌋ := by
  intro draws
  induction draws with
  | nil =>
    intro mv mv' tot h ht hm
    unfold reduceLoop at h
    split at h
    · rename_i hle
      cases h
      refine ⟨rfl, fun k => ⟨?_, le_refl _⟩, ?_⟩
      · exact getD_nonneg hm k
      · rw [← ht, min_eq_left]; rw [Int.le_floor]; exact hle
    · simp at h
  | cons k ds ih =>
    intro mv mv' tot h ht hm
    unfold reduceLoop at h
    split at h
    · rename_i hle
      cases h
      refine ⟨rfl, fun k => ⟨?_, le_refl _⟩, ?_⟩
      · exact getD_nonneg hm k
      · rw [← ht, min_eq_left]; rw [Int.le_floor]; exact hle
    · rename_i hgt
      simp only at h
      split at h
      · simp at h
      rename_i hlen
      have hi : k % mv.length < mv.length := Nat.mod_lt _ (by omega)
      split at h
      · rename_i hge
        have hlt : ⌊sup⌋ < tot := by rw [Int.floor_lt]; exact not_le.1 hgt
        obtain ⟨h1, h2, h3⟩ := ih h (by rw [set_sum _ _ hi, ht]) (by
          intro m hm'
          rcases List.mem_or_eq_of_mem_set hm' with h | h
          · exact hm m h
          · omega)
        refine ⟨by simpa using h1, ?_, ?_⟩
        · intro j
          refine ⟨(h2 j).1, le_trans (h2 j).2 ?_⟩
          rw [List.getD_eq_getElem?_getD, List.getElem?_set]
          split
          · rename_i e; subst e; simp [hi]
          · rw [← List.getD_eq_getElem?_getD]
        · rw [h3]; omega
      · exact ih h ht hm

theorem reduceLoop_prefix {sup : ℚ} : ∀ (draws extra : List ℕ) {mv mv' : List ℤ} {tot : ℤ},
    reduceLoop sup draws mv tot = .ok mv' → reduceLoop sup (draws ++ extra) mv tot = .ok mv' := by
  intro draws
  induction draws with
  | nil =>
    intro extra mv mv' tot h
    unfold reduceLoop at h
    split at h
    · rename_i hle; rw [List.nil_append]; unfold reduceLoop; rw [if_pos hle]; exact h
    · simp at h
  | cons k ds ih =>
    intro extra mv mv' tot h
    unfold reduceLoop at h
    rw [List.cons_append]
    unfold reduceLoop
    split at h
    · rename_i hle; rw [if_pos hle]; exact h
    · rename_i hle
      rw [if_neg hle]
      simp only at h ⊢
      split at h
      · simp at h
      rename_i hlen
      rw [if_neg hlen]
      split at h
      · rename_i hge; rw [if_pos hge]; exact ih extra h
      · rename_i hge; rw [if_neg hge]; exact ih extra h

theorem exists_pos_of_sum : ∀ (mv : List ℤ), 0 < mv.sum → ∃ i, i < mv.length ∧ 1 ≤ mv.getD i 0
  | [], h => by simp at h
  | m :: mv, h => by
    by_cases hm : 1 ≤ m
    · exact ⟨0, by simp, by simpa using hm⟩
    · simp only [List.sum_cons] at h
      obtain ⟨i, h1, h2⟩ := exists_pos_of_sum mv (by omega)
      exact ⟨i + 1, by simpa using h1, by simpa using h2⟩

/-- With a non-negative supply the loop ends on every sequence of draws in which every index keeps
coming up. -/
theorem reduceLoop_terminates {sup : ℚ} (hs : 0 ≤ sup) : ∀ (n : ℕ) (rnd : ℕ → ℕ) (mv : List ℤ)
    (tot : ℤ), tot = mv.sum → (∀ m ∈ mv, 0 ≤ m) → tot ≤ n →
    (∀ i, i < mv.length → ∀ N, ∃ k, N ≤ k ∧ rnd k % mv.length = i) →
    ∃ N mv', reduceLoop sup ((List.range N).map rnd) mv tot = .ok mv' := by
  intro n
  induction n with
  | zero =>
    intro rnd mv tot ht hm hn _
    refine ⟨0, mv, ?_⟩
    have : (tot : ℚ) ≤ 0 := by exact_mod_cast hn
    unfold reduceLoop
    rw [if_pos (le_trans this hs)]
  | succ n ih =>
    intro rnd mv tot ht hm hn hfair
    by_cases hle : (tot : ℚ) ≤ sup
    · refine ⟨0, mv, ?_⟩
      unfold reduceLoop
      rw [if_pos hle]
    · have hpos : 0 < mv.sum := by
        have : (0 : ℚ) < tot := lt_of_le_of_lt hs (not_le.1 hle)
        rw [← ht]; exact_mod_cast this
      obtain ⟨i, hi, hge⟩ := exists_pos_of_sum mv hpos
      obtain ⟨k, _, hk⟩ := hfair i hi 0
      -- the first index at which something can be taken back
      have hex : ∃ k, 1 ≤ mv.getD (rnd k % mv.length) 0 := ⟨k, by rw [hk]; exact hge⟩
      classical
      let k0 := Nat.find hex
      have hk0 : 1 ≤ mv.getD (rnd k0 % mv.length) 0 := Nat.find_spec hex
      have hbefore : ∀ j < k0, ¬ 1 ≤ mv.getD (rnd j % mv.length) 0 := fun j hj => Nat.find_min hex hj
      have hlen : mv.length ≠ 0 := by omega
      have hmod : rnd k0 % mv.length < mv.length := Nat.mod_lt _ (by omega)
      let mv1 := mv.set (rnd k0 % mv.length) (mv.getD (rnd k0 % mv.length) 0 - 1)
      have hlen1 : mv1.length = mv.length := by simp [mv1]
      obtain ⟨N, mv', hN⟩ := ih (fun j => rnd (k0 + 1 + j)) mv1 (tot - 1)
        (by rw [set_sum _ _ hmod, ht]) (by
          intro m hm'
          rcases List.mem_or_eq_of_mem_set hm' with h | h
          · exact hm m h
          · omega) (by omega) (by
          intro i hi N
          rw [hlen1] at hi ⊢
          obtain ⟨k, hk1, hk2⟩ := hfair i hi (N + k0 + 1)
          exact ⟨k - (k0 + 1), by omega, by
            have : k0 + 1 + (k - (k0 + 1)) = k := by omega
            rw [this]; exact hk2⟩)
      have hskip : ∀ (js : List ℕ) (rest : List ℕ),
          (∀ j ∈ js, ¬ 1 ≤ mv.getD (j % mv.length) 0) →
          reduceLoop sup (js ++ rest) mv tot = reduceLoop sup rest mv tot := by
        intro js
        induction js with
        | nil => intro rest _; rfl
        | cons j js ihj =>
          intro rest hj
          rw [List.cons_append]
          conv_lhs => unfold reduceLoop
          rw [if_neg hle]
          simp only
          rw [if_neg hlen, if_neg (hj j (by simp))]
          exact ihj rest (fun x hx => hj x (by simp [hx]))
      refine ⟨k0 + 1 + N, mv', ?_⟩
      have hsplit : (List.range (k0 + 1 + N)).map rnd
          = (List.range k0).map rnd ++ (rnd k0 :: (List.range N).map fun j => rnd (k0 + 1 + j)) := by
        rw [List.range_add, List.range_succ]
        simp only [List.map_append, List.map_map, List.map_cons, List.append_assoc,
          List.cons_append, List.nil_append]
        rfl
      rw [hsplit, hskip _ _ (by
        intro j hj
        obtain ⟨x, hx, rfl⟩ := List.mem_map.1 hj
        exact hbefore x (List.mem_range.1 hx))]
      unfold reduceLoop
      rw [if_neg hle]
      simp only
      rw [if_neg hlen, if_pos hk0]
      exact hN

/-- With a negative supply the loop never ends. -/
theorem reduceLoop_negative {sup : ℚ} (hs : sup < 0) : ∀ (draws : List ℕ) (mv : List ℤ) (tot : ℤ),
    tot = mv.sum → (∀ m ∈ mv, 0 ≤ m) → mv ≠ [] → reduceLoop sup draws mv tot = .diverge := by
  intro draws
  induction draws with
  | nil =>
    intro mv tot ht hm hne
    unfold reduceLoop
    have h0 : 0 ≤ tot := by rw [ht]; exact List.sum_nonneg hm
    have : ¬ (tot : ℚ) ≤ sup := by
      have : (0 : ℚ) ≤ tot := by exact_mod_cast h0
      intro h; linarith
    rw [if_neg this]
  | cons k ds ih =>
    intro mv tot ht hm hne
    unfold reduceLoop
    have h0 : 0 ≤ tot := by rw [ht]; exact List.sum_nonneg hm
    have hneg : ¬ (tot : ℚ) ≤ sup := by
      have : (0 : ℚ) ≤ tot := by exact_mod_cast h0
      intro h; linarith
    have hlen : mv.length ≠ 0 := by simpa using hne
    have hi : k % mv.length < mv.length := Nat.mod_lt _ (by omega)
    rw [if_neg hneg]
    simp only
    rw [if_neg hlen]
    split
    · refine ih _ _ (by rw [set_sum _ _ hi, ht]) ?_ (by
        intro h; apply hne; simpa using congrArg List.length h)
      intro m hm'
      rcases List.mem_or_eq_of_mem_set hm' with h | h
      · exact hm m h
      · omega
    · exact ih mv tot ht hm hne

/-! ### Moving vehicles -/

theorem OnlyMoves.refl (s : State) : OnlyMoves s s :=
  ⟨⟨fun _ => rfl, fun _ => rfl, fun _ => (set_same _).symm, ⟨rfl, rfl, rfl, rfl, rfl⟩, rfl⟩, rfl⟩

theorem Frame.trans {a b c : State} (h : Frame a b) (k : Frame b c) : Frame a c := by
  refine ⟨fun v => (k.next v).trans (h.next v), fun v => (k.veh v).trans (h.veh v),
    fun l => by rw [k.link l, h.link l, set_set], ?_, k.tracker.trans h.tracker⟩
  obtain ⟨a1, a2, a3, a4, a5⟩ := h.factory
  obtain ⟨b1, b2, b3, b4, b5⟩ := k.factory
  exact ⟨b1.trans a1, b2.trans a2, b3.trans a3, b4.trans a4, b5.trans a5⟩

theorem OnlyMoves.trans {a b c : State} (h : OnlyMoves a b) (k : OnlyMoves b c) : OnlyMoves a c :=
  ⟨h.toFrame.trans k.toFrame, k.queue.trans h.queue⟩

theorem Frame.trav {s s' : State} (h : Frame s s') (l : ℕ) :
    (s'.links l).link.travelling = (s.links l).link.travelling := by
  rw [h.link l]; simp

theorem Frame.heads {s s' : State} (h : Frame s s') (o : ℕ) : s'.heads o = s.heads o := by
  funext v; simp [State.heads, h.next v]

theorem OnlyMoves.heads {s s' : State} (h : OnlyMoves s s') (o : ℕ) : s'.heads o = s.heads o := by
  funext v; simp [State.heads, h.next v]

theorem waiting_eq (s : State) (i o : ℕ) : s.waiting i o = (s.fin i).filter (s.heads o) := rfl

theorem waiting_congr {s s' : State} (h : OnlyMoves s s') {i : ℕ} (hf : s'.fin i = s.fin i) (o : ℕ) :
    s'.waiting i o = s.waiting i o := by
  rw [waiting_eq, waiting_eq, hf, h.heads]

/-- Same curves on every link. -/
def SameCurves (s s' : State) : Prop :=
  ∀ l, (s'.links l).nIn = (s.links l).nIn ∧ (s'.links l).nOut = (s.links l).nOut

theorem SameCurves.trans {a b c : State} (h : SameCurves a b) (k : SameCurves b c) :
    SameCurves a c := fun l => ⟨(k l).1.trans (h l).1, (k l).2.trans (h l).2⟩

theorem moveOne_spec {ts o i : ℕ} {n : ℤ} {s s' : State} (h : moveOne ts o i n s = .ok s') :
    OnlyMoves s s' ∧ SameCurves s s' ∧ 0 ≤ n ∧ n.toNat ≤ (s.waiting i o).length ∧
    s'.waiting i o = (s.waiting i o).drop n.toNat ∧
    (∀ l, l ≠ i → s'.fin l = s.fin l) ∧
    (s'.fin i).Sublist (s.fin i) ∧
    (∀ r : ℕ → Bool, (∀ v, r v = true → s.heads o v = false) →
      (s'.fin i).filter r = (s.fin i).filter r) ∧
    s'.inc o = s.inc o ++ (s.waiting i o).take n.toNat ∧
    (∀ l, l ≠ o → s'.inc l = s.inc l) ∧
    (s.fin i).Perm ((s.waiting i o).take n.toNat ++ s'.fin i) ∧
    s'.log = s.log ++ ((s.waiting i o).take n.toNat).map fun v => ⟨ts, v, some i, some o⟩ := by
  unfold moveOne at h
  simp only at h
  split at h
  swap
  · simp at h
  rename_i hlen
  cases h
  have hfst := takeFirst_fst (s.heads o) n.toNat (s.links i).link.finished
  have hsnd := takeFirst_snd (s.heads o) n.toNat (s.links i).link.finished
  have hoth := takeFirst_other (s.heads o) (n := n.toNat) (q := (s.links i).link.finished)
  have hsub := takeFirst_sublist (s.heads o) n.toNat (s.links i).link.finished
  have hperm := takeFirst_perm (s.heads o) n.toNat (s.links i).link.finished
  generalize takeFirst (s.heads o) n.toNat (s.links i).link.finished = r at *
  have hW : s.waiting i o = (s.links i).link.finished.filter (s.heads o) := rfl
  have hfin : ∀ l, State.fin (State.enter ts (some i) o
      { s with
        links := upd s.links i { s.links i with link := (s.links i).link.setFinished r.2 } } r.1) l
      = if l = i then r.2 else s.fin l := by
    intro l
    simp only [State.fin, State.enter, upd]
    split <;> split <;> simp_all
  have hinc : ∀ l, State.inc (State.enter ts (some i) o
      { s with
        links := upd s.links i { s.links i with link := (s.links i).link.setFinished r.2 } } r.1) l
      = if l = o then s.inc o ++ r.1 else s.inc l := by
    intro l
    simp only [State.inc, State.enter, upd]
    split <;> split <;> simp_all
  have hnext : OnlyMoves s (State.enter ts (some i) o
      { s with
        links := upd s.links i { s.links i with link := (s.links i).link.setFinished r.2 } } r.1) := by
    refine ⟨⟨?_, ?_, ?_, ⟨rfl, rfl, rfl, rfl, rfl⟩, rfl⟩, rfl⟩
    · intro v; simp only [State.enter]; split <;> rfl
    · intro v; simp only [State.enter]; split <;> rfl
    · intro l
      rw [hfin, hinc]
      simp only [State.enter, upd]
      by_cases h1 : l = o
      · subst h1
        by_cases h2 : l = i
        · subst h2; simp [State.inc]
        · simp [h2, State.fin, State.inc, setFin_same]
      · by_cases h2 : l = i
        · subst h2
          simp only [h1, if_false, if_true, State.inc]
          rw [← inc_setFin (s.links l).link r.2, setInc_same]
        · simp only [h1, h2, if_false, State.fin, State.inc, set_same]
  refine ⟨hnext, ?_, by omega, ?_, ?_, ?_, ?_, ?_, ?_, ?_, ?_, ?_⟩
  · intro l
    simp only [State.enter, upd]
    split <;> split <;> simp_all
  · rw [hW]
    have := congrArg List.length hfst
    rw [List.length_take] at this
    omega
  · rw [waiting_eq, hfin, if_pos rfl, hnext.heads, hsnd, hW]
  · intro l hl; rw [hfin, if_neg hl]
  · rw [hfin, if_pos rfl]; exact hsub
  · intro r' hr'
    rw [hfin, if_pos rfl]
    exact hoth r' hr'
  · rw [hinc, if_pos rfl, hfst, hW]
  · intro l hl; rw [hinc, if_neg hl]
  · rw [hfin, if_pos rfl, hW, ← hfst]; exact hperm.symm
  · simp only [State.enter]
    rw [hfst, hW]

theorem waiting_other {s s' : State} {o o' i : ℕ} (hm : OnlyMoves s s') (ho : o' ≠ o)
    (h : ∀ r : ℕ → Bool, (∀ v, r v = true → s.heads o v = false) →
      (s'.fin i).filter r = (s.fin i).filter r) : s'.waiting i o' = s.waiting i o' := by
  rw [waiting_eq, waiting_eq, hm.heads]
  apply h
  intro v hv
  simp only [State.heads, decide_eq_true_eq, decide_eq_false_iff_not] at *
  rw [hv]; simpa using ho

/-- The vehicles that go from the in links with the given indices to `o`. -/
def blocks (s : State) (ins : List ℕ) (o : ℕ) (m : List ℤ) (order : List ℕ) : List ℕ :=
  order.flatMap fun k => (s.waiting (ins.getD k 0) o).take (m.getD k 0).toNat

theorem getD_of_get? {α : Type} {l : List α} {k : ℕ} {a d : α} (h : l[k]? = some a) :
    l.getD k d = a := by rw [List.getD_eq_getElem?_getD, h]; rfl

theorem nodup_get_inj {α : Type} {l : List α} (h : l.Nodup) {i j : ℕ} {a : α}
    (hi : l[i]? = some a) (hj : l[j]? = some a) : i = j := by
  obtain ⟨hi1, hi2⟩ := List.getElem?_eq_some_iff.1 hi
  obtain ⟨hj1, hj2⟩ := List.getElem?_eq_some_iff.1 hj
  exact (List.Nodup.getElem_inj_iff h).1 (hi2.trans hj2.symm)

theorem moveCol_spec {ts : ℕ} {ins : List ℕ} (hins : ins.Nodup) {om : ℕ × List ℤ} :
    ∀ (order : List ℕ) (s s' : State), moveCol ts ins order s om = .ok s' → order.Nodup →
    OnlyMoves s s' ∧ SameCurves s s' ∧
    (∀ k ∈ order, ∃ l, ins[k]? = some l ∧ 0 ≤ om.2.getD k 0 ∧
      (om.2.getD k 0).toNat ≤ (s.waiting l om.1).length ∧
      s'.waiting l om.1 = (s.waiting l om.1).drop (om.2.getD k 0).toNat) ∧
    (∀ l, (∀ k ∈ order, ins[k]? ≠ some l) → s'.fin l = s.fin l) ∧
    (∀ l, (s'.fin l).Sublist (s.fin l)) ∧
    (∀ l (r : ℕ → Bool), (∀ v, r v = true → s.heads om.1 v = false) →
      (s'.fin l).filter r = (s.fin l).filter r) ∧
    s'.inc om.1 = s.inc om.1 ++ blocks s ins om.1 om.2 order ∧
    (∀ l, l ≠ om.1 → s'.inc l = s.inc l) := by
  intro order
  induction order with
  | nil =>
    intro s s' h _
    simp only [moveCol, Res.foldlM_nil, Res.ok.injEq] at h
    subst h
    exact ⟨OnlyMoves.refl _, fun _ => ⟨rfl, rfl⟩, by simp, fun _ _ => rfl, fun _ => List.Sublist.refl _,
      fun _ _ _ => rfl, by simp [blocks], fun _ _ => rfl⟩
  | cons k order ih =>
    intro s s' h hnd
    rw [List.nodup_cons] at hnd
    unfold moveCol at h
    rw [Res.foldlM_cons, Res.bind_eq_ok] at h
    obtain ⟨s1, h1, h2⟩ := h
    cases hk : ins[k]? with
    | none => rw [hk] at h1; simp at h1
    | some i =>
      rw [hk] at h1
      simp only at h1
      obtain ⟨a1, a2, a3, a4, a5, a6, a7, a8, a9, a10, _, _⟩ := moveOne_spec h1
      obtain ⟨b1, b2, b3, b4, b5, b6, b7, b8⟩ := ih s1 s' h2 hnd.2
      have hsame : ∀ j ∈ order, ∀ l, ins[j]? = some l → l ≠ i := by
        intro j hj l hl e
        subst e
        exact hnd.1 (nodup_get_inj hins hk hl ▸ hj)
      have hi : ∀ j ∈ order, ins[j]? ≠ some i := fun j hj hl => hsame j hj i hl rfl
      have hwait : ∀ j ∈ order, ∀ l, ins[j]? = some l → s1.waiting l om.1 = s.waiting l om.1 :=
        fun j hj l hl => waiting_congr a1 (a6 l (hsame j hj l hl)) _
      refine ⟨a1.trans b1, a2.trans b2, ?_, ?_, ?_, ?_, ?_, ?_⟩
      · intro j hj
        rcases List.mem_cons.1 hj with rfl | hj
        · refine ⟨i, hk, a3, a4, ?_⟩
          rw [waiting_congr b1 (b4 i hi), a5]
        · obtain ⟨l, hl, c1, c2, c3⟩ := b3 j hj
          rw [hwait j hj l hl] at c2 c3
          exact ⟨l, hl, c1, c2, c3⟩
      · intro l hl
        rw [b4 l (fun j hj => hl j (by simp [hj])), a6 l]
        intro e
        exact hl k (by simp) (by rw [hk, e])
      · intro l
        refine (b5 l).trans ?_
        by_cases e : l = i
        · subst e; exact a7
        · rw [a6 l e]
      · intro l r hr
        rw [b6 l r (by rw [a1.heads]; exact hr)]
        by_cases e : l = i
        · subst e; exact a8 r hr
        · rw [a6 l e]
      · rw [b7, a9]
        simp only [blocks, List.flatMap_cons, List.append_assoc]
        rw [getD_of_get? hk]
        congr 2
        apply List.flatMap_congr
        intro j hj
        obtain ⟨l, hl, _⟩ := b3 j hj
        rw [getD_of_get? hl, hwait j hj l hl]
      · intro l hl
        rw [b8 l hl, a10 l hl]

/-- The specification of `move_vehicle`: `outs` is given with its columns. -/
theorem moveAll_spec {ts : ℕ} {ins : List ℕ} (hins : ins.Nodup) {orc : NodeOracle} :
    ∀ (oms : List (ℕ × List ℤ)) (j : ℕ) (s s' : State), moveAll ts ins orc j s oms = .ok s' →
    (oms.map Prod.fst).Nodup →
    (∀ k, (orc.order k).Perm (List.range ins.length)) →
    OnlyMoves s s' ∧ SameCurves s s' ∧
    (∀ x om, oms[x]? = some om →
      s'.inc om.1 = s.inc om.1 ++ blocks s ins om.1 om.2 (orc.order (j + x)) ∧
      ∀ (k l : ℕ), ins[k]? = some l → 0 ≤ om.2.getD k 0 ∧
        (om.2.getD k 0).toNat ≤ (s.waiting l om.1).length ∧
        s'.waiting l om.1 = (s.waiting l om.1).drop (om.2.getD k 0).toNat) ∧
    (∀ l, l ∉ ins → s'.fin l = s.fin l) ∧
    (∀ l, (s'.fin l).Sublist (s.fin l)) ∧
    (∀ l (r : ℕ → Bool), (∀ v, r v = true → ∀ om ∈ oms, s.heads om.1 v = false) →
      (s'.fin l).filter r = (s.fin l).filter r) ∧
    (∀ l, l ∉ oms.map Prod.fst → s'.inc l = s.inc l) := by
  intro oms
  induction oms with
  | nil =>
    intro j s s' h _ _
    simp only [moveAll, Res.ok.injEq] at h
    subst h
    exact ⟨OnlyMoves.refl _, fun _ => ⟨rfl, rfl⟩, by simp, fun _ _ => rfl,
      fun _ => List.Sublist.refl _, fun _ _ _ => rfl, fun _ _ => rfl⟩
  | cons om oms ih =>
    intro j s s' h hnd hord
    simp only [List.map_cons, List.nodup_cons] at hnd
    simp only [moveAll] at h
    rw [Res.bind_eq_ok'] at h
    obtain ⟨s1, h1, h2⟩ := h
    have hordn : (orc.order j).Nodup := ((hord j).nodup_iff).2 List.nodup_range
    obtain ⟨a1, a2, a3, a4, a5, a6, a7, a8⟩ := moveCol_spec hins _ _ _ h1 hordn
    obtain ⟨b1, b2, b3, b4, b5, b6, b7⟩ := ih (j + 1) s1 s' h2 hnd.2 hord
    have hmem : ∀ (k l : ℕ), ins[k]? = some l → k ∈ orc.order j := by
      intro k l hk
      rw [(hord j).mem_iff, List.mem_range]
      exact (List.getElem?_eq_some_iff.1 hk).1
    have hw1 : ∀ om' ∈ oms, ∀ l, s1.waiting l om'.1 = s.waiting l om'.1 := by
      intro om' hom' l
      apply waiting_other a1 (o := om.1) _ (fun r hr => a6 l r hr)
      intro e
      exact hnd.1 (e ▸ List.mem_map_of_mem (f := Prod.fst) hom')
    have hw2 : ∀ l, s'.waiting l om.1 = s1.waiting l om.1 := by
      intro l
      rw [waiting_eq, waiting_eq, b1.heads]
      apply b6
      intro v hv om' hom'
      simp only [State.heads, decide_eq_true_eq, decide_eq_false_iff_not] at *
      rw [hv]
      intro e
      simp only [Option.some.injEq] at e
      exact hnd.1 (e ▸ List.mem_map_of_mem (f := Prod.fst) hom')
    refine ⟨a1.trans b1, a2.trans b2, ?_, ?_, ?_, ?_, ?_⟩
    · intro x om' hx
      cases x with
      | zero =>
        simp only [List.getElem?_cons_zero, Option.some.injEq] at hx
        subst hx
        refine ⟨?_, ?_⟩
        · rw [b7 _ hnd.1, a7, Nat.add_zero]
        · intro k l hk
          obtain ⟨l', hl', c1, c2, c3⟩ := a3 k (hmem k l hk)
          rw [hk] at hl'
          cases hl'
          exact ⟨c1, c2, by rw [hw2, c3]⟩
      | succ x =>
        simp only [List.getElem?_cons_succ] at hx
        obtain ⟨c1, c2⟩ := b3 x om' hx
        have hom' : om' ∈ oms := List.mem_of_getElem? hx
        refine ⟨?_, ?_⟩
        · rw [c1, a8 om'.1 (fun e => hnd.1 (e ▸ List.mem_map_of_mem (f := Prod.fst) hom'))]
          have e : j + 1 + x = j + (x + 1) := by omega
          rw [e]
          congr 1
          unfold blocks
          apply List.flatMap_congr
          intro k _
          rw [hw1 om' hom']
        · intro k l hk
          have := c2 k l hk
          rw [hw1 om' hom'] at this
          exact this
    · intro l hl
      rw [b4 l hl, a4 l]
      intro k _ hk
      exact hl (List.mem_of_getElem? hk)
    · exact fun l => (b5 l).trans (a5 l)
    · intro l r hr
      rw [b6 l r (fun v hv om' hom' => by rw [a1.heads]; exact hr v hv om' (by simp [hom'])),
        a6 l r (fun v hv => hr v hv om (by simp))]
    · intro l hl
      simp only [List.map_cons, List.mem_cons, not_or] at hl
      rw [b7 l hl.2, a8 l hl.1]

end Verif.Net

import Mathlib.Data.List.Dedup
import Verif.Lemmas.MNet

/-! # Junctions with cars and trucks -/

namespace Verif.MNet
open Ults Curve Net

/-! ### Taking vehicles by car equivalents -/

/-- How many vehicles of a queue are taken. -/
def need (eq : ℕ → ℚ) : ℚ → List ℕ → ℕ
  | _, [] => 0
  | x, v :: q => if 0 < x then need eq (x - eq v) q + 1 else 0

theorem need_neg {eq : ℕ → ℚ} {x : ℚ} (h : ¬ 0 < x) (q : List ℕ) : need eq x q = 0 := by
  cases q <;> simp [need, h]

theorem takeEquiv_eq (eq : ℕ → ℚ) (p : ℕ → Bool) : ∀ (x : ℚ) (q : List ℕ),
    (takeEquiv eq p x q).1 = (q.filter p).take (need eq x (q.filter p)) ∧
    (takeEquiv eq p x q).2.1.filter p = (q.filter p).drop (need eq x (q.filter p)) ∧
    (∀ p' : ℕ → Bool, (∀ v, p v = true → p' v = false) →
      (takeEquiv eq p x q).2.1.filter p' = q.filter p') ∧
    (takeEquiv eq p x q).2.2 = x - (((q.filter p).take (need eq x (q.filter p))).map eq).sum
  | x, [] => by simp [takeEquiv, need]
  | x, v :: q => by
    simp only [takeEquiv]
    split
    · rename_i hx
      split
      · rename_i hp
        obtain ⟨h1, h2, h3, h4⟩ := takeEquiv_eq eq p (x - eq v) q
        simp only [List.filter_cons_of_pos hp, need, hx, if_true, List.take_succ_cons,
          List.drop_succ_cons, List.map_cons, List.sum_cons]
        refine ⟨by rw [h1], h2, ?_, by rw [h4]; ring⟩
        intro p' hp'
        rw [h3 p' hp', List.filter_cons_of_neg (by simp [hp' v hp])]
      · rename_i hp
        obtain ⟨h1, h2, h3, h4⟩ := takeEquiv_eq eq p x q
        simp only [List.filter_cons_of_neg hp]
        refine ⟨h1, h2, ?_, h4⟩
        intro p' hp'
        rw [List.filter_cons, List.filter_cons, h3 p' hp']
    · rename_i hx
      rw [need_neg hx]
      simp

theorem need_spec (eq : ℕ → ℚ) : ∀ (x : ℚ) (q : List ℕ), need eq x q ≤ q.length ∧
    (∀ j, j < need eq x q → ((q.take j).map eq).sum < x) ∧
    (need eq x q < q.length → x ≤ ((q.take (need eq x q)).map eq).sum)
  | x, [] => by simp [need]
  | x, v :: q => by
    simp only [need]
    split
    · rename_i hx
      obtain ⟨h1, h2, h3⟩ := need_spec eq (x - eq v) q
      refine ⟨by simpa using h1, ?_, ?_⟩
      · intro j hj
        cases j with
        | zero => simpa using hx
        | succ j =>
          have := h2 j (by omega)
          simp only [List.take_succ_cons, List.map_cons, List.sum_cons]
          linarith
      · intro hl
        simp only [List.length_cons] at hl
        have := h3 (by omega)
        simp only [List.take_succ_cons, List.map_cons, List.sum_cons]
        linarith
    · rename_i hx
      refine ⟨Nat.zero_le _, by intro j hj; omega, ?_⟩
      intro _
      simpa using not_lt.1 hx

/-- Enough is taken whenever there is enough. -/
theorem need_enough {eq : ℕ → ℚ} {x : ℚ} {q : List ℕ} (h : x ≤ (q.map eq).sum) :
    x ≤ ((q.take (need eq x q)).map eq).sum := by
  obtain ⟨h1, _, h3⟩ := need_spec eq x q
  by_cases hl : need eq x q < q.length
  · exact h3 hl
  · have : need eq x q = q.length := by omega
    rw [this, List.take_length]; exact h

/-! ### Moving -/

/-- From every in link `i` the first `k i o` vehicles bound for `o` have left, and `add o` have been
appended to the entrance of `o`. -/
structure Pushed (k : ℕ → ℕ → ℕ) (add : ℕ → List ℕ) (s s' : State) : Prop where
  wait : ∀ i o, s'.waiting i o = (s.waiting i o).drop (k i o)
  inc : ∀ o, s'.inc o = s.inc o ++ add o
  sub : ∀ i, (s'.fin i).Sublist (s.fin i)
  same : ∀ i, (∀ o, k i o = 0) → s'.fin i = s.fin i
  only : OnlyMoves s s'
  curves : ∀ l b, (s'.links l).nIn b = (s.links l).nIn b ∧ (s'.links l).nOut b = (s.links l).nOut b

theorem OnlyMoves.refl (s : State) : OnlyMoves s s := ⟨rfl, fun _ => rfl, fun _ => (setSelf _).symm⟩

theorem OnlyMoves.trans {a b d : State} (h : OnlyMoves a b) (k : OnlyMoves b d) : OnlyMoves a d := by
  refine ⟨?_, fun v => (k.veh v).trans (h.veh v), ?_⟩
  · rw [k.rest]
    conv_lhs => rw [h.rest]
  · intro l
    rw [k.link l, h.link l, setBoth]

theorem OnlyMoves.truck {s s' : State} (h : OnlyMoves s s') : s'.truck = s.truck := by rw [h.rest]

theorem OnlyMoves.next {s s' : State} (h : OnlyMoves s s') (v : ℕ) :
    (s'.vehs v).next = (s.vehs v).next := by
  have := h.veh v; simp only [Veh.mk.injEq] at this; tauto

theorem OnlyMoves.heads {s s' : State} (h : OnlyMoves s s') (o : ℕ) : s'.heads o = s.heads o := by
  funext v; unfold State.heads; rw [h.next]

theorem Pushed.refl (s : State) : Pushed (fun _ _ => 0) (fun _ => []) s s :=
  ⟨fun _ _ => rfl, fun _ => (List.append_nil _).symm, fun _ => List.Sublist.refl _, fun _ _ => rfl,
    OnlyMoves.refl s, fun _ _ => ⟨rfl, rfl⟩⟩

theorem Pushed.trans {k k' : ℕ → ℕ → ℕ} {add add' : ℕ → List ℕ} {a b d : State}
    (h : Pushed k add a b) (h' : Pushed k' add' b d) :
    Pushed (fun i o => k i o + k' i o) (fun o => add o ++ add' o) a d := by
  refine ⟨?_, ?_, fun i => (h'.sub i).trans (h.sub i), ?_, h.only.trans h'.only, ?_⟩
  · intro i o; rw [h'.wait, h.wait, List.drop_drop]
  · intro o; rw [h'.inc, h.inc, List.append_assoc]
  · intro i hi
    rw [h'.same i (fun o => by have := hi o; omega), h.same i (fun o => by have := hi o; omega)]
  · intro l x
    exact ⟨(h'.curves l x).1.trans (h.curves l x).1, (h'.curves l x).2.trans (h.curves l x).2⟩

theorem Pushed.congr {k k' : ℕ → ℕ → ℕ} {add add' : ℕ → List ℕ} {s s' : State} (h : Pushed k add s s')
    (hk : ∀ i o, k i o = k' i o) (ha : ∀ o, add o = add' o) : Pushed k' add' s s' := by
  rw [show k' = k from funext fun i => funext fun o => (hk i o).symm,
    show add' = add from funext fun o => (ha o).symm]
  exact h

theorem moveOne_pushed {factor x : ℚ} {ts o i a b : ℕ} (t : State × Moved)
    (hx : x ≤ load factor t.1.truck (t.1.waiting i o)) :
    ∃ t', moveOne factor ts o i a b x t = .ok t' ∧
      Pushed (fun i' o' => if i' = i ∧ o' = o then need (equiv factor t.1.truck) x (t.1.waiting i o)
          else 0)
        (fun o' => if o' = o then (t.1.waiting i o).take
          (need (equiv factor t.1.truck) x (t.1.waiting i o)) else []) t.1 t'.1 := by
  obtain ⟨h1, h2, h3, h4⟩ := takeEquiv_eq (equiv factor t.1.truck) (t.1.heads o) x (t.1.fin i)
  have hw : (t.1.fin i).filter (t.1.heads o) = t.1.waiting i o := rfl
  rw [hw] at h1 h2 h4
  have hle : (takeEquiv (equiv factor t.1.truck) (t.1.heads o) x (t.1.fin i)).2.2 ≤ 0 := by
    rw [h4]
    have := need_enough (eq := equiv factor t.1.truck) hx
    linarith
  obtain ⟨hsq, hsp⟩ := takeEquiv_split (equiv factor t.1.truck) (t.1.heads o) x (t.1.fin i)
  unfold moveOne
  simp only
  have hfin : (t.1.links i).link.finished = t.1.fin i := rfl
  rw [hfin, if_neg (by rw [gt_iff_lt, not_lt]; linarith)]
  refine ⟨_, rfl, ?_⟩
  generalize takeEquiv (equiv factor t.1.truck) (t.1.heads o) x (t.1.fin i) = r at *
  generalize need (equiv factor t.1.truck) x (t.1.waiting i o) = n at *
  have hf : ∀ l, (State.enter ts (some i) o
      { t.1 with
        links := upd t.1.links i
          { t.1.links i with link := (t.1.links i).link.setFinished r.2.1 } } r.1).fin l
      = if l = i then r.2.1 else t.1.fin l := by
    intro l
    unfold State.enter State.fin
    simp only
    by_cases e1 : l = o
    · subst e1
      rw [upd_same]
      by_cases e2 : l = i
      · subst e2
        simp only [upd_same, if_true]
        cases (t.1.links l).link <;> rfl
      · simp only [upd_other _ _ _ _ e2, if_neg e2]
        cases (t.1.links l).link <;> rfl
    · rw [upd_other _ _ _ _ e1]
      by_cases e2 : l = i
      · subst e2
        simp only [upd_same, if_true]
        cases (t.1.links l).link <;> rfl
      · simp only [upd_other _ _ _ _ e2, if_neg e2]
  have hi : ∀ l, (State.enter ts (some i) o
      { t.1 with
        links := upd t.1.links i
          { t.1.links i with link := (t.1.links i).link.setFinished r.2.1 } } r.1).inc l
      = if l = o then t.1.inc l ++ r.1 else t.1.inc l := by
    intro l
    unfold State.enter State.inc
    simp only
    by_cases e1 : l = o
    · subst e1
      rw [upd_same, if_pos rfl]
      by_cases e2 : l = i
      · subst e2
        simp only [upd_same]
        cases (t.1.links l).link <;> rfl
      · simp only [upd_other _ _ _ _ e2]
        cases (t.1.links l).link <;> rfl
    · rw [upd_other _ _ _ _ e1, if_neg e1]
      by_cases e2 : l = i
      · subst e2
        simp only [upd_same]
        cases (t.1.links l).link <;> rfl
      · simp only [upd_other _ _ _ _ e2]
  have hv : ∀ v, { (State.enter ts (some i) o
      { t.1 with
        links := upd t.1.links i
          { t.1.links i with link := (t.1.links i).link.setFinished r.2.1 } } r.1).vehs v with
      cur := none } = { t.1.vehs v with cur := none } := fun v => cur_only r.1 (some o) t.1.vehs v
  have hn : ∀ v, ((State.enter ts (some i) o
      { t.1 with
        links := upd t.1.links i
          { t.1.links i with link := (t.1.links i).link.setFinished r.2.1 } } r.1).vehs v).next
      = (t.1.vehs v).next := by
    intro v; have := hv v; simp only [Veh.mk.injEq] at this; tauto
  refine ⟨?_, ?_, ?_, ?_, ⟨rfl, hv, ?_⟩, ?_⟩
  · intro i' o'
    unfold State.waiting
    simp only [hn, hf]
    by_cases e1 : i' = i
    · subst e1
      rw [if_pos rfl]
      by_cases e2 : o' = o
      · subst e2
        simp only [and_self, if_true]
        exact h2
      · rw [if_neg (fun h => e2 h.2), List.drop_zero]
        refine h3 (fun v => decide ((t.1.vehs v).next = some o')) ?_
        intro v hv
        simp only [State.heads, decide_eq_true_eq] at hv
        simp only [hv, decide_eq_false_iff_not, Option.some.injEq]
        exact fun e => e2 e.symm
    · rw [if_neg e1, if_neg (fun h => e1 h.1), List.drop_zero]
  · intro o'
    rw [hi]
    by_cases e : o' = o
    · simp only [e, if_true]; rw [h1]
    · simp only [e, if_false, List.append_nil]
  · intro i'
    rw [hf]
    split
    · rename_i e; subst e; exact hsp
    · exact List.Sublist.refl _
  · intro i' hk
    rw [hf]
    by_cases e : i' = i
    · subst e
      have h0 := hk o
      simp only [and_self, if_true] at h0
      rw [if_pos rfl]
      subst h0
      have hl : r.1 = [] := by rw [h1]; rfl
      refine List.Sublist.eq_of_length_le hsp ?_
      have hlen := hsq.length_eq
      rw [hl, List.nil_append] at hlen
      exact hlen.ge
    · rw [if_neg e]
  · intro l
    rw [hf, hi]
    unfold State.enter State.fin State.inc
    simp only
    by_cases e1 : l = o
    · subst e1
      rw [upd_same, if_pos rfl]
      by_cases e2 : l = i
      · subst e2
        simp only [upd_same, if_true]
        cases (t.1.links l).link <;> rfl
      · simp only [upd_other _ _ _ _ e2, if_neg e2]
        cases (t.1.links l).link <;> rfl
    · rw [upd_other _ _ _ _ e1, if_neg e1]
      by_cases e2 : l = i
      · subst e2
        simp only [upd_same, if_true]
        cases (t.1.links l).link <;> rfl
      · simp only [upd_other _ _ _ _ e2, if_neg e2]
        exact (setSelf _).symm
  · intro l y
    unfold State.enter
    simp only
    by_cases e1 : l = o
    · subst e1
      rw [upd_same]
      by_cases e2 : l = i
      · subst e2
        simp only [upd_same]
        exact ⟨rfl, rfl⟩
      · simp only [upd_other _ _ _ _ e2]
        exact ⟨rfl, rfl⟩
    · rw [upd_other _ _ _ _ e1]
      by_cases e2 : l = i
      · subst e2
        simp only [upd_same]
        exact ⟨rfl, rfl⟩
      · simp only [upd_other _ _ _ _ e2]
        exact ⟨trivial, trivial⟩

theorem moveCol_pushed {scalar factor : ℚ} {ts o b : ℕ} {ins : List ℕ} (hin : ins.Nodup)
    {flow : List ℚ} : ∀ (order : List ℕ) (t : State × Moved), order.Nodup →
      (∀ a ∈ order, a < ins.length) →
      (∀ a ∈ order, ∀ i, ins[a]? = some i →
        flow.getD a 0 * scalar ≤ load factor t.1.truck (t.1.waiting i o)) →
      ∃ t', moveCol scalar factor ts ins order b o flow t = .ok t' ∧
        Pushed (fun i' o' => if ins.idxOf i' ∈ order ∧ o' = o then
            need (equiv factor t.1.truck) (flow.getD (ins.idxOf i') 0 * scalar) (t.1.waiting i' o)
            else 0)
          (fun o' => if o' = o then order.flatMap fun a => (t.1.waiting (ins.getD a 0) o).take
            (need (equiv factor t.1.truck) (flow.getD a 0 * scalar) (t.1.waiting (ins.getD a 0) o))
            else []) t.1 t'.1
  | [], t, _, _, _ => by
    refine ⟨t, rfl, (Pushed.refl t.1).congr (by simp) ?_⟩
    intro o'; split <;> rfl
  | a :: order, t, hnd, hlt, hx => by
    rw [List.nodup_cons] at hnd
    have ha := hlt a (by simp)
    have hai : ins[a]? = some ins[a] := List.getElem?_eq_getElem ha
    have hgd : ins.getD a 0 = ins[a] := by simp [List.getD, hai]
    have hidx : ins.idxOf ins[a] = a := List.Nodup.idxOf_getElem hin a ha
    obtain ⟨t1, e1, P1⟩ := moveOne_pushed (ts := ts) (b := b) (a := a) t (hx a (by simp) ins[a] hai)
    have hw : ∀ k, k < ins.length → k ≠ a → t1.1.waiting (ins.getD k 0) o
        = t.1.waiting (ins.getD k 0) o := by
      intro k hk hne
      have hki : ins.getD k 0 = ins[k] := by simp [List.getD, List.getElem?_eq_getElem hk]
      rw [P1.wait, if_neg, List.drop_zero]
      rintro ⟨e, -⟩
      rw [hki] at e
      exact hne ((List.Nodup.getElem_inj_iff hin).1 e)
    have htr := P1.only.truck
    have hload : ∀ k ∈ order, ∀ i, ins[k]? = some i →
        flow.getD k 0 * scalar ≤ load factor t1.1.truck (t1.1.waiting i o) := by
      intro k hko i hk
      have hlt' : k < ins.length := hlt k (by simp [hko])
      have := hw k hlt' (fun e => hnd.1 (e ▸ hko))
      have hki : ins.getD k 0 = i := by simp [List.getD, hk]
      rw [hki] at this
      rw [htr, this]
      exact hx k (by simp [hko]) i hk
    obtain ⟨t', e2, P2⟩ := moveCol_pushed (ts := ts) (b := b) hin order t1 hnd.2
      (fun k hk => hlt k (by simp [hk])) hload
    refine ⟨t', ?_, (P1.trans P2).congr ?_ ?_⟩
    · unfold moveCol at e2 ⊢
      rw [Res.foldlM_cons, hai]
      simp only
      rw [e1, Res.ok_bind]
      exact e2
    · intro i' o'
      by_cases eo : o' = o
      · subst eo
        by_cases ei : i' = ins[a]
        · subst ei
          rw [hidx]
          simp [hnd.1]
        · by_cases hm : ins.idxOf i' ∈ order
          · have hlt' : ins.idxOf i' < ins.length := hlt _ (by simp [hm])
            have hg : ins.getD (ins.idxOf i') 0 = i' := by
              simp [List.getD, List.getElem?_eq_getElem hlt']
            have := hw _ hlt' (fun e => hnd.1 (e ▸ hm))
            rw [hg] at this
            simp only [ei, false_and, if_false, hm, true_and, and_self, if_true, List.mem_cons, or_true,
              this, htr, Nat.zero_add]
          · have hne : ins.idxOf i' ≠ a := by
              intro e
              have hlt' : ins.idxOf i' < ins.length := by omega
              have := List.getElem_idxOf hlt'
              apply ei
              rw [← this]; simp only [e]
            simp [ei, hm, hne]
      · simp [eo]
    · intro o'
      by_cases eo : o' = o
      · subst eo
        simp only [if_true, List.flatMap_cons, hgd]
        congr 1
        apply List.flatMap_congr
        intro k hk
        have := hw k (hlt k (by simp [hk])) (fun e => hnd.1 (e ▸ hk))
        simp only [this, htr]
      · simp [eo]

/-- What is computed for the exits in `cols`. -/
theorem moveAll_pushed {scalar factor : ℚ} {ts : ℕ} {ins : List ℕ} (hin : ins.Nodup)
    {order : ℕ → List ℕ} (hord : ∀ k, (order k).Perm (List.range ins.length)) :
    ∀ (cols : List (ℕ × List ℚ)) (b : ℕ) (t : State × Moved), (cols.map Prod.fst).Nodup →
      (∀ c ∈ cols, ∀ a i, ins[a]? = some i →
        c.2.getD a 0 * scalar ≤ load factor t.1.truck (t.1.waiting i c.1)) →
      ∃ t' k add, moveAll scalar factor ts ins order b t cols = .ok t' ∧ Pushed k add t.1 t'.1 ∧
        (∀ o, o ∉ cols.map Prod.fst → (∀ i, k i o = 0) ∧ add o = []) ∧
        (∀ i, i ∉ ins → ∀ o, k i o = 0) ∧
        ∀ (j : ℕ) c, cols[j]? = some c →
          (∀ a i, ins[a]? = some i → k i c.1
            = need (equiv factor t.1.truck) (c.2.getD a 0 * scalar) (t.1.waiting i c.1)) ∧
          add c.1 = (order (b + j)).flatMap fun a => (t.1.waiting (ins.getD a 0) c.1).take
            (k (ins.getD a 0) c.1)
  | [], b, t, _, _ => ⟨t, _, _, rfl, Pushed.refl t.1, fun _ _ => ⟨fun _ => rfl, rfl⟩,
      fun _ _ _ => rfl, by simp⟩
  | c :: cols, b, t, hnd, hx => by
    simp only [List.map_cons, List.nodup_cons] at hnd
    obtain ⟨t1, e1, P1⟩ := moveCol_pushed (ts := ts) (b := b) (o := c.1) (flow := c.2) hin (order b) t
      ((hord b).nodup_iff.2 List.nodup_range)
      (fun a ha => by simpa using (hord b).mem_iff.1 ha) (fun a _ i hi => hx c (by simp) a i hi)
    have htr := P1.only.truck
    have hw : ∀ i o', o' ≠ c.1 → t1.1.waiting i o' = t.1.waiting i o' := by
      intro i o' ho
      rw [P1.wait, if_neg (fun h => ho h.2), List.drop_zero]
    obtain ⟨t', k, add, e2, P2, h1, h2, h3⟩ := moveAll_pushed (ts := ts) hin hord cols (b + 1) t1 hnd.2 (by
      intro c' hc' a i hi
      have hne : c'.1 ≠ c.1 := fun e => hnd.1 (e ▸ List.mem_map_of_mem (f := Prod.fst) hc')
      rw [htr, hw i _ hne]
      exact hx c' (by simp [hc']) a i hi)
    have hmem : ∀ a i, ins[a]? = some i → ins.idxOf i = a ∧ a ∈ order b := by
      intro a i hi
      obtain ⟨hl, e⟩ := List.getElem?_eq_some_iff.1 hi
      refine ⟨by rw [← e]; exact List.Nodup.idxOf_getElem hin a hl, ?_⟩
      exact (hord b).mem_iff.2 (by simpa using hl)
    refine ⟨t', _, _, ?_, P1.trans P2, ?_, ?_, ?_⟩
    · simp only [moveAll]
      rw [e1, Res.bind_ok']
      exact e2
    · intro o ho
      simp only [List.map_cons, List.mem_cons, not_or] at ho
      obtain ⟨q1, q2⟩ := h1 o ho.2
      simp only [ho.1, and_false, if_false, q1, q2, Nat.add_zero, List.append_nil, implies_true, and_self]
    · intro i hi o
      rw [h2 i hi o, if_neg]
      rintro ⟨hm, -⟩
      have : ins.idxOf i < ins.length := by simpa using (hord b).mem_iff.1 hm
      exact hi (List.idxOf_lt_length_iff.1 this)
    · intro j c' hj
      cases j with
      | zero =>
        simp only [List.getElem?_cons_zero, Option.some.injEq] at hj
        subst hj
        obtain ⟨q1, q2⟩ := h1 c.1 hnd.1
        have hk : ∀ a i, ins[a]? = some i →
            (if ins.idxOf i ∈ order b ∧ c.1 = c.1 then
              need (equiv factor t.1.truck) (c.2.getD (ins.idxOf i) 0 * scalar) (t.1.waiting i c.1)
              else 0) + k i c.1
            = need (equiv factor t.1.truck) (c.2.getD a 0 * scalar) (t.1.waiting i c.1) := by
          intro a i hi
          obtain ⟨m1, m2⟩ := hmem a i hi
          rw [m1, if_pos ⟨m2, rfl⟩, q1, Nat.add_zero]
        refine ⟨hk, ?_⟩
        simp only [if_true, q2, List.append_nil, Nat.add_zero]
        apply List.flatMap_congr
        intro a ha
        have hl : a < ins.length := by simpa using (hord b).mem_iff.1 ha
        have hi : ins[a]? = some (ins.getD a 0) := by
          simp [List.getD, List.getElem?_eq_getElem hl]
        have := hk a _ hi
        simp only [and_true] at this
        rw [← this]
        simp
      | succ j =>
        simp only [List.getElem?_cons_succ] at hj
        have hc' : c'.1 ∈ cols.map Prod.fst := List.mem_map_of_mem (List.mem_of_getElem? hj)
        have hne : c'.1 ≠ c.1 := fun e => hnd.1 (e ▸ hc')
        obtain ⟨q1, q2⟩ := h3 j c' hj
        simp only [hne, and_false, if_false, Nat.zero_add, List.nil_append]
        refine ⟨?_, ?_⟩
        · intro a i hi
          rw [q1 a i hi, hw i _ hne, htr]
        · rw [q2, show b + 1 + j = b + (j + 1) from by omega]
          apply List.flatMap_congr
          intro a _
          rw [hw _ _ hne]

/-! ### Flows -/

theorem load_nonneg {factor : ℚ} (hf : 0 ≤ factor) (truck : ℕ → Bool) (l : List ℕ) :
    0 ≤ load factor truck l := by
  unfold load
  apply List.sum_nonneg
  intro x hx
  obtain ⟨v, _, rfl⟩ := List.mem_map.1 hx
  split
  · exact hf
  · norm_num

/-- All car equivalents waiting for an exit. -/
def waitingLoad (factor : ℚ) (s : State) (ins : List ℕ) (o : ℕ) : ℚ :=
  (ins.map fun i => load factor s.truck (s.waiting i o)).sum

theorem demandCol_get {scalar factor : ℚ} {s : State} {ins : List ℕ} {o a i : ℕ}
    (h : ins[a]? = some i) :
    (demandCol scalar factor s ins o)[a]? = some (load factor s.truck (s.waiting i o) / scalar) := by
  unfold demandCol
  rw [List.getElem?_map, h]; rfl

theorem demandCol_sum (scalar factor : ℚ) (s : State) (ins : List ℕ) (o : ℕ) :
    (demandCol scalar factor s ins o).sum = waitingLoad factor s ins o / scalar := by
  unfold demandCol waitingLoad
  induction ins with
  | nil => simp
  | cons i ins ih =>
    simp only [List.map_cons, List.sum_cons]
    rw [ih, add_div]; rfl

/-- The flow from one entrance to one exit, in car equivalents. -/
theorem flow_eq {scalar factor : ℚ} (hs : 0 < scalar) (hf : 0 ≤ factor) {s : State} {ins : List ℕ}
    {o a i : ℕ} (sup : ℚ) (h : ins[a]? = some i) :
    (fwjCol (demandCol scalar factor s ins o) sup).getD a 0 * scalar
      = share (load factor s.truck (s.waiting i o)) (waitingLoad factor s ins o) (sup * scalar) := by
  have hg : (fwjCol (demandCol scalar factor s ins o) sup).getD a 0
      = min (load factor s.truck (s.waiting i o) / scalar)
        (divide (load factor s.truck (s.waiting i o) / scalar)
          (waitingLoad factor s ins o / scalar) * sup) := by
    unfold fwjCol
    rw [List.getD, List.getElem?_map, demandCol_get h, demandCol_sum]
    rfl
  rw [hg]
  have hd := load_nonneg hf s.truck (s.waiting i o)
  have hle : load factor s.truck (s.waiting i o) ≤ waitingLoad factor s ins o := by
    unfold waitingLoad
    refine List.single_le_sum ?_ _ (List.mem_map.2 ⟨i, List.mem_of_getElem? h, rfl⟩)
    intro x hx
    obtain ⟨k, _, rfl⟩ := List.mem_map.1 hx
    exact load_nonneg hf _ _
  generalize load factor s.truck (s.waiting i o) = d at *
  generalize waitingLoad factor s ins o = T at *
  unfold share divide
  by_cases hT : T = 0
  · have : d = 0 := by linarith
    simp [hT, this]
  · have hTp : 0 < T := lt_of_le_of_ne (by linarith) (Ne.symm hT)
    rw [if_neg hT]
    by_cases hd0 : d = 0
    · simp [hd0]
    have e1 : d / scalar ≠ 0 := div_ne_zero hd0 hs.ne'
    have e2 : T / scalar ≠ 0 := div_ne_zero hT hs.ne'
    rw [if_neg e1, if_neg e2]
    have e3 : d / scalar / (T / scalar) = d / T := by field_simp
    rw [e3, min_mul_of_nonneg _ _ hs.le, mul_min_of_nonneg _ _ hd, ← min_div_div_right hTp.le]
    congr 1
    · field_simp
    · field_simp

theorem share_le {d T cap : ℚ} (hd : 0 ≤ d) (hT : d ≤ T) : share d T cap ≤ d := by
  unfold share
  split
  · exact hd
  · rename_i h
    have hTp : 0 < T := lt_of_le_of_ne (by linarith) (Ne.symm h)
    rw [div_le_iff₀ hTp]
    exact mul_le_mul_of_nonneg_left (min_le_left _ _) hd

theorem load_le_waiting {factor : ℚ} (hf : 0 ≤ factor) {s : State} {ins : List ℕ} {i : ℕ} (o : ℕ)
    (h : i ∈ ins) : load factor s.truck (s.waiting i o) ≤ waitingLoad factor s ins o := by
  unfold waitingLoad
  refine List.single_le_sum ?_ _ (List.mem_map.2 ⟨i, h, rfl⟩)
  intro x hx
  obtain ⟨k, _, rfl⟩ := List.mem_map.1 hx
  exact load_nonneg hf _ _

theorem supplies_get {s : State} : ∀ {os : List ℕ} {r : List ℚ}, supplies s os = .ok r →
    ∀ (j o : ℕ), os[j]? = some o → ∃ x, r[j]? = some x ∧ (s.links o).link.supply = .ok x
  | [], r, h, j, o, hj => by simp at hj
  | o :: os, r, h, j, o', hj => by
    simp only [supplies] at h
    rw [Res.bind_eq_ok'] at h
    obtain ⟨x, hx, h⟩ := h
    rw [Res.bind_eq_ok'] at h
    obtain ⟨r', hr, h⟩ := h
    cases h
    cases j with
    | zero => simp at hj; subst hj; exact ⟨x, rfl, hx⟩
    | succ j => simpa using supplies_get hr j o' (by simpa using hj)

theorem supplies_ok {s : State} : ∀ {os : List ℕ},
    (∀ o ∈ os, ∃ x, (s.links o).link.supply = .ok x) → ∃ r, supplies s os = .ok r
  | [], _ => ⟨[], rfl⟩
  | o :: os, h => by
    obtain ⟨x, hx⟩ := h o (by simp)
    obtain ⟨r, hr⟩ := supplies_ok (s := s) (os := os) fun o' ho => h o' (by simp [ho])
    exact ⟨x :: r, by simp [supplies, hx, hr, Res.bind_ok']⟩

/-- The moves of a junction always go through, and this is what they do. -/
theorem moves_pushed {scalar factor : ℚ} (hs : 0 < scalar) (hf : 0 ≤ factor) {ts : ℕ}
    {ins outs : List ℕ} (hin : ins.Nodup) (hout : outs.Nodup) {order : ℕ → List ℕ}
    (hord : ∀ k, (order k).Perm (List.range ins.length)) {s : State} {sups : List ℚ}
    (hsup : supplies s outs = .ok sups) :
    ∃ t' k add, moveAll scalar factor ts ins order 0 (s, fun _ _ => (0, 0))
        (outs.zip (((outs.map (demandCol scalar factor s ins)).zip sups).map fun c => fwjCol c.1 c.2))
        = .ok t' ∧ Pushed k add s t'.1 ∧
      (∀ o, o ∉ outs → add o = []) ∧ (∀ i, i ∉ ins → ∀ o, k i o = 0) ∧
      ∀ (j o : ℕ), outs[j]? = some o → ∃ sup, (s.links o).link.supply = .ok sup ∧
        (∀ i ∈ ins, k i o = need (equiv factor s.truck)
          (share (load factor s.truck (s.waiting i o)) (waitingLoad factor s ins o) (sup * scalar))
          (s.waiting i o)) ∧
        add o = (order j).flatMap fun a => (s.waiting (ins.getD a 0) o).take (k (ins.getD a 0) o) := by
  have hsl := supplies_length hsup
  set cols := outs.zip
    (((outs.map (demandCol scalar factor s ins)).zip sups).map fun c => fwjCol c.1 c.2) with hcols
  have hfst : cols.map Prod.fst = outs := by
    rw [hcols]; exact List.map_fst_zip (by simp [hsl])
  have hget : ∀ (j o : ℕ), outs[j]? = some o → ∃ sup, (s.links o).link.supply = .ok sup ∧
      cols[j]? = some (o, fwjCol (demandCol scalar factor s ins o) sup) := by
    intro j o hj
    obtain ⟨x, h1, h2⟩ := supplies_get hsup j o hj
    refine ⟨x, h2, ?_⟩
    rw [hcols, List.getElem?_zip_eq_some]
    refine ⟨hj, ?_⟩
    rw [List.getElem?_map]
    have : ((outs.map (demandCol scalar factor s ins)).zip sups)[j]?
        = some (demandCol scalar factor s ins o, x) := by
      rw [List.getElem?_zip_eq_some]
      exact ⟨by rw [List.getElem?_map, hj]; rfl, h1⟩
    rw [this]; rfl
  have hcol : ∀ c ∈ cols, ∃ sup, c.2 = fwjCol (demandCol scalar factor s ins c.1) sup := by
    intro c hc
    obtain ⟨j, hj⟩ := List.mem_iff_getElem?.1 hc
    have ho : outs[j]? = some c.1 := by rw [← hfst, List.getElem?_map, hj]; rfl
    obtain ⟨sup, _, h2⟩ := hget j c.1 ho
    rw [hj] at h2
    simp only [Option.some.injEq] at h2
    exact ⟨sup, by rw [h2]⟩
  obtain ⟨t', k, add, e, P, h1, h2, h3⟩ := moveAll_pushed (ts := ts) (factor := factor)
    (scalar := scalar) hin hord cols 0 (s, fun _ _ => (0, 0)) (by rw [hfst]; exact hout) (by
      intro c hc a i hi
      obtain ⟨sup, e⟩ := hcol c hc
      rw [e, flow_eq hs hf sup hi]
      exact share_le (load_nonneg hf _ _) (load_le_waiting hf _ (List.mem_of_getElem? hi)))
  refine ⟨t', k, add, e, P, ?_, h2, ?_⟩
  · intro o ho
    rw [← hfst] at ho
    exact (h1 o ho).2
  · intro j o hj
    obtain ⟨sup, q1, q2⟩ := hget j o hj
    obtain ⟨q3, q4⟩ := h3 j _ q2
    refine ⟨sup, q1, ?_, ?_⟩
    · intro i hi
      have := q3 _ i (idxOf_get? hi)
      simp only at this
      rw [this, flow_eq hs hf sup (idxOf_get? hi)]
    · simpa using q4

/-! ### Curves -/

theorem note_ok {scalar : ℚ} {ts n : ℕ} {k : Option Curve} (h : CurveReady ((ts : ℚ) + 1) k) :
    ∃ k', note scalar ts n k = .ok k' := by
  unfold note
  split
  · cases k with
    | none => exact ⟨none, rfl⟩
    | some c =>
      obtain ⟨b, e1, e2⟩ := h
      obtain ⟨c', hc'⟩ := addIncrement_ok (x := ((n : ℤ) : ℚ) / scalar) e1 e2
      exact ⟨some c', by simp only [recordOpt]; rw [hc', Res.bind_ok']⟩
  · exact ⟨k, rfl⟩

theorem noteIn_ok {scalar : ℚ} {ts l nc nt : ℕ} {s : State}
    (h : ∀ b, CurveReady ((ts : ℚ) + 1) ((s.links l).nIn b)) :
    ∃ s', s.noteIn scalar ts l nc nt = .ok s' := by
  obtain ⟨a, ha⟩ := note_ok (scalar := scalar) (n := nc) (h false)
  obtain ⟨b, hb⟩ := note_ok (scalar := scalar) (n := nt) (h true)
  unfold State.noteIn
  have ha' : note scalar ts nc (s.links l).nInCar = .ok a := ha
  have hb' : note scalar ts nt (s.links l).nInTruck = .ok b := hb
  rw [ha', Res.bind_ok', hb', Res.bind_ok']
  exact ⟨_, rfl⟩

theorem noteOut_ok {scalar : ℚ} {ts l nc nt : ℕ} {s : State}
    (h : ∀ b, CurveReady ((ts : ℚ) + 1) ((s.links l).nOut b)) :
    ∃ s', s.noteOut scalar ts l nc nt = .ok s' := by
  obtain ⟨a, ha⟩ := note_ok (scalar := scalar) (n := nc) (h false)
  obtain ⟨b, hb⟩ := note_ok (scalar := scalar) (n := nt) (h true)
  unfold State.noteOut
  have ha' : note scalar ts nc (s.links l).nOutCar = .ok a := ha
  have hb' : note scalar ts nt (s.links l).nOutTruck = .ok b := hb
  rw [ha', Res.bind_ok', hb', Res.bind_ok']
  exact ⟨_, rfl⟩

theorem recordOuts_ok {scalar : ℚ} {ts nIn : ℕ} {mv : Moved} : ∀ (os : List ℕ) (b : ℕ) (s : State),
    os.Nodup → (∀ o ∈ os, ∀ x, CurveReady ((ts : ℚ) + 1) ((s.links o).nIn x)) →
    ∃ s', recordOuts scalar ts nIn mv b s os = .ok s'
  | [], b, s, _, _ => ⟨s, rfl⟩
  | o :: os, b, s, hnd, h => by
    rw [List.nodup_cons] at hnd
    obtain ⟨s1, h1⟩ := noteIn_ok (scalar := scalar) (nc := total nIn fun a => (mv a b).1)
      (nt := total nIn fun a => (mv a b).2) (h o (by simp))
    obtain ⟨_, _, _, a4, _⟩ := noteIn_spec h1
    obtain ⟨s', h2⟩ := recordOuts_ok os (b + 1) s1 hnd.2 (by
      intro o' ho x
      rw [a4 o' x (fun e => hnd.1 (e ▸ ho))]
      exact h o' (by simp [ho]) x)
    exact ⟨s', by simp only [recordOuts]; rw [h1, Res.bind_ok']; exact h2⟩

theorem recordIns_ok {scalar : ℚ} {ts nOut : ℕ} {mv : Moved} : ∀ (is : List ℕ) (a : ℕ) (s : State),
    is.Nodup → (∀ i ∈ is, ∀ x, CurveReady ((ts : ℚ) + 1) ((s.links i).nOut x)) →
    ∃ s', recordIns scalar ts nOut mv a s is = .ok s'
  | [], a, s, _, _ => ⟨s, rfl⟩
  | o :: os, b, s, hnd, h => by
    rw [List.nodup_cons] at hnd
    obtain ⟨s1, h1⟩ := noteOut_ok (scalar := scalar) (nc := total nOut fun a => (mv b a).1)
      (nt := total nOut fun a => (mv b a).2) (h o (by simp))
    obtain ⟨_, _, _, a4, _⟩ := noteOut_spec h1
    obtain ⟨s', h2⟩ := recordIns_ok os (b + 1) s1 hnd.2 (by
      intro o' ho x
      rw [a4 o' x (fun e => hnd.1 (e ▸ ho))]
      exact h o' (by simp [ho]) x)
    exact ⟨s', by simp only [recordIns]; rw [h1, Res.bind_ok']; exact h2⟩

/-! ### The whole interval of a junction -/

/-- A network with one junction, to use what is known of networks. -/
def nodeCfg (scalar : ℚ) (ins outs : List ℕ) : Cfg where
  net := { scalar := scalar, assignFreq := 1, totalAssign := 0, linkIds := (ins ++ outs).dedup,
           nodeIds := [0], node := fun _ => .fwj ins outs, toNode := fun _ => 0,
           outLinks := fun _ => [], originIds := [], origin := fun _ => ⟨0, 1, [], fun _ => none, []⟩,
           destIds := [], destNode := fun _ => 0 }
  factor := 1
  dem _ := ⟨[], [], fun _ => none, fun _ => none, [], []⟩
  attrs _ := []

theorem nodeCfg_ok {scalar : ℚ} {ins outs : List ℕ} (hi : ins.Nodup) (ho : outs.Nodup) :
    (nodeCfg scalar ins outs).net.Ok := by
  refine ⟨List.nodup_dedup _, by simp [nodeCfg], ?_, ?_, ?_, ?_⟩
  · intro n _
    refine ⟨hi, ?_⟩
    intro l hl
    simp only [nodeCfg, List.mem_dedup, List.mem_append]
    exact Or.inl hl
  · intro n _
    refine ⟨ho, ?_⟩
    intro l hl
    simp only [nodeCfg, List.mem_dedup, List.mem_append]
    exact Or.inr hl
  · intro o h; simp [nodeCfg] at h
  · intro o h; simp [nodeCfg] at h

theorem OnlyCurves.moves {s s' : State} (h : OnlyCurves s s') : OnlyMoves s s' := by
  refine ⟨?_, ?_, ?_⟩
  · have h1 : s'.vehs = s.vehs := by rw [h.rest]
    have h2 : s'.log = s.log := by rw [h.rest]
    rw [h1, h2]
    exact h.rest
  · intro v; rw [h.rest]
  · intro l
    have e1 : s'.fin l = (s.links l).link.finished := by unfold State.fin; rw [h.link]
    have e2 : s'.inc l = (s.links l).link.incoming := by unfold State.inc; rw [h.link]
    rw [h.link, e1, e2, setSelf]

theorem OnlyCurves.queues {s s' : State} (h : OnlyCurves s s') :
    (∀ l, s'.fin l = s.fin l) ∧ (∀ l, s'.inc l = s.inc l) ∧
    ∀ i o, s'.waiting i o = s.waiting i o := by
  have hv : s'.vehs = s.vehs := by rw [h.rest]
  refine ⟨fun l => by unfold State.fin; rw [h.link], fun l => by unfold State.inc; rw [h.link], ?_⟩
  intro i o
  unfold State.waiting State.fin
  rw [h.link, hv]

/-- What one interval of a junction does. -/
structure JunctionSpec (scalar factor : ℚ) (ts : ℕ) (ins outs : List ℕ) (order : ℕ → List ℕ)
    (k : ℕ → ℕ → ℕ) (s s' : State) : Prop where
  right : onRightNode s ins outs = true
  wait : ∀ i o, s'.waiting i o = (s.waiting i o).drop (k i o)
  sub : ∀ i, (s'.fin i).Sublist (s.fin i)
  finOther : ∀ i, i ∉ ins → s'.fin i = s.fin i
  incOther : ∀ o, o ∉ outs → s'.inc o = s.inc o
  only : OnlyMoves s s'
  exits : ∀ (j o : ℕ), outs[j]? = some o → ∃ sup, (s.links o).link.supply = .ok sup ∧
    (∀ i ∈ ins, k i o = need (equiv factor s.truck)
      (share (load factor s.truck (s.waiting i o)) (waitingLoad factor s ins o) (sup * scalar))
      (s.waiting i o)) ∧
    s'.inc o = s.inc o ++ (order j).flatMap fun a =>
      (s.waiting (ins.getD a 0) o).take (k (ins.getD a 0) o)
  nIn : ∀ o ∈ outs, ∀ b, Recorded scalar ts (cls s.truck b (s'.inc o) - cls s.truck b (s.inc o) : ℕ)
    ((s.links o).nIn b) ((s'.links o).nIn b)
  nOut : ∀ i ∈ ins, ∀ b, Recorded scalar ts (cls s.truck b (s.fin i) - cls s.truck b (s'.fin i) : ℕ)
    ((s.links i).nOut b) ((s'.links i).nOut b)
  nInOther : ∀ l, l ∉ outs → ∀ b, (s'.links l).nIn b = (s.links l).nIn b
  nOutOther : ∀ l, l ∉ ins → ∀ b, (s'.links l).nOut b = (s.links l).nOut b

theorem junction_spec {scalar factor : ℚ} (hs : 0 < scalar) (hf : 0 ≤ factor) {ts : ℕ}
    {ins outs : List ℕ} (hin : ins.Nodup) (hout : outs.Nodup) {order : ℕ → List ℕ}
    (hord : ∀ k, (order k).Perm (List.range ins.length)) {s s' : State}
    (h : inoutEvolve scalar factor ts ins outs order s = .ok s') :
    ∃ k, JunctionSpec scalar factor ts ins outs order k s s' := by
  unfold inoutEvolve at h
  split at h
  swap
  · simp at h
  rename_i hr
  rw [Res.bind_eq_ok'] at h
  obtain ⟨sups, hsup, h⟩ := h
  simp only at h
  rw [Res.bind_eq_ok'] at h
  obtain ⟨t, ht, h⟩ := h
  rw [Res.bind_eq_ok'] at h
  obtain ⟨s1, h1, h2⟩ := h
  have hsl := supplies_length hsup
  have I : MI (nodeCfg scalar ins outs) ins outs s t := by
    refine moveAll_MI (nodeCfg_ok hin hout) hin hout ?_ ?_
      (fun k => (hord k).nodup_iff.2 List.nodup_range)
      _ 0 _ t ?_ ?_ (MI.refl _ ins outs s) (fun _ _ _ => rfl) ht
    · exact ((nodeCfg_ok (scalar := scalar) hin hout).ins 0 (by simp [nodeCfg])).2
    · exact ((nodeCfg_ok (scalar := scalar) hin hout).outs 0 (by simp [nodeCfg])).2
    · intro k
      by_cases hk : k < outs.length
      · left
        rw [List.map_fst_zip (by simp [hsl])]
        rw [Nat.zero_add, List.getElem?_eq_getElem hk]; rfl
      · right; simp [hsl]; omega
    · simp [hsl]
  obtain ⟨t', k, add, e, P, p1, p2, p3⟩ := moves_pushed (ts := ts) hs hf hin hout hord hsup
  have ett : t' = t := by
    have := e.symm.trans ht
    cases this; rfl
  subst ett
  obtain ⟨a1, a2, a3, a4⟩ := recordOuts_spec outs 0 _ _ hout h1
  obtain ⟨b1, b2, b3, b4⟩ := recordIns_spec ins 0 _ _ hin h2
  have O := a1.trans b1
  obtain ⟨f2, i2, w2⟩ := O.queues
  refine ⟨k, hr, ?_, ?_, ?_, ?_, P.only.trans O.moves, ?_, ?_, ?_, ?_, ?_⟩
  · intro i o; rw [w2, P.wait]
  · intro i; rw [f2]; exact P.sub i
  · intro i hi; rw [f2]; exact P.same i (p2 i hi)
  · intro o ho; rw [i2, P.inc, p1 o ho, List.append_nil]
  · intro j o hj
    obtain ⟨sup, q1, q2, q3⟩ := p3 j o hj
    exact ⟨sup, q1, q2, by rw [i2, P.inc, q3]⟩
  · intro o ho b
    have := a4 _ o b (idxOf_get? ho)
    rw [Nat.zero_add] at this
    rw [i2, b2, I.inc _ o b (idxOf_get? ho), ← (I.curves o b).1, Nat.add_sub_cancel_left]
    exact this
  · intro i hi b
    have := b4 _ i b (idxOf_get? hi)
    rw [Nat.zero_add] at this
    rw [f2, I.fin _ i b (idxOf_get? hi), ← (I.curves i b).2, ← a2, Nat.add_sub_cancel_left]
    exact this
  · intro l hl b
    rw [b2, a3 l b hl, (I.curves l b).1]
  · intro l hl b
    rw [b3 l b hl, a2, (I.curves l b).2]

theorem junction_ok {scalar factor : ℚ} (hs : 0 < scalar) (hf : 0 ≤ factor) {ts : ℕ}
    {ins outs : List ℕ} (hin : ins.Nodup) (hout : outs.Nodup) {order : ℕ → List ℕ}
    (hord : ∀ k, (order k).Perm (List.range ins.length)) {s : State}
    (hr : onRightNode s ins outs = true) (hsup : ∀ o ∈ outs, ∃ x, (s.links o).link.supply = .ok x)
    (hci : ∀ o ∈ outs, ∀ b, CurveReady ((ts : ℚ) + 1) ((s.links o).nIn b))
    (hco : ∀ i ∈ ins, ∀ b, CurveReady ((ts : ℚ) + 1) ((s.links i).nOut b)) :
    ∃ s', inoutEvolve scalar factor ts ins outs order s = .ok s' := by
  obtain ⟨sups, hsup⟩ := supplies_ok hsup
  obtain ⟨t, k, add, e, P, _, _, _⟩ := moves_pushed (ts := ts) hs hf hin hout hord hsup
  obtain ⟨s1, h1⟩ := recordOuts_ok (scalar := scalar) (ts := ts) (nIn := ins.length) (mv := t.2) outs 0
    t.1 hout (fun o ho b => by rw [(P.curves o b).1]; exact hci o ho b)
  obtain ⟨_, a2, _, _⟩ := recordOuts_spec outs 0 _ _ hout h1
  obtain ⟨s2, h2⟩ := recordIns_ok (scalar := scalar) (ts := ts) (nOut := outs.length) (mv := t.2) ins 0
    s1 hin (fun i hi b => by rw [a2, (P.curves i b).2]; exact hco i hi b)
  refine ⟨s2, ?_⟩
  unfold inoutEvolve
  rw [if_pos hr, hsup, Res.bind_ok']
  simp only
  rw [e, Res.bind_ok', h1, Res.bind_ok']
  exact h2

/-! ### How much enters an exit -/

theorem load_append (factor : ℚ) (truck : ℕ → Bool) (l m : List ℕ) :
    load factor truck (l ++ m) = load factor truck l + load factor truck m := by
  unfold load; rw [List.map_append, List.sum_append]

theorem load_flatMap (factor : ℚ) (truck : ℕ → Bool) (f : ℕ → List ℕ) : ∀ l : List ℕ,
    load factor truck (l.flatMap f) = (l.map fun a => load factor truck (f a)).sum
  | [] => rfl
  | a :: l => by
    rw [List.flatMap_cons, load_append, load_flatMap factor truck f l, List.map_cons, List.sum_cons]

theorem map_getD_range (ins : List ℕ) : (List.range ins.length).map (fun a => ins.getD a 0) = ins := by
  apply List.ext_getElem
  · simp
  · intro i h1 h2
    simp [List.getD, List.getElem?_eq_getElem h2]

theorem order_sum {ins order : List ℕ} (h : order.Perm (List.range ins.length)) (g : ℕ → ℚ) :
    (order.map fun a => g (ins.getD a 0)).sum = (ins.map g).sum := by
  rw [(h.map fun a => g (ins.getD a 0)).sum_eq]
  conv_rhs => rw [← map_getD_range ins, List.map_map]
  rfl

theorem share_sum (T cap : ℚ) (d : ℕ → ℚ) : ∀ ins : List ℕ,
    (ins.map fun i => share (d i) T cap).sum = if T = 0 then 0 else (ins.map d).sum * min T cap / T
  | [] => by simp
  | i :: ins => by
    simp only [List.map_cons, List.sum_cons]
    rw [share_sum T cap d ins]
    unfold share
    split
    · simp
    · ring

theorem load_take_lt {factor : ℚ} {truck : ℕ → Bool} {x : ℚ} {q : List ℕ} (hx : 0 ≤ x) :
    load factor truck (q.take (need (equiv factor truck) x q))
      ≤ x + if q = [] then 0 else max 1 factor := by
  obtain ⟨h1, h2, _⟩ := need_spec (equiv factor truck) x q
  cases hn : need (equiv factor truck) x q with
  | zero =>
    simp only [List.take_zero, load, List.map_nil, List.sum_nil]
    split
    · linarith
    · have := le_max_left (1 : ℚ) factor; linarith
  | succ n =>
    rw [hn] at h1 h2
    have hlt : n < q.length := by omega
    have hq : q ≠ [] := by rintro rfl; simp at hlt
    rw [if_neg hq, List.take_succ_eq_append_getElem hlt, load_append]
    have a := h2 n (by omega)
    have b : load factor truck [q[n]] ≤ max 1 factor := by
      simp only [load, List.map_cons, List.map_nil, List.sum_cons, List.sum_nil, add_zero]
      split
      · exact le_max_right _ _
      · exact le_max_left _ _
    have c : load factor truck (q.take n) < x := a
    linarith

theorem sum_if_count (p : ℕ → Prop) [DecidablePred p] (m : ℚ) : ∀ l : List ℕ,
    (l.map fun i => if p i then 0 else m).sum = ((l.filter fun i => decide (¬ p i)).length : ℚ) * m
  | [] => by simp
  | a :: l => by
    rw [List.map_cons, List.sum_cons, sum_if_count p m l]
    by_cases h : p a
    · rw [if_pos h, List.filter_cons_of_neg (by simp [h])]; ring
    · rw [if_neg h, List.filter_cons_of_pos (by simp [h])]
      push_cast [List.length_cons]; ring

theorem sum_le_sum_of {f g : ℕ → ℚ} : ∀ {l : List ℕ}, (∀ a ∈ l, f a ≤ g a) →
    (l.map f).sum ≤ (l.map g).sum
  | [], _ => le_refl _
  | a :: l, h => by
    simp only [List.map_cons, List.sum_cons]
    have := sum_le_sum_of (f := f) (g := g) (l := l) fun x hx => h x (by simp [hx])
    have := h a (by simp)
    linarith

theorem sum_add_map (f g : ℕ → ℚ) : ∀ l : List ℕ,
    (l.map fun a => f a + g a).sum = (l.map f).sum + (l.map g).sum
  | [] => by simp
  | a :: l => by
    simp only [List.map_cons, List.sum_cons]
    rw [sum_add_map f g l]; ring

theorem load_zero_of {factor : ℚ} (hf : 0 < factor) {truck : ℕ → Bool} {l : List ℕ}
    (h : load factor truck l ≤ 0) : l = [] := by
  cases l with
  | nil => rfl
  | cons v l =>
    have h1 := load_nonneg hf.le truck l
    unfold load at h h1
    simp only [List.map_cons, List.sum_cons] at h
    exfalso
    split at h <;> linarith

theorem need_all {factor : ℚ} (hf : 0 < factor) {truck : ℕ → Bool} (q : List ℕ) :
    need (equiv factor truck) (load factor truck q) q = q.length := by
  have h := need_enough (eq := equiv factor truck) (x := load factor truck q) (q := q) (le_refl _)
  obtain ⟨h1, _, _⟩ := need_spec (equiv factor truck) (load factor truck q) q
  generalize need (equiv factor truck) (load factor truck q) q = n at *
  have e : load factor truck q = load factor truck (q.take n) + load factor truck (q.drop n) := by
    rw [← load_append, List.take_append_drop]
  have h2 : load factor truck q ≤ load factor truck (q.take n) := h
  have : q.drop n = [] := load_zero_of hf (truck := truck) (by linarith)
  rw [List.drop_eq_nil_iff] at this
  omega

end Verif.MNet

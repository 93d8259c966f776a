import Verif.Lemmas.MmPq
import Mathlib.Data.List.Count
import Mathlib.Data.List.Perm.Subperm

/-! Histories of driving links with stops. -/

namespace Verif.MmLnk
open MLnk

variable {V : Type} [DecidableEq V]
variable {K : Kinds V} {stops : List Stop} {n : ℕ}

/-- The invariant of a link. -/
def LInv (K : Kinds V) (stops : List Stop) (n : ℕ) : Link V → Prop
  | .ctm l => CtmInv K l ∧ l.stops = stops ∧ l.base.cells.length = n
  | .pq l => PqInv K l ∧ l.stops = stops ∧ (max 1 l.base.maxStamp).toNat = n

theorem LInv.facts {l : Link V} (h : LInv K stops n l) : ∃ k A, 1 ≤ k ∧ Inv K stops k n A l.bay ∧
    StopsWf stops n ∧ (∀ c, K.only c l.travelling = trav (A c) n) ∧
    ∀ c p, K.only c (l.at_ p) = A c p := by
  cases l with
  | ctm l =>
    obtain ⟨h1, rfl, rfl⟩ := h
    exact ⟨_, _, h1.scalar, h1.inv, h1.wf, fun c => ctm_travelling c, fun c p => ctm_at c p⟩
  | pq l =>
    obtain ⟨h1, rfl, rfl⟩ := h
    exact ⟨_, _, h1.scalar, h1.inv, h1.wf, fun c => pq_travelling h1 c, fun c p => rfl⟩

theorem count_only (l : List V) (v : V) : (K.only (K.cls v) l).count v = l.count v := by
  simp only [Kinds.only]
  rw [List.count_filter]
  simp

theorem LInv.count {l : Link V} (h : LInv K stops n l) (v : V) :
    (entered l.bay.log).count v = (reachedExit l.bay.log).count v + l.travelling.count v := by
  obtain ⟨k, A, _, hI, _, h1, _⟩ := h.facts
  have := hI.fifo (K.cls v)
  rw [← h1] at this
  have := congrArg (List.count v) this
  rw [List.count_append, count_only, count_only, count_only] at this
  exact this

/-- Everything that is known after a history: `arr` the arrivals, `dep` the departures. -/
structure Acc (K : Kinds V) (stops : List Stop) (n : ℕ) (l : Link V) (arr dep : List V) : Prop where
  inv : LInv K stops n l
  nodup : l.present.Nodup
  came : arr.Perm (entered l.bay.log ++ l.com.incoming)
  went : (reachedExit l.bay.log).Perm (dep ++ l.com.finished)
  order : l.InOrder → arr = entered l.bay.log ++ l.com.incoming

theorem setCom_inv {l : Link V} {c : Common V} (h : LInv K stops n l) : LInv K stops n (l.setCom c) := by
  cases l with
  | ctm l => obtain ⟨h1, h2, h3⟩ := h; exact ⟨⟨h1.scalar, h1.ne, h1.wf, h1.ok, h1.inv⟩, h2, h3⟩
  | pq l => obtain ⟨h1, h2, h3⟩ := h; exact ⟨⟨h1.scalar, h1.pool, h1.wf, h1.low, h1.sorted, h1.inv⟩, h2, h3⟩

theorem setCom_bay (l : Link V) (c : Common V) : (l.setCom c).bay = l.bay := by cases l <;> rfl
theorem setCom_com (l : Link V) (c : Common V) : (l.setCom c).com = c := by cases l <;> rfl
theorem setCom_trav (l : Link V) (c : Common V) : (l.setCom c).travelling = l.travelling := by
  cases l <;> rfl

theorem setCom_order (l : Link V) (c : Common V) : (l.setCom c).InOrder ↔ l.InOrder := by
  cases l <;> rfl

theorem removeFirst_perm {p : V → Bool} {l rest : List V} {v : V}
    (h : Lnk.removeFirst p l = some (v, rest)) : l.Perm (v :: rest) := by
  induction l generalizing rest with
  | nil => simp [Lnk.removeFirst] at h
  | cons w l ih =>
    simp only [Lnk.removeFirst] at h
    split at h
    · simp only [Option.some.injEq, Prod.mk.injEq] at h
      rw [h.1, h.2]
    · cases hr : Lnk.removeFirst p l with
      | none => rw [hr] at h; simp at h
      | some x =>
        rw [hr] at h
        simp only [Option.map_some, Option.some.injEq, Prod.mk.injEq] at h
        have := ih (rest := x.2) (by rw [hr, ← h.1])
        rw [← h.2]
        exact (this.cons w).trans (List.Perm.swap v w x.2)

/-- An interval of the link. -/
theorem evolve_acc {l l' : Link V} {arr dep out : List V} (h : Acc K stops n l arr dep)
    (hi : LInv K stops n l') (h1 : l'.com.incoming = l.com.incoming)
    (h2 : l'.com.finished = l.com.finished ++ out)
    (h3 : reachedExit l'.bay.log = reachedExit l.bay.log ++ out)
    (h4 : entered l'.bay.log = entered l.bay.log) (h5 : l'.InOrder → l.InOrder) : Acc K stops n l' arr dep := by
  have hp : l'.present.Perm l.present := by
    rw [List.perm_iff_count]
    intro v
    have c1 := h.inv.count v
    have c2 := hi.count v
    rw [h3, h4, List.count_append] at c2
    simp only [Link.present, h1, h2, List.count_append]
    omega
  refine ⟨hi, hp.symm.nodup h.nodup, by rw [h1, h4]; exact h.came, ?_, fun ho => by
    rw [h1, h4]; exact h.order (h5 ho)⟩
  rw [h3, h2, ← List.append_assoc]
  exact h.went.append_right out

/-- Letting vehicles in. -/
theorem clear_acc {l l' : Link V} {arr dep ins : List V} (h : Acc K stops n l arr dep)
    (hi : LInv K stops n l') (h1 : (ins ++ l'.com.incoming).Perm l.com.incoming)
    (h2 : l'.com.finished = l.com.finished)
    (h3 : reachedExit l'.bay.log = reachedExit l.bay.log)
    (h4 : entered l'.bay.log = entered l.bay.log ++ ins) (h5 : l'.InOrder → l.InOrder ∧
      ins ++ l'.com.incoming = l.com.incoming) : Acc K stops n l' arr dep := by
  have hp : l'.present.Perm l.present := by
    rw [List.perm_iff_count]
    intro v
    have c1 := h.inv.count v
    have c2 := hi.count v
    have c3 := h1.count_eq v
    rw [List.count_append] at c3
    rw [h3, h4, List.count_append] at c2
    simp only [Link.present, h2, List.count_append]
    omega
  refine ⟨hi, hp.symm.nodup h.nodup, ?_, by rw [h3, h2]; exact h.went, fun ho => by
    rw [h4, List.append_assoc, (h5 ho).2]; exact h.order (h5 ho).1⟩
  rw [h4, List.append_assoc]
  exact h.came.trans (h1.symm.append_left _)

theorem step_acc (hK : K.Wf) {l : Link V} {op : Op V} {r : Link V × List V} {arr dep : List V}
    (h : Acc K stops n l arr dep) (hr : l.step K op = .ok r) :
    Acc K stops n r.1 (arr ++ arrivals [op]) (dep ++ r.2) := by
  cases op with
  | arrive v =>
    simp only [Link.step] at hr
    split at hr
    · exact absurd hr (by simp)
    · rename_i hv
      simp only [Res.ok.injEq] at hr
      subst hr
      refine ⟨setCom_inv h.inv, ?_, ?_, ?_, ?_⟩
      · simp only [Link.present, setCom_com, setCom_trav]
        simp only [Link.present] at hv
        have hnd := h.nodup
        simp only [Link.present] at hnd
        have : (l.com.incoming ++ [v] ++ l.travelling ++ l.com.finished).Perm
            (v :: (l.com.incoming ++ l.travelling ++ l.com.finished)) := by
          simp only [List.append_assoc, List.singleton_append]
          exact List.perm_middle
        rw [this.nodup_iff, List.nodup_cons]
        exact ⟨hv, hnd⟩
      · simp only [setCom_com, setCom_bay]
        rw [← List.append_assoc]
        exact h.came.append_right [v]
      · simp only [setCom_com, setCom_bay, List.append_nil]; exact h.went
      · intro ho
        rw [setCom_com, setCom_bay, h.order ((setCom_order _ _).1 ho)]
        simp [arrivals]
  | depart p =>
    simp only [Link.step] at hr
    have ha : arr ++ arrivals [Op.depart (V := V) p] = arr := by simp [arrivals]
    rw [ha]
    split at hr
    · simp only [Res.ok.injEq] at hr
      subst hr
      simpa using h
    · rename_i v rest hrem
      simp only [Res.ok.injEq] at hr
      subst hr
      have hp := removeFirst_perm hrem
      refine ⟨setCom_inv h.inv, ?_, ?_, ?_, ?_⟩
      · simp only [Link.present, setCom_com, setCom_trav]
        have hnd := h.nodup
        simp only [Link.present] at hnd
        rw [(hp.append_left _).nodup_iff] at hnd
        exact hnd.sublist ((List.sublist_cons_self v rest).append_left _)
      · simp only [setCom_com, setCom_bay]; exact h.came
      · simp only [setCom_com, setCom_bay]
        refine h.went.trans ?_
        rw [List.append_assoc]
        exact hp.append_left dep
      · intro ho
        rw [setCom_com, setCom_bay]; exact h.order ((setCom_order _ _).1 ho)
  | clear t =>
    have ha : arr ++ arrivals [Op.clear (V := V) t] = arr := by simp [arrivals]
    rw [ha]
    cases l with
    | ctm l =>
      obtain ⟨l', e1, e2, e3, e4, e5, e6, e7, e8, e9⟩ := ctm_clear_inv (t := t) hK h.inv.1 h.nodup
      simp only [Link.step, e1, Res.bind_ok', Res.ok.injEq] at hr
      subst hr
      rw [List.append_nil]
      exact clear_acc h ⟨e2, e3.trans h.inv.2.1, e5.trans h.inv.2.2⟩
        (by show (_ ++ l'.base.com.incoming).Perm _; rw [e6, List.append_nil]; exact List.Perm.refl _) e7 e8 e9
        (fun _ => ⟨trivial, by show _ ++ l'.base.com.incoming = _; rw [e6, List.append_nil]; rfl⟩)
    | pq l =>
      obtain ⟨l', ins, e1, e2, e3, e4, e5, eo, e6, e7, e9, e10, e11⟩ := pq_clear_inv (t := t) h.inv.1 h.nodup
      simp only [Link.step, e1, Res.bind_ok', Res.ok.injEq] at hr
      subst hr
      rw [List.append_nil]
      exact clear_acc h ⟨e2, e3.trans h.inv.2.1, by rw [e4]; exact h.inv.2.2⟩ e6 e9 e10 e11
        (fun ho => ⟨eo.symm.trans ho, e7 (eo.symm.trans ho)⟩)
  | evolve t rnd ds orc =>
    have ha : arr ++ arrivals [Op.evolve (V := V) t rnd ds orc] = arr := by simp [arrivals]
    rw [ha]
    cases l with
    | ctm l =>
      simp only [Link.step] at hr
      rcases ctm_evolve_inv (t := t) (rnd := rnd) (ds := ds) (orc := orc) h.inv.1 with
        e | e | ⟨_, e, _⟩ | ⟨l', out, e1, e2, e3, e4, e5, e6, e7, e8, e9⟩
      · rw [e] at hr; simp [Res.bind] at hr
      · rw [e] at hr; simp [Res.bind] at hr
      · rw [e] at hr; simp [Res.bind] at hr
      · simp only [e1, Res.bind_ok', Res.ok.injEq] at hr
        subst hr
        rw [List.append_nil]
        exact evolve_acc h ⟨e2, e3.trans h.inv.2.1, e5.trans h.inv.2.2⟩ e6 e7 e8 e9 fun _ => trivial
    | pq l =>
      simp only [Link.step] at hr
      obtain ⟨l', out, e1, e2, e3, e4, e5, eo, e6, e7, e8, e9⟩ := pq_evolve_inv (t := t) (orc := orc) h.inv.1
      simp only [e1, Res.bind_ok', Res.ok.injEq] at hr
      subst hr
      rw [List.append_nil]
      exact evolve_acc h ⟨e2, e3.trans h.inv.2.1, by rw [e4]; exact h.inv.2.2⟩ e6 e7 e8 e9
        fun ho => eo.symm.trans ho

theorem run_acc (hK : K.Wf) : ∀ (ops : List (Op V)) {l : Link V} {r : Link V × List V} {arr dep : List V},
    Acc K stops n l arr dep → l.run K ops = .ok r → Acc K stops n r.1 (arr ++ arrivals ops) (dep ++ r.2)
  | [], l, r, arr, dep, h, hr => by
    simp only [Link.run, Res.ok.injEq] at hr
    subst hr
    simpa [arrivals] using h
  | op :: ops, l, r, arr, dep, h, hr => by
    simp only [Link.run] at hr
    rw [Res.bind_eq_ok'] at hr
    obtain ⟨r1, h1, hr⟩ := hr
    rw [Res.bind_eq_ok'] at hr
    obtain ⟨r2, h2, hr⟩ := hr
    simp only [Res.ok.injEq] at hr
    subst hr
    have := run_acc hK ops (step_acc hK h h1) h2
    have ha : arrivals (op :: ops) = arrivals [op] ++ arrivals ops := by
      simp only [arrivals]
      rw [← List.filterMap_append]; rfl
    rw [ha]
    simpa using this

theorem fresh_acc {a : Args} {l : Link V} (hf : Fresh a stops l) (hs : 1 ≤ a.scalar)
    (hw : StopsWf stops l.places) : Acc K stops l.places l [] [] := by
  cases hf with
  | ctm l h =>
    obtain ⟨h1, h2, h3, h4, h5⟩ := ctm_new (K := K) h hs hw
    refine ⟨⟨h1, h4, rfl⟩, ?_, ?_, ?_, fun _ => by simp only [Link.bay, h2, Link.com, h3]; rfl⟩
    · simp only [Link.present, h5, Link.com, h3]; exact List.nodup_nil
    · simp only [Link.bay, h2, Link.com, h3]; exact List.Perm.refl _
    · simp only [Link.bay, h2, Link.com, h3]; exact List.Perm.refl _
  | pq o w l h =>
    obtain ⟨h1, h2, h3, h4, h5⟩ := pq_new (K := K) h hs hw
    refine ⟨⟨h1, h4, rfl⟩, ?_, ?_, ?_, fun _ => by simp only [Link.bay, h2, Link.com, h3]; rfl⟩
    · simp only [Link.present, h5, Link.com, h3]; exact List.nodup_nil
    · simp only [Link.bay, h2, Link.com, h3]; exact List.Perm.refl _
    · simp only [Link.bay, h2, Link.com, h3]; exact List.Perm.refl _

/-- What is known of every reachable state. -/
theorem reach (hK : K.Wf) {a : Args} {l : Link V} {ops : List (Op V)} {r : Link V × List V}
    (hf : Fresh a stops l) (hs : 1 ≤ a.scalar) (hw : StopsWf stops l.places) (hr : l.run K ops = .ok r) :
    Acc K stops l.places r.1 (arrivals ops) r.2 := by
  have := run_acc hK ops (fresh_acc (K := K) hf hs hw) hr
  simpa using this

end Verif.MmLnk

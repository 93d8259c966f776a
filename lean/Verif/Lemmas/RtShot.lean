import Verif.Spec.Realtime

/-!
# Lemmas on copies of the network
-/

namespace Verif.Rt
open Lnk

variable {s : Shot}

/-- A vehicle and its copy, when the new tracker is `T`. -/
def CopiedTo (s : Shot) (T : ℕ → Option (List ℤ)) (v w : Veh) : Prop :=
  (w.start = v.start ∧ w.adaptive = v.adaptive ∧ w.cur = v.cur ∧ w.next = v.next ∧ w.origin = v.origin ∧
    w.dest = v.dest ∧ T w.id = s.tracker v.id) ∧ w.path = none ∧ w.interval = -1

/-- The tracker of `o'` extends that of `o`. -/
def Ext (o o' : Out) : Prop := o.made ≤ o'.made ∧ ∀ i ≤ o.made, o'.tracker i = o.tracker i

theorem Ext.refl (o : Out) : Ext o o := ⟨le_rfl, fun _ _ => rfl⟩

theorem Ext.trans {a b c : Out} (h : Ext a b) (g : Ext b c) : Ext a c :=
  ⟨h.1.trans g.1, fun i hi => (g.2 i (hi.trans h.1)).trans (h.2 i hi)⟩

theorem CopiedTo.ext {o o' : Out} (h : Ext o o') {v w : Veh} (hw : w.id ≤ o.made)
    (hc : CopiedTo s o.tracker v w) : CopiedTo s o'.tracker v w := by
  obtain ⟨⟨a, b, c, d, e, f, g⟩, i, j⟩ := hc
  exact ⟨⟨a, b, c, d, e, f, (h.2 _ hw).trans g⟩, i, j⟩

theorem copyVeh_ok {n : ℕ} {v w : Veh} (h : copyVeh s n v = .ok w) :
    w.start = v.start ∧ w.adaptive = v.adaptive ∧ w.cur = v.cur ∧ w.next = v.next ∧ w.origin = v.origin ∧
    w.dest = v.dest ∧ w.path = none ∧ w.interval = -1 ∧ w.id = n + 1 := by
  unfold copyVeh at h
  cases hc : v.cur with
  | none => rw [hc] at h; cases h
  | some c =>
    cases hx : v.next with
    | none => rw [hc, hx] at h; cases h
    | some x =>
      rw [hc, hx] at h
      simp only at h
      by_cases h1 : c ∉ s.links.map Prod.fst
      · rw [if_pos h1] at h; cases h
      rw [if_neg h1] at h
      by_cases h2 : x ∉ s.links.map Prod.fst
      · rw [if_pos h2] at h; cases h
      rw [if_neg h2] at h
      by_cases h3 : v.dest ∉ s.dests
      · rw [if_pos h3] at h; cases h
      rw [if_neg h3] at h
      by_cases h4 : v.origin ∉ s.origins
      · rw [if_pos h4] at h; cases h
      rw [if_neg h4] at h
      cases h
      exact ⟨rfl, rfl, rfl, rfl, rfl, rfl, rfl, rfl, rfl⟩

theorem copyVeh_complete {v : Veh} (h : Complete s v) (n : ℕ) : ∃ w, copyVeh s n v = .ok w := by
  obtain ⟨⟨c, hc, hv⟩, ⟨x, hx, hn⟩, hd, ho, _⟩ := h
  unfold copyVeh
  rw [hv, hn]
  simp only [hc, hx, hd, ho, not_true_eq_false, if_false]
  exact ⟨_, rfl⟩

theorem copyOne_ok {o o' : Out} {v w : Veh} (h : copyOne s o v = .ok (w, o')) :
    w.id = o.made + 1 ∧ o'.made = o.made + 1 ∧ Ext o o' ∧ CopiedTo s o'.tracker v w := by
  unfold copyOne at h
  obtain ⟨w', hw, h⟩ := Res.bind_eq_ok'.1 h
  obtain ⟨a, b, c, d, e, f, g, i, j⟩ := copyVeh_ok hw
  cases ht : s.tracker v.id with
  | none => rw [ht] at h; cases h
  | some ls =>
    rw [ht] at h
    cases h
    refine ⟨j, rfl, ⟨Nat.le_succ _, fun k hk => ?_⟩, ⟨a, b, c, d, e, f, ?_⟩, g, i⟩
    · exact upd_other _ _ _ _ (by omega)
    · rw [ht]; exact upd_same _ _ _

theorem copyOne_complete {v : Veh} (h : Complete s v) (o : Out) : ∃ w o', copyOne s o v = .ok (w, o') := by
  obtain ⟨w, hw⟩ := copyVeh_complete h o.made
  obtain ⟨_, _, _, _, ls, hl⟩ := h
  exact ⟨w, _, by unfold copyOne; rw [hw]; simp only [Res.bind, hl]; rfl⟩

theorem copyQueue_ok : ∀ (vs : List Veh) {o o' : Out} {ws : List Veh}, copyQueue s o vs = .ok (ws, o') →
    ws.map Veh.id = List.range' (o.made + 1) vs.length ∧ o'.made = o.made + vs.length ∧ Ext o o' ∧
      List.Forall₂ (CopiedTo s o'.tracker) vs ws := by
  intro vs
  induction vs with
  | nil =>
    intro o o' ws h
    cases h
    exact ⟨rfl, rfl, Ext.refl _, .nil⟩
  | cons v vs ih =>
    intro o o' ws h
    unfold copyQueue at h
    obtain ⟨⟨w, o1⟩, h1, h⟩ := Res.bind_eq_ok'.1 h
    obtain ⟨⟨ws', o2⟩, h2, h⟩ := Res.bind_eq_ok'.1 h
    cases h
    obtain ⟨a, b, c, d⟩ := copyOne_ok h1
    obtain ⟨e, f, g, i⟩ := ih h2
    simp only at e f g i
    refine ⟨?_, ?_, c.trans g, .cons (d.ext g (by simp only; omega)) i⟩
    · simp only [List.map_cons, List.length_cons, List.range'_succ, a, e, b]
    · simp only [List.length_cons]; omega

theorem copyQueue_complete : ∀ (vs : List Veh) (o : Out), (∀ v ∈ vs, Complete s v) →
    ∃ ws o', copyQueue s o vs = .ok (ws, o') := by
  intro vs
  induction vs with
  | nil => exact fun o _ => ⟨_, _, rfl⟩
  | cons v vs ih =>
    intro o h
    obtain ⟨w, o1, h1⟩ := copyOne_complete (h v (by simp)) o
    obtain ⟨ws, o2, h2⟩ := ih o1 fun x hx => h x (by simp [hx])
    exact ⟨w :: ws, o2, by unfold copyQueue; rw [h1]; simp only [Res.bind, h2]⟩

/-- Ids written by a queue. -/
theorem copyQueue_le {vs ws : List Veh} {o o' : Out} (h : copyQueue s o vs = .ok (ws, o')) :
    ∀ w ∈ ws, w.id ≤ o'.made := by
  obtain ⟨a, b, _, _⟩ := copyQueue_ok vs h
  intro w hw
  have := List.mem_map_of_mem (f := Veh.id) hw
  rw [a, List.mem_range'_1] at this
  omega

theorem forall_ext {o o' : Out} (h : Ext o o') : ∀ {vs ws : List Veh}, (∀ w ∈ ws, w.id ≤ o.made) →
    List.Forall₂ (CopiedTo s o.tracker) vs ws → List.Forall₂ (CopiedTo s o'.tracker) vs ws := by
  intro vs ws hw hf
  induction hf with
  | nil => exact .nil
  | cons a b ih => exact .cons (a.ext h (hw _ (by simp))) (ih fun w hx => hw w (by simp [hx]))

theorem copyPairs_ok : ∀ (vs : List (Veh × ℤ)) {o o' : Out} {ws : List (Veh × ℤ)},
    copyPairs s o vs = .ok (ws, o') →
    ws.map (fun w => w.1.id) = List.range' (o.made + 1) vs.length ∧ o'.made = o.made + vs.length ∧ Ext o o' ∧
      List.Forall₂ (fun a b => CopiedTo s o'.tracker a.1 b.1 ∧ a.2 = b.2) vs ws := by
  intro vs
  induction vs with
  | nil =>
    intro o o' ws h
    cases h
    exact ⟨rfl, rfl, Ext.refl _, .nil⟩
  | cons v vs ih =>
    intro o o' ws h
    unfold copyPairs at h
    obtain ⟨⟨w, o1⟩, h1, h⟩ := Res.bind_eq_ok'.1 h
    obtain ⟨⟨ws', o2⟩, h2, h⟩ := Res.bind_eq_ok'.1 h
    cases h
    obtain ⟨a, b, c, d⟩ := copyOne_ok h1
    obtain ⟨e, f, g, i⟩ := ih h2
    simp only at e f g i
    refine ⟨?_, ?_, c.trans g, .cons ⟨d.ext g (by simp only; omega), rfl⟩ i⟩
    · simp only [List.map_cons, List.length_cons, List.range'_succ, a, e, b]
    · simp only [List.length_cons]; omega

theorem copyPairs_complete : ∀ (vs : List (Veh × ℤ)) (o : Out), (∀ v ∈ vs, Complete s v.1) →
    ∃ ws o', copyPairs s o vs = .ok (ws, o') := by
  intro vs
  induction vs with
  | nil => exact fun o _ => ⟨_, _, rfl⟩
  | cons v vs ih =>
    intro o h
    obtain ⟨w, o1, h1⟩ := copyOne_complete (h v (by simp)) o
    obtain ⟨ws, o2, h2⟩ := ih o1 fun x hx => h x (by simp [hx])
    exact ⟨_, o2, by unfold copyPairs; rw [h1]; simp only [Res.bind, h2]; rfl⟩

/-- The relation between cells. -/
def CellCopied (s : Shot) (T : ℕ → Option (List ℤ)) (x y : Cell Veh) : Prop :=
  (x.hold, x.cap, x.scalar, x.wave) = (y.hold, y.cap, y.scalar, y.wave) ∧
    List.Forall₂ (CopiedTo s T) x.queue y.queue

theorem copyCells_ok : ∀ (cs : List (Cell Veh)) {o o' : Out} {ds : List (Cell Veh)},
    copyCells s o cs = .ok (ds, o') →
    (ds.flatMap fun d => d.queue.map Veh.id) = List.range' (o.made + 1) (cs.flatMap fun c => c.queue).length ∧
      o'.made = o.made + (cs.flatMap fun c => c.queue).length ∧ Ext o o' ∧
      List.Forall₂ (CellCopied s o'.tracker) cs ds := by
  intro cs
  induction cs with
  | nil =>
    intro o o' ws h
    cases h
    exact ⟨rfl, rfl, Ext.refl _, .nil⟩
  | cons c cs ih =>
    intro o o' ws h
    unfold copyCells at h
    obtain ⟨⟨q, o1⟩, h1, h⟩ := Res.bind_eq_ok'.1 h
    obtain ⟨⟨ws', o2⟩, h2, h⟩ := Res.bind_eq_ok'.1 h
    cases h
    obtain ⟨a, b, c', d⟩ := copyQueue_ok _ h1
    obtain ⟨e, f, g, i⟩ := ih h2
    simp only at a b c' d e f g i
    refine ⟨?_, ?_, c'.trans g, .cons ⟨rfl, forall_ext g (copyQueue_le h1) d⟩ i⟩
    · simp only [List.flatMap_cons, List.length_append, e, a, b]
      rw [← List.range'_append_1]
      congr 2
      omega
    · simp only [List.flatMap_cons, List.length_append]; omega

theorem copyCells_complete : ∀ (cs : List (Cell Veh)) (o : Out), (∀ c ∈ cs, ∀ v ∈ c.queue, Complete s v) →
    ∃ ws o', copyCells s o cs = .ok (ws, o') := by
  intro vs
  induction vs with
  | nil => exact fun o _ => ⟨_, _, rfl⟩
  | cons v vs ih =>
    intro o h
    obtain ⟨w, o1, h1⟩ := copyQueue_complete v.queue o (h v (by simp))
    obtain ⟨ws, o2, h2⟩ := ih o1 fun x hx => h x (by simp [hx])
    exact ⟨_, o2, by unfold copyCells; rw [h1]; simp only [Res.bind, h2]; rfl⟩

/-- Vehicles of the cells, exit first or entrance first. -/
theorem cells_perm (cs : List (Cell Veh)) (f : Veh → ℕ) :
    ((cs.reverse.map fun c => c.queue).flatten.map f).Perm (cs.flatMap fun c => c.queue.map f) := by
  induction cs with
  | nil => exact .refl _
  | cons c cs ih =>
    rw [List.reverse_cons, List.map_append, List.flatten_append, List.map_append, List.flatMap_cons]
    refine List.Perm.trans (List.perm_append_comm) ?_
    simp only [List.map_cons, List.map_nil, List.flatten_cons, List.flatten_nil, List.append_nil]
    exact List.Perm.append_left _ ih

theorem cells_length (cs : List (Cell Veh)) :
    (cs.reverse.map fun c => c.queue).flatten.length = (cs.flatMap fun c => c.queue).length := by
  have h := (cells_perm cs Veh.id).length_eq
  rw [List.length_map] at h
  rw [h]
  simp only [List.length_flatMap, List.length_map]

theorem range_three (a x y z : ℕ) :
    List.range' a x ++ List.range' (a + x) y ++ List.range' (a + x + y) z = List.range' a (x + y + z) := by
  rw [List.range'_append_1, Nat.add_assoc a x y, List.range'_append_1]

/-- One link: numbers of the copies, and each vehicle with its copy. -/
theorem copyLink_ok {l l' : Link Veh} {o o' : Out} (hk : Copied l = true) (h : copyLink s o l = .ok (l', o')) :
    ((onLink l').map Veh.id).Perm (List.range' (o.made + 1) (onLink l).length) ∧
      o'.made = o.made + (onLink l).length ∧ Ext o o' ∧ CopyOf (CopiedTo s o'.tracker) l l' := by
  unfold copyLink at h
  obtain ⟨⟨f, o1⟩, h1, h⟩ := Res.bind_eq_ok'.1 h
  obtain ⟨⟨i, o2⟩, h2, h⟩ := Res.bind_eq_ok'.1 h
  obtain ⟨a1, b1, c1, d1⟩ := copyQueue_ok _ h1
  obtain ⟨a2, b2, c2, d2⟩ := copyQueue_ok _ h2
  simp only at a1 b1 c1 d1 a2 b2 c2 d2
  cases l with
  | pq q =>
    simp only at h
    obtain ⟨⟨r, o3⟩, h3, h⟩ := Res.bind_eq_ok'.1 h
    cases h
    obtain ⟨a3, b3, c3, d3⟩ := copyPairs_ok _ h3
    change f.map Veh.id = List.range' (o.made + 1) q.finished.length at a1
    change o1.made = o.made + q.finished.length at b1
    change i.map Veh.id = List.range' (o1.made + 1) q.incoming.length at a2
    change o2.made = o1.made + q.incoming.length at b2
    have l1 := copyQueue_le h1
    have l2 := copyQueue_le h2
    refine ⟨?_, ?_, (c1.trans c2).trans c3, rfl, rfl, forall_ext (c2.trans c3) l1 d1, forall_ext c3 l2 d2, d3⟩
    · simp only [onLink, Link.finished, Link.incoming, Link.travelling, List.map_append, List.length_append,
        List.length_map, a1, a2, List.map_map, Function.comp_def, a3, b1, b2]
      rw [← range_three, show o.made + q.finished.length + 1 = o.made + 1 + q.finished.length by omega,
        show o.made + q.finished.length + q.incoming.length + 1
          = o.made + 1 + q.finished.length + q.incoming.length by omega]
    · simp only [onLink, Link.finished, Link.incoming, Link.travelling, List.length_append, List.length_map]
      omega
  | ctm q =>
    simp only at h
    obtain ⟨⟨r, o3⟩, h3, h⟩ := Res.bind_eq_ok'.1 h
    cases h
    obtain ⟨a3, b3, c3, d3⟩ := copyCells_ok _ h3
    change f.map Veh.id = List.range' (o.made + 1) q.finished.length at a1
    change o1.made = o.made + q.finished.length at b1
    change i.map Veh.id = List.range' (o1.made + 1) q.incoming.length at a2
    change o2.made = o1.made + q.incoming.length at b2
    have l1 := copyQueue_le h1
    have l2 := copyQueue_le h2
    refine ⟨?_, ?_, (c1.trans c2).trans c3, rfl, rfl, forall_ext (c2.trans c3) l1 d1, forall_ext c3 l2 d2, d3⟩
    · simp only [onLink, Link.finished, Link.incoming, Link.travelling, List.map_append, List.length_append,
        a1, a2, b1, cells_length]
      rw [← range_three]
      refine List.Perm.append (List.Perm.of_eq ?_) ((cells_perm r Veh.id).trans (List.Perm.of_eq ?_))
      · congr 2; omega
      · rw [a3]; congr 1; omega
    · simp only [onLink, Link.finished, Link.incoming, Link.travelling, List.length_append, cells_length]
      omega
  | lq q => simp [Copied] at hk
  | ltm q => simp [Copied] at hk

theorem copyLink_complete (l : Link Veh) (o : Out) (h : ∀ v ∈ onLink l, Complete s v) :
    ∃ l' o', copyLink s o l = .ok (l', o') := by
  obtain ⟨f, o1, h1⟩ := copyQueue_complete l.finished o fun v hv => h v (by simp [onLink, hv])
  obtain ⟨i, o2, h2⟩ := copyQueue_complete l.incoming o1 fun v hv => h v (by simp [onLink, hv])
  unfold copyLink
  rw [h1]
  simp only [Res.bind]
  rw [h2]
  cases l with
  | pq q =>
    obtain ⟨r, o3, h3⟩ := copyPairs_complete q.queue o2 fun v hv =>
      h v.1 (by simp only [onLink, Link.travelling, List.mem_append, List.mem_map]; exact .inr ⟨v, hv, rfl⟩)
    simp only [h3]
    exact ⟨_, _, rfl⟩
  | ctm q =>
    obtain ⟨r, o3, h3⟩ := copyCells_complete q.cells o2 fun c hc v hv => h v (by
      simp only [onLink, Link.travelling, List.mem_append, List.mem_flatten, List.mem_map, List.mem_reverse]
      exact .inr ⟨_, ⟨c, hc, rfl⟩, hv⟩)
    simp only [h3]
    exact ⟨_, _, rfl⟩
  | lq q => exact ⟨_, _, rfl⟩
  | ltm q => exact ⟨_, _, rfl⟩

theorem forall₂_imp_mem {α β : Type} {R S : α → β → Prop} : ∀ {xs : List α} {ys : List β},
    (∀ x y, y ∈ ys → R x y → S x y) → List.Forall₂ R xs ys → List.Forall₂ S xs ys := by
  intro xs ys h hf
  induction hf with
  | nil => exact .nil
  | cons a b ih => exact .cons (h _ _ (by simp) a) (ih fun x y hy => h x y (by simp [hy]))

/-- A relation on the vehicles of the copy. -/
theorem copyOf_imp {R S : Veh → Veh → Prop} {l l' : Link Veh} (hi : ∀ v w, w ∈ onLink l' → R v w → S v w)
    (h : CopyOf R l l') : CopyOf S l l' := by
  cases l <;> cases l' <;> try exact h.elim
  · obtain ⟨a, b, c, d, e⟩ := h
    refine ⟨a, b, forall₂_imp_mem (fun x y hy => hi x y ?_) c, forall₂_imp_mem (fun x y hy => hi x y ?_) d,
      forall₂_imp_mem (fun x y hy hr => ⟨hi _ _ ?_ hr.1, hr.2⟩) e⟩
    · simp [onLink, Link.finished, hy]
    · simp [onLink, Link.incoming, hy]
    · simp only [onLink, Link.travelling, List.mem_append, List.mem_map]
      exact .inr ⟨y, hy, rfl⟩
  · obtain ⟨a, b, c, d, e⟩ := h
    refine ⟨a, b, forall₂_imp_mem (fun x y hy => hi x y ?_) c, forall₂_imp_mem (fun x y hy => hi x y ?_) d,
      forall₂_imp_mem (fun x y hy hr => ⟨hr.1, forall₂_imp_mem (fun v w hw => hi v w ?_) hr.2⟩) e⟩
    · simp [onLink, Link.finished, hy]
    · simp [onLink, Link.incoming, hy]
    · simp only [onLink, Link.travelling, List.mem_append, List.mem_flatten, List.mem_map, List.mem_reverse]
      exact .inr ⟨_, ⟨y, hy, rfl⟩, hw⟩

theorem copyLinks_ok : ∀ (ls : List (ℤ × Link Veh)) {o o' : Out} {ms : List (ℤ × Link Veh)},
    (∀ l ∈ ls, Copied l.2 = true) → copyLinks s o ls = .ok (ms, o') →
    ((ms.flatMap fun m => onLink m.2).map Veh.id).Perm
        (List.range' (o.made + 1) (ls.flatMap fun l => onLink l.2).length) ∧
      o'.made = o.made + (ls.flatMap fun l => onLink l.2).length ∧ Ext o o' ∧
      List.Forall₂ (fun a b => a.1 = b.1 ∧ CopyOf (CopiedTo s o'.tracker) a.2 b.2) ls ms := by
  intro ls
  induction ls with
  | nil =>
    intro o o' ms _ h
    cases h
    exact ⟨.refl _, rfl, Ext.refl _, .nil⟩
  | cons l ls ih =>
    intro o o' ms hk h
    unfold copyLinks at h
    obtain ⟨⟨l', o1⟩, h1, h⟩ := Res.bind_eq_ok'.1 h
    obtain ⟨⟨ms', o2⟩, h2, h⟩ := Res.bind_eq_ok'.1 h
    cases h
    obtain ⟨a, b, c, d⟩ := copyLink_ok (hk l (by simp)) h1
    obtain ⟨e, f, g, i⟩ := ih (fun x hx => hk x (by simp [hx])) h2
    simp only at a b c d e f g i
    have hle : ∀ w ∈ onLink l', w.id ≤ o1.made := by
      intro w hw
      have := a.subset (List.mem_map_of_mem (f := Veh.id) hw)
      rw [List.mem_range'_1] at this
      omega
    refine ⟨?_, ?_, c.trans g, .cons ⟨rfl, copyOf_imp (fun v w hw hr => hr.ext g (hle w hw)) d⟩ i⟩
    · simp only [List.flatMap_cons, List.map_append, List.length_append]
      rw [← List.range'_append_1]
      refine a.append (e.trans (List.Perm.of_eq ?_))
      congr 1
      omega
    · simp only [List.flatMap_cons, List.length_append]; omega

theorem copyLinks_complete : ∀ (ls : List (ℤ × Link Veh)) (o : Out), (∀ l ∈ ls, ∀ v ∈ onLink l.2, Complete s v) →
    ∃ ms o', copyLinks s o ls = .ok (ms, o') := by
  intro ls
  induction ls with
  | nil => exact fun o _ => ⟨_, _, rfl⟩
  | cons l ls ih =>
    intro o h
    obtain ⟨w, o1, h1⟩ := copyLink_complete l.2 o (h l (by simp))
    obtain ⟨ws, o2, h2⟩ := ih o1 fun x hx => h x (by simp [hx])
    exact ⟨_, o2, by unfold copyLinks; rw [h1]; simp only [Res.bind, h2]; rfl⟩

/-- Links whose vehicles on the way are not copied. -/
theorem copyLinks_others : ∀ (ls : List (ℤ × Link Veh)) {o o' : Out} {ms : List (ℤ × Link Veh)},
    copyLinks s o ls = .ok (ms, o') →
      List.Forall₂ (fun a b => a.1 = b.1 ∧ (Copied a.2 = false → b.2.travelling = [])) ls ms := by
  intro ls
  induction ls with
  | nil =>
    intro o o' ms h
    cases h
    exact .nil
  | cons l ls ih =>
    intro o o' ms h
    unfold copyLinks at h
    obtain ⟨⟨l', o1⟩, h1, h⟩ := Res.bind_eq_ok'.1 h
    obtain ⟨⟨ms', o2⟩, h2, h⟩ := Res.bind_eq_ok'.1 h
    cases h
    refine .cons ⟨rfl, fun hf => ?_⟩ (ih h2)
    unfold copyLink at h1
    obtain ⟨f, _, h1⟩ := Res.bind_eq_ok'.1 h1
    obtain ⟨i, _, h1⟩ := Res.bind_eq_ok'.1 h1
    obtain ⟨n, l⟩ := l
    cases l with
    | pq q => simp [Copied] at hf
    | ctm q => simp [Copied] at hf
    | lq q => cases h1; rfl
    | ltm q => cases h1; rfl

end Verif.Rt

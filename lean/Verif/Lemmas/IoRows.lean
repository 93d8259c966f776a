import Verif.Lemmas.Io

namespace Verif.Io
open Text Graph

theorem get_insert {κ v : Type} [DecidableEq κ] (s : Store κ v) (k k' : κ) (x : v) :
    (s.insert k x).get k' = (s.get k').or (if k = k' then some x else none) := by
  unfold Store.insert Store.has
  by_cases h : (s.get k).isSome = true
  · rw [if_pos h]
    by_cases hk : k = k'
    · subst hk
      obtain ⟨y, hy⟩ := Option.isSome_iff_exists.1 h
      simp [hy]
    · simp [hk]
  · rw [if_neg h, Store.get_append, Store.get_cons]
    simp

theorem fold_insert {ρ κ v : Type} [DecidableEq κ] {body : Store κ v → Str → Res (Store κ v)}
    (line : ρ → Str) (key : ρ → κ) (val : ρ → v) : ∀ (rows : List ρ) (s : Store κ v),
    (∀ r ∈ rows, ∀ s, body s (line r) = .ok (s.insert (key r) (val r))) →
    ∃ m, Res.foldlM body s (rows.map line) = .ok m ∧
      ∀ k, m.get k = (s.get k).or ((rows.find? fun r => key r = k).map val) := by
  intro rows
  induction rows with
  | nil => intro s _; exact ⟨s, rfl, fun k => by simp⟩
  | cons r rows ih =>
    intro s h
    obtain ⟨m, e1, e2⟩ := ih (s.insert (key r) (val r)) fun x hx => h x (by simp [hx])
    refine ⟨m, ?_, ?_⟩
    · rw [List.map_cons, Res.foldlM_cons, h r (by simp)]
      exact e1
    · intro k
      rw [e2, get_insert, Option.or_assoc]
      congr 1
      by_cases hk : key r = k
      · simp [hk]
      · simp [hk]

/-! ### Graph files -/

theorem graphRow_eq (g : G) (l f t : ℤ) (hl : IntOk l) (hf : IntOk f) (ht : IntOk t) :
    graphRow g (lineOf [toStr l, toStr f, toStr t]) =
      exec (step (step g (.addNode f)) (.addNode t)) (.addLink f t l) := by
  have hrow : RowOk [toStr l, toStr f, toStr t] := by
    refine ⟨?_, _, _, rfl, (toStr_word l).2⟩
    intro w hw
    simp only [List.mem_cons, List.not_mem_nil, or_false] at hw
    rcases hw with rfl | rfl | rfl
    · exact (toStr_word l).1
    · exact (toStr_word f).1
    · exact (toStr_word t).1
  unfold graphRow
  rw [split_line hrow]
  simp only [stoi_toStr l hl, stoi_toStr f hf, stoi_toStr t ht, Res.bind_ok']
  rfl

/-- A link of a graph file: number and ends. -/
def linkLine (x : ℤ × ℤ × ℤ) : Str := lineOf [toStr x.1, toStr x.2.1, toStr x.2.2]

/-- The calls a graph file stands for. -/
def linkOps (x : ℤ × ℤ × ℤ) : List Op := [.addNode x.2.1, .addNode x.2.2, .addLink x.2.1 x.2.2 x.1]

theorem mem_step_addNode (s : Spec) (n m : ℤ) : m ∈ (s.step (.addNode n)).nodes ↔ m ∈ s.nodes ∨ m = n := by
  unfold Spec.step Spec.accepts
  by_cases h : n ∈ s.nodes
  · simp only [h, not_true_eq_false, decide_false, Bool.false_eq_true, if_false]
    constructor
    · exact Or.inl
    · rintro (h' | rfl)
      · exact h'
      · exact h
  · simp [h]

theorem links_step_addNode (s : Spec) (n : ℤ) : (s.step (.addNode n)).links = s.links := by
  unfold Spec.step
  split <;> rfl

theorem graph_step (s : Spec) (x : ℤ × ℤ × ℤ) :
    ((s.step (.addNode x.2.1)).step (.addNode x.2.2)).accepts (.addLink x.2.1 x.2.2 x.1) =
      decide (x.2.1 ≠ x.2.2 ∧ x.1 ∉ s.linkIds) := by
  simp only [Spec.accepts, mem_step_addNode, Spec.linkIds, links_step_addNode]
  exact decide_eq_decide.2 ⟨fun h => h.2.2, fun h => ⟨Or.inl (Or.inr trivial), Or.inr trivial, h⟩⟩

theorem graph_fold : ∀ (ls : List (ℤ × ℤ × ℤ)) (ops : List Op),
    (∀ x ∈ ls, IntOk x.1 ∧ IntOk x.2.1 ∧ IntOk x.2.2) → (∀ x ∈ ls, x.2.1 ≠ x.2.2) →
    (ls.map (·.1)).Nodup → (∀ x ∈ ls, x.1 ∉ (Spec.empty.run ops).linkIds) →
    Res.foldlM graphRow (run empty ops) (ls.map linkLine) = .ok (run empty (ops ++ ls.flatMap linkOps)) ∧
      (Spec.empty.run (ops ++ ls.flatMap linkOps)).links = ls.reverse ++ (Spec.empty.run ops).links ∧
      ∀ n, n ∈ (Spec.empty.run (ops ++ ls.flatMap linkOps)).nodes ↔
        n ∈ (Spec.empty.run ops).nodes ∨ ∃ x ∈ ls, n = x.2.1 ∨ n = x.2.2 := by
  intro ls
  induction ls with
  | nil => intro ops _ _ _ _; simp
  | cons x ls ih =>
    intro ops hi hne hnd hnew
    have hrel := run_rel_empty ops
    have hrun : run empty (ops ++ linkOps x) =
        step (step (step (run empty ops) (.addNode x.2.1)) (.addNode x.2.2)) (.addLink x.2.1 x.2.2 x.1) := by
      simp [run, linkOps]
    have hsrun : Spec.empty.run (ops ++ linkOps x) =
        (((Spec.empty.run ops).step (.addNode x.2.1)).step (.addNode x.2.2)).step (.addLink x.2.1 x.2.2 x.1) := by
      simp [Spec.run, linkOps]
    have hr2 := (exec_spec (exec_spec hrel (.addNode x.2.1)).2.1 (.addNode x.2.2)).2.1
    have hx := exec_spec hr2 (.addLink x.2.1 x.2.2 x.1)
    have hacc := graph_step (Spec.empty.run ops) x
    rw [decide_eq_true ⟨hne x (by simp), hnew x (by simp)⟩] at hacc
    have hlinks : (Spec.empty.run (ops ++ linkOps x)).links = x :: (Spec.empty.run ops).links := by
      rw [hsrun]
      generalize hq : ((Spec.empty.run ops).step (.addNode x.2.1)).step (.addNode x.2.2) = q at hacc ⊢
      rw [Spec.step, hacc]
      simp only [if_true, ← hq, links_step_addNode]
    have hnodes : ∀ n, n ∈ (Spec.empty.run (ops ++ linkOps x)).nodes ↔
        n ∈ (Spec.empty.run ops).nodes ∨ n = x.2.1 ∨ n = x.2.2 := by
      intro n
      rw [hsrun]
      generalize hq : ((Spec.empty.run ops).step (.addNode x.2.1)).step (.addNode x.2.2) = q at hacc ⊢
      rw [Spec.step, hacc]
      simp only [if_true, ← hq, mem_step_addNode, or_assoc]
    simp only [List.map_cons, List.nodup_cons] at hnd
    obtain ⟨e1, e2, e3⟩ := ih (ops ++ linkOps x) (fun y hy => hi y (by simp [hy]))
      (fun y hy => hne y (by simp [hy])) hnd.2 (by
        intro y hy
        unfold Spec.linkIds
        rw [hlinks]
        simp only [List.map_cons, List.mem_cons, not_or]
        refine ⟨fun e => hnd.1 (e ▸ List.mem_map_of_mem (f := (·.1)) hy), hnew y (by simp [hy])⟩)
    rw [List.flatMap_cons, ← List.append_assoc]
    refine ⟨?_, ?_, ?_⟩
    · rw [List.map_cons, Res.foldlM_cons]
      have hok : graphRow (run empty ops) (linkLine x) = .ok (run empty (ops ++ linkOps x)) := by
        obtain ⟨i1, i2, i3⟩ := hi x (by simp)
        unfold linkLine
        rw [graphRow_eq _ _ _ _ i1 i2 i3, hrun]
        have := hx.1
        rw [hacc] at this
        conv_rhs => rw [step]
        cases he : exec (step (step (run empty ops) (.addNode x.2.1)) (.addNode x.2.2)) (.addLink x.2.1 x.2.2 x.1) with
        | ok a => rfl
        | throw m => rw [he] at this; simp [Res.isOk] at this
        | ub => rw [he] at this; simp [Res.isOk] at this
        | diverge => rw [he] at this; simp [Res.isOk] at this
      rw [hok]
      exact e1
    · rw [e2, hlinks]; simp
    · intro n
      rw [e3, hnodes]
      simp only [List.mem_cons, exists_eq_or_imp, or_assoc]

theorem graph_fold_throw : ∀ (ls : List (ℤ × ℤ × ℤ)) (ops : List Op),
    (∀ x ∈ ls, IntOk x.1 ∧ IntOk x.2.1 ∧ IntOk x.2.2) →
    ¬((∀ x ∈ ls, x.2.1 ≠ x.2.2) ∧ (ls.map (·.1)).Nodup ∧ ∀ x ∈ ls, x.1 ∉ (Spec.empty.run ops).linkIds) →
    ∃ m, Res.foldlM graphRow (run empty ops) (ls.map linkLine) = .throw m := by
  intro ls
  induction ls with
  | nil => intro ops _ h; exact absurd (by simp) h
  | cons x ls ih =>
    intro ops hi h
    have hrel := run_rel_empty ops
    have hr2 := (exec_spec (exec_spec hrel (.addNode x.2.1)).2.1 (.addNode x.2.2)).2.1
    have hx := exec_spec hr2 (.addLink x.2.1 x.2.2 x.1)
    have hacc := graph_step (Spec.empty.run ops) x
    have hrow : graphRow (run empty ops) (linkLine x) = _ :=
      graphRow_eq _ _ _ _ (hi x (by simp)).1 (hi x (by simp)).2.1 (hi x (by simp)).2.2
    rw [List.map_cons, Res.foldlM_cons, hrow]
    by_cases ha : x.2.1 ≠ x.2.2 ∧ x.1 ∉ (Spec.empty.run ops).linkIds
    · obtain ⟨g1, g2, _⟩ := graph_fold [x] ops (by simpa using hi x (by simp)) (by simpa using ha.1) (by simp)
        (by simpa using ha.2)
      simp only [List.map_cons, List.map_nil, Res.foldlM_cons, hrow, List.flatMap_cons, List.flatMap_nil,
        List.append_nil, List.reverse_cons, List.reverse_nil, List.nil_append, List.cons_append] at g1 g2
      rw [Res.bind_eq_ok] at g1
      obtain ⟨b, hb, hb2⟩ := g1
      simp only [Res.foldlM_nil, Res.ok.injEq] at hb2
      rw [hb, hb2]
      refine ih (ops ++ linkOps x) (fun y hy => hi y (by simp [hy])) ?_
      rintro ⟨k1, k2, k3⟩
      apply h
      have k3' : ∀ y ∈ ls, y.1 ≠ x.1 ∧ y.1 ∉ (Spec.empty.run ops).linkIds := by
        intro y hy
        have := k3 y hy
        unfold Spec.linkIds at this
        rw [g2] at this
        simp only [List.map_cons, List.mem_cons, not_or] at this
        exact this
      refine ⟨?_, ?_, ?_⟩
      · intro y hy
        rcases List.mem_cons.1 hy with rfl | hy
        · exact ha.1
        · exact k1 y hy
      · rw [List.map_cons, List.nodup_cons]
        refine ⟨?_, k2⟩
        intro hm
        obtain ⟨y, hy, e⟩ := List.mem_map.1 hm
        exact (k3' y hy).1 e
      · intro y hy
        rcases List.mem_cons.1 hy with rfl | hy
        · exact ha.2
        · exact (k3' y hy).2
    · rw [decide_eq_false ha] at hacc
      obtain ⟨m, hm⟩ := hx.2.2 hacc
      exact ⟨m, by rw [hm]; rfl⟩

end Verif.Io

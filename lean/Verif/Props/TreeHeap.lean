import Verif.Lemmas.TreeHeap

/-! # C184: installing trees of cumulative curves any number of times -/

namespace Verif
open TH

/-- C184: trees may be installed on links at any time and any number of times, while flows are recorded.  No memory is used
or freed after it was freed, and the trees of a link hold exactly the flows since the last time they were installed.
Proved if trees are installed on each bus link at most once. -/
theorem C184_trees_partial (kind : ℕ → Kind) (ops : List Op) (hb : BusOnce kind ops) :
    ∃ s, TH.run kind State.init ops = .ok s ∧
      (∀ l, Op.install l ∉ ops → ∀ sl, s.read l sl = none) ∧
      (∀ l sl, (kind l).has sl = false → s.read l sl = none) ∧
      ∀ l sl before after, ops = before ++ .install l :: after → Op.install l ∉ after → (kind l).has sl = true →
        s.read l sl = some (some (flows l sl after)) := by
  obtain ⟨s, h1, g⟩ := run_ok ops _ State.init Good.init (fun _ _ _ => rfl) hb (fun _ _ _ _ => rfl)
  have hread : ∀ l sl, s.read l sl = ((ops.foldl (content kind) fun _ _ => none) l sl).map some := by
    intro l sl
    unfold State.read
    cases hc : (ops.foldl (content kind) fun _ _ => none) l sl with
    | none => rw [g.null l sl hc]; rfl
    | some h =>
      obtain ⟨a, q1, q2⟩ := g.tree l sl h hc
      rw [q1, Option.map_some, q2]; rfl
  refine ⟨s, h1, fun l hl sl => ?_, fun l sl hs => ?_, fun l sl before after he ha hk => ?_⟩
  · rw [hread, content_after _ _ hl]; rfl
  · have : ∀ (ops : List Op) (C : ℕ → Slot → Option (List TH.Item)), C l sl = none → (ops.foldl (content kind) C) l sl = none := by
      intro ops
      induction ops with
      | nil => intro C h; exact h
      | cons o ops ih =>
        intro C h
        refine ih _ ?_
        cases o with
        | install m =>
          by_cases e : l = m
          · subst e; simp [content, hs]
          · simp only [content, upd_other _ _ _ _ e, h]
        | flow m t x =>
          simp only [content]
          split_ifs
          · rw [h]; rfl
          · exact h
    rw [hread, this ops _ rfl]; rfl
  · rw [hread, he, List.foldl_append, List.foldl_cons, content_after _ _ ha]
    simp [content, hk]

/-- C184: when all links are destroyed, all trees are freed, each once: nothing leaks.  Proved if trees are installed on
each bus link at most once. -/
theorem C184_no_leak_partial (kind : ℕ → Kind) (ops : List Op) (hb : BusOnce kind ops) (ls : List ℕ) (hn : ls.Nodup)
    (hall : ∀ l, Op.install l ∈ ops → l ∈ ls) :
    ∃ s t, TH.run kind State.init ops = .ok s ∧ destroyAll kind s ls = .ok t ∧ ∀ a, t.heap a = none := by
  obtain ⟨s, h1, g⟩ := run_ok ops _ State.init Good.init (fun _ _ _ => rfl) hb (fun _ _ _ _ => rfl)
  obtain ⟨s', h1', r1, r2, _⟩ := C184_trees_partial kind ops hb
  rw [h1] at h1'
  cases h1'
  have hz : ∀ l sl, s.read l sl = none → s.ptr l sl = none := fun l sl h => by simpa [State.read] using h
  have hC : ∀ l sl, (kind l).has sl = false → (ops.foldl (content kind) fun _ _ => none) l sl = none := by
    intro l sl h
    cases hc : (ops.foldl (content kind) fun _ _ => none) l sl with
    | none => rfl
    | some x =>
      obtain ⟨a, q, _⟩ := g.tree l sl x hc
      rw [hz l sl (r2 l sl h)] at q; cases q
  obtain ⟨t, h2, h3⟩ := destroyAll_ok ls _ s s g hn hC rfl (fun _ _ => rfl)
  refine ⟨s, t, h1, h2, fun a => ?_⟩
  by_contra ha
  obtain ⟨l, sl, hl, hp⟩ := h3 a ha
  rw [hz l sl (r1 l (fun h => hl (hall l h)) sl)] at hp
  cases hp

/-- C184 is false of bus links: when trees are installed on a bus link for the second time, the tree of passengers that was
just made is freed instead of the old tree of buses.  The next passenger that enters the link is recorded in freed memory, and
destroying the link frees it again. -/
theorem C184_false_bus_links_twice (kind : ℕ → Kind) (l : ℕ) (hk : kind l = .bus) (ops : List Op) (hb : BusOnce kind ops)
    (hl : Op.install l ∈ ops) :
    ∃ s, TH.run kind State.init (ops ++ [.install l]) = .ok s ∧ s.read l .inA = some none ∧
      (∀ x, TH.run kind State.init (ops ++ [.install l, .flow l .inA x]) = .ub) ∧ destroy kind l s = .ub := by
  obtain ⟨s, h1, g⟩ := run_ok ops _ State.init Good.init (fun _ _ _ => rfl) hb (fun _ _ _ _ => rfl)
  obtain ⟨s', h1', _, r2, r3⟩ := C184_trees_partial kind ops hb
  rw [h1] at h1'
  cases h1'
  obtain ⟨before, after, he, ha⟩ : ∃ before after, ops = before ++ .install l :: after ∧ Op.install l ∉ after := by
    obtain ⟨p, q, he⟩ := List.append_of_mem hl
    refine ⟨p, q, he, fun h => ?_⟩
    have := hb l hk
    rw [he, List.count_append, List.count_cons_self] at this
    have := List.count_pos_iff.2 h
    omega
  have e1 := r3 l .inA before after he ha (by simp [hk, Kind.has])
  have e2 := r3 l .inB before after he ha (by simp [hk, Kind.has])
  have e3 := r2 l .outA (by simp [hk, Kind.has])
  have e4 := r2 l .outB (by simp [hk, Kind.has])
  simp only [State.read, Option.map_eq_some_iff, Option.map_eq_none_iff] at e1 e2 e3 e4
  obtain ⟨a, a1, a2⟩ := e1
  obtain ⟨b, b1, b2⟩ := e2
  have hab : a ≠ b := fun e => by subst e; have := (g.inj l .inA l .inB a a1 b1).2; cases this
  have hlt : b < s.next := g.fresh b (by rw [b2]; simp)
  have hd : dels l [.inA, .outA] s = .ok { s with heap := upd s.heap a none } := by
    unfold dels
    rw [Res.foldlM_cons]
    have : del (s.ptr l .inA) s = .ok { s with heap := upd s.heap a none } := by
      unfold del; rw [a1]; simp only [a2]
    rw [this, Res.ok_bind, Res.foldlM_cons]
    have : del (State.ptr { s with heap := upd s.heap a none } l .outA) { s with heap := upd s.heap a none }
        = .ok { s with heap := upd s.heap a none } := by
      unfold del; simp only [e3]
    rw [this]; rfl
  let s1 : TH.State := { s with heap := upd s.heap a none }
  let s2 : TH.State := alloc l .inA s1
  let s3 : TH.State := { s2 with heap := upd s2.heap s.next none }
  have p1 : s2.ptr l .inA = some s.next := by simp [s2, s1, alloc]
  have p2 : s2.ptr l .inB = some b := by simp [s2, s1, alloc, upd, b1]
  have p3 : s2.ptr l .outB = none := by simp [s2, s1, alloc, upd, e4]
  have p4 : s2.ptr l .outA = none := by simp [s2, s1, alloc, upd, e3]
  have p5 : s2.heap s.next = some [] := by simp [s2, s1, alloc]
  have hin : install kind l s = .ok (alloc l .inB s3) := by
    unfold install
    rw [hk]
    simp only [hd, Res.bind_ok']
    have q1 : (if s2.ptr l .inB ≠ none then del (s2.ptr l .inA) s2 else .ok s2) = .ok s3 := by
      rw [if_pos (by rw [p2]; simp), p1]
      unfold del
      simp only [p5]
      rfl
    have q2 : (if s3.ptr l .outB ≠ none then del (s3.ptr l .outA) s3 else .ok s3) = .ok s3 := by
      rw [if_neg]; simp [s3, p3]
    change (if s2.ptr l .inB ≠ none then del (s2.ptr l .inA) s2 else .ok s2).bind _ = _
    rw [q1, Res.bind_ok', q2]
    rfl
  have hrun : TH.run kind State.init (ops ++ [.install l]) = .ok (alloc l .inB s3) := by
    unfold TH.run at h1 ⊢
    rw [Res.foldlM_append, h1, Res.ok_bind, Res.foldlM_cons]
    show (install kind l s >>= _) = _
    rw [hin]; rfl
  have f1 : (alloc l .inB s3).ptr l .inA = some s.next := by simp [alloc, s3, upd, p1]
  have f2 : (alloc l .inB s3).heap s.next = none := by
    have : s3.next = s.next + 1 := rfl
    simp [alloc, s3, upd, s2, s1]
  have f3 : (alloc l .inB s3).ptr l .inB = some (s.next + 1) := by simp [alloc, s3, s2, s1]
  have f4 : (alloc l .inB s3).heap (s.next + 1) = some [] := by simp [alloc, s3, s2, s1]
  have f5 : (alloc l .inB s3).ptr l .outB = none := by simp [alloc, s3, upd, p3]
  refine ⟨_, hrun, ?_, fun x => ?_, ?_⟩
  · unfold State.read; rw [f1, Option.map_some, f2]
  · have : ops ++ [Op.install l, .flow l .inA x] = (ops ++ [.install l]) ++ [.flow l .inA x] := by simp
    rw [this]
    unfold TH.run at hrun ⊢
    rw [Res.foldlM_append, hrun, Res.ok_bind, Res.foldlM_cons]
    show (flow l .inA x _ >>= _) = _
    unfold flow
    rw [f1]
    simp only [f2]
    rfl
  · unfold destroy dels
    rw [hk]
    simp only
    rw [Res.foldlM_cons]
    have g1 : del ((alloc l .inB s3).ptr l .inB) (alloc l .inB s3) =
        .ok { alloc l .inB s3 with heap := upd (alloc l .inB s3).heap (s.next + 1) none } := by
      unfold del; rw [f3]; simp only [f4]
    rw [g1, Res.ok_bind, Res.foldlM_cons]
    have g2 : del (TH.State.ptr { alloc l .inB s3 with heap := upd (alloc l .inB s3).heap (s.next + 1) none } l .outB)
        { alloc l .inB s3 with heap := upd (alloc l .inB s3).heap (s.next + 1) none } =
        .ok { alloc l .inB s3 with heap := upd (alloc l .inB s3).heap (s.next + 1) none } := by
      unfold del; simp only [f5]
    rw [g2, Res.ok_bind, Res.foldlM_cons]
    have g3 : del (TH.State.ptr { alloc l .inB s3 with heap := upd (alloc l .inB s3).heap (s.next + 1) none } l .inA)
        { alloc l .inB s3 with heap := upd (alloc l .inB s3).heap (s.next + 1) none } = .ub := by
      unfold del
      simp only [f1]
      rw [upd_other _ _ _ _ (by omega), f2]
    rw [g3]; rfl

namespace TreeHeapEx
/-- Links 0 to 3: one of each kind. -/
def kind : ℕ → Kind
  | 0 => .single
  | 1 => .twoClass
  | 2 => .walking
  | _ => .bus

/-- Trees are installed, flows come, some trees are installed again. -/
def ops : List Op :=
  [.install 0, .install 3, .flow 0 .outA (1, 1, 0, 0), .install 1, .flow 3 .inB (1, 1, 7, 0), .install 0,
    .flow 0 .inA (2, 1, 0, 0), .install 2, .flow 2 .inA (2, 1, 4, 0), .install 1, .flow 1 .inB (3, 1, 0, 1)]

example : BusOnce kind ops := by
  intro l hl
  by_cases h : l = 3
  · subst h; decide
  · have : l ≠ 0 ∧ l ≠ 1 ∧ l ≠ 2 := by
      refine ⟨?_, ?_, ?_⟩ <;> (rintro rfl; simp [kind] at hl)
    have : Op.install l ∉ ops := by simp [ops]; omega
    rw [List.count_eq_zero.2 this]; omega

set_option synthInstance.maxSize 1024 in
example : ((TH.run kind State.init ops).bind fun s =>
    .ok [s.read 0 .inA, s.read 0 .outA, s.read 1 .inB, s.read 2 .inA, s.read 3 .inA, s.read 3 .inB]) =
    .ok [some (some [(2, 1, 0, 0)]), some (some []), some (some [(3, 1, 0, 1)]), some (some [(2, 1, 4, 0)]), some (some []),
      some (some [(1, 1, 7, 0)])] := by decide +kernel

set_option synthInstance.maxSize 1024 in
example : ((TH.run kind State.init (ops ++ [.install 3])).bind fun s => .ok (s.read 3 .inA)) = .ok (some none) := by decide +kernel

end TreeHeapEx

end Verif

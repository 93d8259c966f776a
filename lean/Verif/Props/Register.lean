import Verif.Model.Register
import Verif.Spec.ShortestPath
import Verif.Lemmas.Io
import Mathlib.Data.List.Perm.Basic
import Mathlib.Tactic.Ring
import Mathlib.Data.List.Nodup
import Mathlib.Data.Int.Interval

/-! # C141–C145: registration of links and paths, numbers of paths, link and node sequences -/

namespace Verif
open Reg Graph

/-! ## C141: links -/

/-- The link exists and is of the right class. -/
def Usable (kind : ℤ → Option LinkKind) (fits : LinkKind → Bool) (l : ℤ) : Prop :=
  ∃ k, kind l = some k ∧ fits k = true

theorem linkLoop_spec (kind : ℤ → Option LinkKind) (fits : LinkKind → Bool) :
    ∀ (given regs : List ℤ), regs.Nodup →
      ((linkLoop kind fits regs given).ok = true ∧ (linkLoop kind fits regs given).state = regs ++ given ∧
        (regs ++ given).Nodup ∧ ∀ l ∈ given, Usable kind fits l) ∨
      ((linkLoop kind fits regs given).ok = false ∧ ∃ done l rest, given = done ++ l :: rest ∧
        (linkLoop kind fits regs given).state = regs ++ done ∧ (regs ++ done).Nodup ∧
        (∀ x ∈ done, Usable kind fits x) ∧ (¬ Usable kind fits l ∨ l ∈ regs ++ done)) := by
  intro given
  induction given with
  | nil => intro regs h; exact Or.inl ⟨rfl, by simp [linkLoop], by simpa using h, by simp⟩
  | cons l ls ih =>
    intro regs h
    unfold linkLoop
    cases hk : kind l with
    | none =>
      exact Or.inr ⟨rfl, [], l, ls, rfl, by simp, by simpa using h, by simp,
        Or.inl (fun ⟨k, e, _⟩ => by rw [hk] at e; cases e)⟩
    | some k =>
      by_cases hf : fits k = true
      · simp only [hf, Bool.not_true, Bool.false_eq_true, if_false]
        by_cases hm : l ∈ regs
        · rw [if_pos hm]
          exact Or.inr ⟨rfl, [], l, ls, rfl, by simp, by simpa using h, by simp,
            Or.inr (by simpa using hm)⟩
        · rw [if_neg hm]
          have hu : Usable kind fits l := ⟨k, hk, hf⟩
          have hn : (regs ++ [l]).Nodup := by
            rw [List.nodup_append]
            exact ⟨h, List.nodup_singleton l, by
              intro a ha b hb e
              rw [List.mem_singleton.1 hb] at e
              exact hm (e ▸ ha)⟩
          rcases ih (regs ++ [l]) hn with ⟨a, b, c, d⟩ | ⟨a, done, x, rest, b, c, d, e, f⟩
          · refine Or.inl ⟨a, by rw [b]; simp, by simpa using c, ?_⟩
            intro y hy
            rcases List.mem_cons.1 hy with rfl | hy
            · exact hu
            · exact d y hy
          · refine Or.inr ⟨a, l :: done, x, rest, by rw [b]; rfl, by rw [c]; simp, by simpa using d, ?_, ?_⟩
            · intro y hy
              rcases List.mem_cons.1 hy with rfl | hy
              · exact hu
              · exact e y hy
            · simpa using f
      · simp only [Bool.not_eq_true] at hf
        have hb : (!fits k) = true := by rw [hf]; rfl
        simp only [if_pos hb]
        refine Or.inr ⟨by trivial, [], l, ls, by simp, by simp, by simpa using h, by simp, ?_⟩
        exact Or.inl (fun ⟨k', e, e'⟩ => by
            rw [hk] at e; cases e; rw [hf] at e'; cases e')

/-- **C141.**  Whatever was registered before: registering links succeeds exactly if every given number
is a link of the right class and none is given twice, and then exactly the given links are registered,
in the given order.  If it raises an error, the earlier registration is gone and the links before the
first offending one are registered; the offending one is unknown, of another class or a repetition. -/
theorem C141_register_links (kind : ℤ → Option LinkKind) (fits : LinkKind → Bool) (old given : List ℤ) :
    ((registerLinks kind fits old given).ok = true ↔ given.Nodup ∧ ∀ l ∈ given, Usable kind fits l) ∧
    ((registerLinks kind fits old given).ok = true → (registerLinks kind fits old given).state = given) ∧
    ((registerLinks kind fits old given).ok = false → ∃ done l rest, given = done ++ l :: rest ∧
      (registerLinks kind fits old given).state = done ∧ done.Nodup ∧ (∀ x ∈ done, Usable kind fits x) ∧
      (¬ Usable kind fits l ∨ l ∈ done)) := by
  have h0 : registerLinks kind fits old given = linkLoop kind fits [] given := by
    unfold registerLinks
    cases old <;> rfl
  rw [h0]
  rcases linkLoop_spec kind fits given [] List.nodup_nil with ⟨a, b, c, d⟩ | ⟨a, done, x, rest, b, c, d, e, f⟩
  · refine ⟨⟨fun _ => ⟨by simpa using c, d⟩, fun _ => a⟩, fun _ => by simpa using b, fun h => ?_⟩
    rw [a] at h; cases h
  · refine ⟨⟨fun h => ?_, fun h => ?_⟩, fun h => ?_, fun _ => ⟨done, x, rest, b, by simpa using c,
      by simpa using d, e, by simpa using f⟩⟩
    · rw [a] at h; cases h
    · exfalso
      obtain ⟨h1, h2⟩ := h
      rcases f with f | f
      · exact f (h2 x (by rw [b]; simp))
      · rw [b, List.nodup_append] at h1
        exact h1.2.2 x (by simpa using f) x (by simp) rfl
    · rw [a] at h; cases h

/-- Links 3 and 1 of a network with a walking link 7 and a bus link 8. -/
def exKind : ℤ → Option LinkKind := fun l =>
  if l = 7 then some .walking else if l = 8 then some .bus else if l < 7 then some .multiclass else none

example : registerLinks exKind (· = .multiclass) [5] [3, 1] = ⟨[3, 1], true⟩ ∧
    registerLinks exKind (· = .multiclass) [5] [3, 1, 3] = ⟨[3, 1], false⟩ ∧
    registerLinks exKind (· = .multiclass) [5] [3, 7, 1] = ⟨[3], false⟩ ∧
    registerLinks exKind (· = .walking) [] [7] = ⟨[7], true⟩ ∧
    registerLinks exKind (fun _ => true) [5] [9] = ⟨[], false⟩ := by decide

/-! ## C142: paths -/

/-- The state after some calls, successful or not. -/
def pathsAfter (known : ℤ → Bool) (calls : List (List ℤ)) : Paths :=
  calls.foldl (fun s given => (registerPaths known s given).state) ⟨[], []⟩

/-- The same for cars and trucks. -/
def mcAfter (known : ℤ → Bool) (calls : List (List ℤ)) : McPaths :=
  calls.foldl (fun s given => (registerMc known s given).state) ⟨[], ∅⟩

theorem index_get (s : Store ℤ ℕ) (p q : ℤ) (i : ℕ) :
    (s.insert p i).get q = (s.get q).or (if p = q then some i else none) := by
  unfold Store.insert
  by_cases h : s.has p = true
  · rw [if_pos h]
    by_cases hq : p = q
    · subst hq
      unfold Store.has at h
      cases e : s.get p with
      | none => rw [e] at h; cases h
      | some x => rfl
    · rw [if_neg hq]; cases s.get q <;> rfl
  · rw [if_neg h, Store.get_append]
    rfl

theorem pathLoop_spec (known : ℤ → Bool) : ∀ (given : List ℤ) (i : ℕ) (s : Paths),
    ((pathLoop known i s given).ok = true ↔ ∀ p ∈ given, known p = true) ∧
    ((pathLoop known i s given).ok = true → (pathLoop known i s given).state.vec = s.vec ++ given ∧
      ∀ q, (pathLoop known i s given).state.index.get q =
        (s.index.get q).or (if q ∈ given then some (i + given.idxOf q) else none)) ∧
    ((pathLoop known i s given).ok = false → ∃ done p rest, given = done ++ p :: rest ∧ known p = false ∧
      (pathLoop known i s given).state.vec = s.vec ++ done) := by
  intro given
  induction given with
  | nil =>
    intro i s
    refine ⟨⟨fun _ => by simp, fun _ => rfl⟩, fun _ => ⟨by simp [pathLoop], fun q => ?_⟩, fun h => ?_⟩
    · simp [pathLoop]
    · simp [pathLoop] at h
  | cons p ps ih =>
    intro i s
    unfold pathLoop
    by_cases hp : known p = true
    · rw [if_pos hp]
      obtain ⟨h1, h2, h3⟩ := ih (i + 1) ⟨s.vec ++ [p], s.index.insert p i⟩
      refine ⟨by rw [h1]; simp [hp], fun h => ?_, fun h => ?_⟩
      · obtain ⟨a, b⟩ := h2 h
        refine ⟨by rw [a]; simp, fun q => ?_⟩
        rw [b q, index_get]
        cases s.index.get q with
        | some x => rfl
        | none =>
          by_cases e : p = q
          · subst e; simp
          · have e' : q ≠ p := fun h => e h.symm
            by_cases hm : q ∈ ps
            · simp [hm, e, Nat.add_comm, Nat.add_left_comm]
            · simp [e, e', hm]
      · obtain ⟨done, x, rest, a, b, c⟩ := h3 h
        exact ⟨p :: done, x, rest, by rw [a]; rfl, b, by rw [c]; simp⟩
    · rw [if_neg hp]
      refine ⟨⟨fun h => (by cases h), fun h => absurd (h p (by simp)) hp⟩, fun h => (by cases h), fun _ => ?_⟩
      exact ⟨[], p, ps, rfl, by simpa using hp, by simp⟩

theorem pathLoop_inv (known : ℤ → Bool) : ∀ (given : List ℤ) (i : ℕ) (s : Paths),
    (s.vec = [] → s.index = []) →
    ((pathLoop known i s given).state.vec = [] → (pathLoop known i s given).state.index = []) := by
  intro given
  induction given with
  | nil => intro i s h; exact h
  | cons p ps ih =>
    intro i s h
    unfold pathLoop
    by_cases hp : known p = true
    · rw [if_pos hp]
      exact ih _ _ (by simp)
    · rw [if_neg hp]
      exact h

theorem start_empty (s : Paths) (h : s.vec = [] → s.index = []) :
    (if 0 < s.vec.length then (⟨[], []⟩ : Paths) else s) = ⟨[], []⟩ := by
  by_cases h0 : 0 < s.vec.length
  · rw [if_pos h0]
  · rw [if_neg h0]
    have hv : s.vec = [] := List.eq_nil_of_length_eq_zero (by omega)
    have hi := h hv
    cases s
    simp only at hv hi
    rw [hv, hi]

theorem pathsAfter_inv (known : ℤ → Bool) (calls : List (List ℤ)) :
    (pathsAfter known calls).vec = [] → (pathsAfter known calls).index = [] := by
  unfold pathsAfter
  induction calls using List.reverseRecOn with
  | nil => intro _; rfl
  | append_singleton cs c ih =>
    rw [List.foldl_append]
    refine pathLoop_inv known _ _ _ ?_
    rw [start_empty _ ih]
    intro _; rfl

theorem mcLoop_spec (known : ℤ → Bool) : ∀ (given : List ℤ) (vec : List ℤ),
    ((mcLoop known vec given).ok = true ↔ ∀ p ∈ given, known p = true) ∧
    ((mcLoop known vec given).ok = true → (mcLoop known vec given).state = vec ++ given) ∧
    ((mcLoop known vec given).ok = false → ∃ done p rest, given = done ++ p :: rest ∧ known p = false ∧
      (mcLoop known vec given).state = vec ++ done) := by
  intro given
  induction given with
  | nil => intro vec; exact ⟨⟨fun _ => by simp, fun _ => rfl⟩, fun _ => by simp [mcLoop], fun h => by simp [mcLoop] at h⟩
  | cons p ps ih =>
    intro vec
    unfold mcLoop
    by_cases hp : known p = true
    · rw [if_pos hp]
      obtain ⟨h1, h2, h3⟩ := ih (vec ++ [p])
      refine ⟨by rw [h1]; simp [hp], fun h => by rw [h2 h]; simp, fun h => ?_⟩
      obtain ⟨done, x, rest, a, b, c⟩ := h3 h
      exact ⟨p :: done, x, rest, by rw [a]; rfl, b, by rw [c]; simp⟩
    · rw [if_neg hp]
      refine ⟨⟨fun h => (by cases h), fun h => absurd (h p (by simp)) hp⟩, fun h => (by cases h), fun _ => ?_⟩
      exact ⟨[], p, ps, rfl, by simpa using hp, by simp⟩

theorem mcStart (s : McPaths) (h : s.vec = [] → s.set = ∅) :
    (if 0 < s.vec.length then (⟨[], ∅⟩ : McPaths) else s) = ⟨[], ∅⟩ := by
  by_cases h0 : 0 < s.vec.length
  · rw [if_pos h0]
  · rw [if_neg h0]
    have hv : s.vec = [] := List.eq_nil_of_length_eq_zero (by omega)
    have hi := h hv
    cases s
    simp only at hv hi
    rw [hv, hi]

theorem registerMc_spec (known : ℤ → Bool) (s : McPaths) (h : s.vec = [] → s.set = ∅) (given : List ℤ) :
    ((registerMc known s given).ok = true ↔ ∀ p ∈ given, known p = true) ∧
    ((registerMc known s given).ok = true → (registerMc known s given).state = ⟨given, given.toFinset⟩) ∧
    ((registerMc known s given).ok = false → ∃ done p rest, given = done ++ p :: rest ∧ known p = false ∧
      (registerMc known s given).state = ⟨done, ∅⟩) := by
  unfold registerMc
  rw [mcStart s h]
  obtain ⟨h1, h2, h3⟩ := mcLoop_spec known given []
  cases e : (mcLoop known [] given).ok with
  | true =>
    rw [e] at h1
    simp only [e, if_true]
    refine ⟨by simpa using h1, fun _ => by rw [h2 e]; simp, fun h => (by cases h)⟩
  | false =>
    rw [e] at h1
    simp only [e, Bool.false_eq_true, if_false]
    refine ⟨by simpa using h1, fun h => (by cases h), fun _ => ?_⟩
    obtain ⟨done, x, rest, a, b, c⟩ := h3 e
    exact ⟨done, x, rest, a, b, by rw [c]; simp⟩

theorem registerMc_inv (known : ℤ → Bool) (s : McPaths) (h : s.vec = [] → s.set = ∅) (given : List ℤ) :
    (registerMc known s given).state.vec = [] → (registerMc known s given).state.set = ∅ := by
  obtain ⟨_, h2, h3⟩ := registerMc_spec known s h given
  cases e : (registerMc known s given).ok with
  | true => rw [h2 e]; intro hv; simp only at hv ⊢; rw [hv]; rfl
  | false => obtain ⟨_, _, _, _, _, c⟩ := h3 e; rw [c]; intro _; rfl

theorem mcAfter_inv (known : ℤ → Bool) (calls : List (List ℤ)) :
    (mcAfter known calls).vec = [] → (mcAfter known calls).set = ∅ := by
  unfold mcAfter
  induction calls using List.reverseRecOn with
  | nil => intro _; rfl
  | append_singleton cs c ih =>
    rw [List.foldl_append]
    exact registerMc_inv known _ ih c

/-- **C142.**  After any calls, successful or not: registering paths succeeds exactly if all given
numbers are paths, and then exactly the given paths are registered, in the given order; the position of
a path is its first one among the given (single-class), the paths asked for are the given (two-class).
If it raises an error, the paths before the first unknown one are registered. -/
theorem C142_register_paths (known : ℤ → Bool) (calls : List (List ℤ)) (given : List ℤ) :
    (let r := registerPaths known (pathsAfter known calls) given
     (r.ok = true ↔ ∀ p ∈ given, known p = true) ∧
     (r.ok = true → r.state.vec = given ∧
       ∀ p, r.state.index.get p = if p ∈ given then some (given.idxOf p) else none) ∧
     (r.ok = false → ∃ done p rest, given = done ++ p :: rest ∧ known p = false ∧ r.state.vec = done)) ∧
    (let r := registerMc known (mcAfter known calls) given
     (r.ok = true ↔ ∀ p ∈ given, known p = true) ∧
     (r.ok = true → r.state.vec = given ∧ ∀ p, p ∈ r.state.set ↔ p ∈ given) ∧
     (r.ok = false → ∃ done p rest, given = done ++ p :: rest ∧ known p = false ∧ r.state.vec = done ∧
       r.state.set = ∅)) := by
  constructor
  · intro r
    have hr : r = pathLoop known 0 ⟨[], []⟩ given := by
      change pathLoop known 0 (if 0 < (pathsAfter known calls).vec.length then ⟨[], []⟩
        else pathsAfter known calls) given = _
      rw [start_empty _ (pathsAfter_inv known calls)]
    obtain ⟨h1, h2, h3⟩ := pathLoop_spec known given 0 ⟨[], []⟩
    rw [← hr] at h1 h2 h3
    refine ⟨h1, fun h => ⟨by simpa using (h2 h).1, fun p => ?_⟩, fun h => ?_⟩
    · rw [(h2 h).2 p]
      simp [Store.get]
    · obtain ⟨done, p, rest, a, b, c⟩ := h3 h
      exact ⟨done, p, rest, a, b, by simpa using c⟩
  · intro r
    obtain ⟨h1, h2, h3⟩ := registerMc_spec known _ (mcAfter_inv known calls) given
    refine ⟨h1, fun h => ?_, fun h => ?_⟩
    · have := h2 h
      change r.state = _ at this
      rw [this]
      exact ⟨rfl, fun p => by simp⟩
    · obtain ⟨done, p, rest, a, b, c⟩ := h3 h
      change r.state = _ at c
      exact ⟨done, p, rest, a, b, by rw [c], by rw [c]⟩

/-- Two calls, the first of which fails. -/
example : registerPaths (· < 10) (pathsAfter (· < 10) [[1, 2, 12]]) [4, 3, 4] =
      ⟨⟨[4, 3, 4], [(4, 0), (3, 1)]⟩, true⟩ ∧
    pathsAfter (· < 10) [[1, 2, 12]] = ⟨[1, 2], [(1, 0), (2, 1)]⟩ ∧
    (registerMc (· < 10) (mcAfter (· < 10) [[1, 2], [1, 12]]) [4, 3]).ok = true ∧
    (registerMc (· < 10) (mcAfter (· < 10) [[1, 2], [1, 12]]) [4, 3]).state.set = {3, 4} ∧
    (mcAfter (· < 10) [[1, 2], [1, 12]]).vec = [1] ∧ (mcAfter (· < 10) [[1, 2], [1, 12]]).set = ∅ := by decide +kernel

/-! ## C143: the paths of a multimodal network -/

/-- The state after some calls for a mode. -/
def mmAfter (kind : ℤ → Option Mode) (m : Mode) (num : ℤ) (calls : List (List ℤ)) : MmPaths :=
  calls.foldl (fun s given => (registerMm kind m num s given).state) ⟨[], ∅, ∅⟩

/-- The state after some calls for all modes. -/
def allAfter (known : ℤ → Bool) (num : ℤ) (calls : List (List ℤ)) : McPaths :=
  calls.foldl (fun s given => (registerAll known num s given).state) ⟨[], ∅⟩

theorem mmLoop_spec (kind : ℤ → Option Mode) (m : Mode) : ∀ (given : List ℤ) (s : MmPaths),
    ((mmLoop kind m s given).ok = true ↔ ∀ p ∈ given, kind p = some m) ∧
    ((mmLoop kind m s given).ok = true →
      (mmLoop kind m s given).state = ⟨s.vec ++ given, s.set, s.ids ∪ given.toFinset⟩) ∧
    (∀ x ∈ (mmLoop kind m s given).state.ids, x ∈ s.ids ∨ kind x = some m) := by
  intro given
  induction given with
  | nil =>
    intro s
    exact ⟨⟨fun _ => by simp, fun _ => rfl⟩, fun _ => by simp [mmLoop], fun x h => Or.inl h⟩
  | cons p ps ih =>
    intro s
    unfold mmLoop
    cases hk : kind p with
    | none =>
      refine ⟨⟨fun h => (by cases h), fun h => ?_⟩, fun h => (by cases h), fun x h => Or.inl h⟩
      have := h p (by simp)
      rw [hk] at this; cases this
    | some k =>
      by_cases hm : k ≠ m
      · simp only [if_pos hm]
        refine ⟨⟨fun h => (by cases h), fun h => ?_⟩, fun h => (by cases h), fun x h => Or.inl h⟩
        have := h p (by simp)
        rw [hk] at this; cases this
        exact absurd rfl hm
      · simp only [if_neg hm]
        have hm' : k = m := not_not.1 hm
        subst hm'
        obtain ⟨h1, h2, h3⟩ := ih { s with vec := s.vec ++ [p], ids := insert p s.ids }
        refine ⟨by rw [h1]; simp [hk], fun h => ?_, fun x hx => ?_⟩
        · rw [h2 h]
          simp only [MmPaths.mk.injEq, List.append_assoc, List.singleton_append, true_and]
          ext y
          simp only [Finset.mem_union, Finset.mem_insert, List.mem_toFinset, List.mem_cons]
          tauto
        · rcases h3 x hx with h | h
          · rcases Finset.mem_insert.1 h with rfl | h
            · exact Or.inr hk
            · exact Or.inl h
          · exact Or.inr h

theorem mmStart (s : MmPaths) :
    (if 0 < s.vec.length then { s with vec := [], set := ∅ } else s).vec = [] ∧
    (if 0 < s.vec.length then { s with vec := [], set := ∅ } else s).ids = s.ids := by
  by_cases h0 : 0 < s.vec.length
  · rw [if_pos h0]; exact ⟨rfl, rfl⟩
  · rw [if_neg h0]; exact ⟨List.eq_nil_of_length_eq_zero (by omega), rfl⟩

theorem registerMm_ids (kind : ℤ → Option Mode) (m : Mode) (num : ℤ) (s : MmPaths) (given : List ℤ)
    (h : ∀ x ∈ s.ids, kind x = some m) :
    ∀ x ∈ (registerMm kind m num s given).state.ids, kind x = some m := by
  have h3 := (mmLoop_spec kind m given
    (if 0 < s.vec.length then { s with vec := [], set := ∅ } else s)).2.2
  rw [(mmStart s).2] at h3
  have key : ∀ x ∈ (mmLoop kind m (if 0 < s.vec.length then { s with vec := [], set := ∅ } else s)
      given).state.ids, kind x = some m := fun x hx => (h3 x hx).elim (h x) id
  intro x hx
  refine key x ?_
  unfold registerMm at hx
  simp only at hx
  generalize mmLoop kind m (if 0 < s.vec.length then { s with vec := [], set := ∅ } else s) given = q at hx ⊢
  split at hx
  · split at hx <;> exact hx
  · exact hx

theorem mmAfter_ids (kind : ℤ → Option Mode) (m : Mode) (num : ℤ) (calls : List (List ℤ)) :
    ∀ x ∈ (mmAfter kind m num calls).ids, kind x = some m := by
  unfold mmAfter
  induction calls using List.reverseRecOn with
  | nil => intro x h; simp at h
  | append_singleton cs c ih =>
    rw [List.foldl_append]
    exact registerMm_ids kind m num _ c ih

/-- **C143.**  `all` are the paths of the mode.  After any calls, successful or not: registering paths
of the mode succeeds exactly if each of its paths is given exactly once, and then exactly the given
paths are registered, in the given order. -/
theorem C143_register_mode_paths (kind : ℤ → Option Mode) (m : Mode) (all : Finset ℤ)
    (hall : ∀ p, p ∈ all ↔ kind p = some m) (calls : List (List ℤ)) (given : List ℤ) :
    let r := registerMm kind m all.card (mmAfter kind m all.card calls) given
    (r.ok = true ↔ given.Nodup ∧ ∀ p, p ∈ given ↔ p ∈ all) ∧
    (r.ok = true → r.state.vec = given ∧ (∀ p, p ∈ r.state.set ↔ p ∈ given) ∧
      ∀ p, p ∈ r.state.ids ↔ p ∈ given) := by
  intro r
  obtain ⟨hv, hi⟩ := mmStart (mmAfter kind m all.card calls)
  have hids := mmAfter_ids kind m all.card calls
  set s0 := (if 0 < (mmAfter kind m all.card calls).vec.length then
      { mmAfter kind m all.card calls with vec := [], set := ∅ } else mmAfter kind m all.card calls) with hs0
  obtain ⟨h1, h2, -⟩ := mmLoop_spec kind m given s0
  have hr : r = (let q := mmLoop kind m s0 given
    if q.ok then
      let s' : MmPaths := { q.state with set := q.state.vec.toFinset }
      if s'.set.card ≠ s'.vec.length ∨ s'.ids.card ≠ s'.vec.length ∨ (s'.vec.length : ℤ) ≠ all.card then
        ⟨s', false⟩
      else ⟨s', true⟩
    else q) := rfl
  simp only at hr
  cases e : (mmLoop kind m s0 given).ok with
  | false =>
    rw [e] at hr h1
    simp only [Bool.false_eq_true, if_false, false_iff] at hr h1
    rw [hr, e]
    refine ⟨⟨fun h => (by cases h), fun h => ?_⟩, fun h => (by cases h)⟩
    exact absurd (fun p hp => (hall p).1 ((h.2 p).1 hp)) h1
  | true =>
    have hk := h1.1 e
    rw [e, h2 e, hv, hi] at hr
    simp only [if_true, List.nil_append] at hr
    by_cases hc : given.toFinset.card ≠ given.length ∨
        ((mmAfter kind m all.card calls).ids ∪ given.toFinset).card ≠ given.length ∨
        (given.length : ℤ) ≠ all.card
    · rw [if_pos hc] at hr
      rw [hr]
      refine ⟨⟨fun h => (by cases h), fun h => ?_⟩, fun h => (by cases h)⟩
      exfalso
      have hf : given.toFinset = all := by ext p; rw [List.mem_toFinset]; exact h.2 p
      have hl : given.toFinset.card = given.length := List.toFinset_card_of_nodup h.1
      have hu : (mmAfter kind m all.card calls).ids ∪ given.toFinset = all := by
        rw [hf]
        exact Finset.union_eq_right.2 fun x hx => (hall x).2 (hids x hx)
      rw [hu, ← hl, hf] at hc
      simp at hc
    · rw [if_neg hc] at hr
      push Not at hc
      obtain ⟨c1, c2, c3⟩ := hc
      have hn : given.Nodup := by
        rw [← List.dedup_eq_self]
        rw [List.card_toFinset] at c1
        exact (List.dedup_sublist given).eq_of_length c1
      have hsub : given.toFinset ⊆ all := fun x hx => (hall x).2 (hk x (List.mem_toFinset.1 hx))
      have hf : given.toFinset = all := Finset.eq_of_subset_of_card_le hsub (by omega)
      rw [hr]
      refine ⟨⟨fun _ => ⟨hn, fun p => by rw [← hf, List.mem_toFinset]⟩, fun _ => rfl⟩,
        fun _ => ⟨rfl, fun p => List.mem_toFinset, fun p => ?_⟩⟩
      simp only [Finset.mem_union, List.mem_toFinset]
      refine ⟨fun h => h.elim (fun h => ?_) id, Or.inr⟩
      rw [← List.mem_toFinset, hf]
      exact (hall p).2 (hids p h)

theorem registerAll_state (known : ℤ → Bool) (num : ℤ) (s : McPaths) (given : List ℤ) :
    (registerAll known num s given).state = (registerMc known s given).state := by
  unfold registerAll
  simp only
  split
  · split <;> rfl
  · rfl

theorem allAfter_inv (known : ℤ → Bool) (num : ℤ) (calls : List (List ℤ)) :
    (allAfter known num calls).vec = [] → (allAfter known num calls).set = ∅ := by
  unfold allAfter
  induction calls using List.reverseRecOn with
  | nil => intro _; rfl
  | append_singleton cs c ih =>
    rw [List.foldl_append]
    change (registerAll known num _ c).state.vec = [] → (registerAll known num _ c).state.set = ∅
    rw [registerAll_state]
    exact registerMc_inv known _ ih c

/-- **C143.**  The same for the paths of all modes together. -/
theorem C143_register_all_paths (known : ℤ → Bool) (all : Finset ℤ) (hall : ∀ p, p ∈ all ↔ known p = true)
    (calls : List (List ℤ)) (given : List ℤ) :
    let r := registerAll known all.card (allAfter known all.card calls) given
    (r.ok = true ↔ given.Nodup ∧ ∀ p, p ∈ given ↔ p ∈ all) ∧
    (r.ok = true → r.state.vec = given ∧ ∀ p, p ∈ r.state.set ↔ p ∈ given) := by
  intro r
  obtain ⟨h1, h2, h3⟩ := registerMc_spec known _ (allAfter_inv known all.card calls) given
  have hr : r = (let q := registerMc known (allAfter known all.card calls) given
    if q.ok then
      if q.state.set.card ≠ q.state.vec.length ∨ (q.state.vec.length : ℤ) ≠ all.card then
        ⟨q.state, false⟩ else q
    else q) := rfl
  simp only at hr
  cases e : (registerMc known (allAfter known all.card calls) given).ok with
  | false =>
    rw [e] at hr h1
    simp only [Bool.false_eq_true, if_false, false_iff] at hr h1
    rw [hr, e]
    refine ⟨⟨fun h => (by cases h), fun h => ?_⟩, fun h => (by cases h)⟩
    exact absurd (fun p hp => (hall p).1 ((h.2 p).1 hp)) h1
  | true =>
    have hk := h1.1 e
    rw [e] at hr
    simp only [if_true] at hr
    rw [h2 e] at hr
    simp only at hr
    by_cases hc : given.toFinset.card ≠ given.length ∨ (given.length : ℤ) ≠ all.card
    · rw [if_pos hc] at hr
      rw [hr]
      refine ⟨⟨fun h => (by cases h), fun h => ?_⟩, fun h => (by cases h)⟩
      exfalso
      have hf : given.toFinset = all := by ext p; rw [List.mem_toFinset]; exact h.2 p
      rw [← List.toFinset_card_of_nodup h.1, hf] at hc
      simp at hc
    · rw [if_neg hc] at hr
      push Not at hc
      obtain ⟨c1, c3⟩ := hc
      have hn : given.Nodup := by
        rw [← List.dedup_eq_self]
        rw [List.card_toFinset] at c1
        exact (List.dedup_sublist given).eq_of_length c1
      have hsub : given.toFinset ⊆ all := fun x hx => (hall x).2 (hk x (List.mem_toFinset.1 hx))
      have hf : given.toFinset = all := Finset.eq_of_subset_of_card_le hsub (by omega)
      rw [hr, e]
      refine ⟨⟨fun _ => ⟨hn, fun p => by rw [← hf, List.mem_toFinset]⟩, fun _ => rfl⟩, fun _ => ?_⟩
      rw [h2 e]
      exact ⟨rfl, fun p => List.mem_toFinset⟩

/-- Paths 0 to 2 are driving paths, 3 and 4 transit paths. -/
def exModes : ℤ → Option Mode := fun p =>
  if 0 ≤ p ∧ p < 3 then some .driving else if p = 3 ∨ p = 4 then some .transit else none

example : (∀ p, p ∈ ({0, 1, 2} : Finset ℤ) ↔ exModes p = some .driving) ∧
    (registerMm exModes .driving 3 (mmAfter exModes .driving 3 [[0, 0], [1, 3]]) [2, 0, 1]).ok = true ∧
    (registerMm exModes .driving 3 (mmAfter exModes .driving 3 [[0, 0], [1, 3]]) [2, 0, 1]).state.vec =
      [2, 0, 1] ∧
    (registerMm exModes .driving 3 (mmAfter exModes .driving 3 []) [2, 0]).ok = false ∧
    (registerMm exModes .driving 3 (mmAfter exModes .driving 3 []) [2, 0, 3]).ok = false ∧
    (registerAll (fun p => (exModes p).isSome) 5 ⟨[], ∅⟩ [4, 3, 2, 1, 0]).ok = true ∧
    (registerAll (fun p => (exModes p).isSome) 5 ⟨[], ∅⟩ [4, 3, 2, 1, 1]).ok = false := by
  refine ⟨fun p => ?_, by decide +kernel, by decide +kernel, by decide +kernel, by decide +kernel,
    by decide +kernel, by decide +kernel⟩
  simp only [Finset.mem_insert, Finset.mem_singleton, exModes]
  split
  · simp; omega
  · split <;> simp <;> omega

/-! ## C144: numbers of paths over all modes -/

/-- The numbers of the paths of a mode, pair after pair. -/
def numbersOf (pairs : List PairPaths) (buses : List ℤ) : Mode → List ℤ
  | .bus => buses
  | m => pairs.flatMap fun pr => if pr.has m then (pr.sets m).getD [] else []

/-- The entries made for a pair. -/
def pairEntries (pr : PairPaths) : List (Mode × ℤ) :=
  [Mode.driving, .transit, .pnr].flatMap fun m =>
    (if pr.has m then (pr.sets m).getD [] else []).map fun k => (m, k)

theorem foldl_enter (n : Mode → ℤ) (m : Mode) (s : Mapping) (ids : List ℤ) :
    ids.foldl (enter n m) s = (ids.map fun k => (m, k)).foldl (fun s e => enter n e.1 s e.2) s := by
  rw [List.foldl_map]

theorem enterMode_eq (n : Mode → ℤ) (pr : PairPaths) (h : ∀ m, pr.has m = true → pr.sets m ≠ none)
    (s : Mapping) (m : Mode) : enterMode n pr s m = .ok
      (((if pr.has m then (pr.sets m).getD [] else []).map fun k => (m, k)).foldl
        (fun s e => enter n e.1 s e.2) s) := by
  unfold enterMode
  by_cases hm : pr.has m = true
  · rw [if_pos hm, if_pos hm]
    cases e : pr.sets m with
    | none => exact absurd e (h m hm)
    | some ids => simp only [foldl_enter, Option.getD_some]
  · rw [if_neg hm, if_neg hm]; rfl

theorem enterPair_eq (n : Mode → ℤ) (pr : PairPaths) (h : ∀ m, pr.has m = true → pr.sets m ≠ none)
    (s : Mapping) : enterPair n s pr = .ok ((pairEntries pr).foldl (fun s e => enter n e.1 s e.2) s) := by
  unfold enterPair pairEntries
  simp only [Res.foldlM_cons, enterMode_eq n pr h]
  simp only [List.flatMap_cons, List.flatMap_nil, List.append_nil, List.foldl_append]
  rfl

theorem pairs_eq (n : Mode → ℤ) : ∀ (pairs : List PairPaths)
    (_ : ∀ pr ∈ pairs, ∀ m, pr.has m = true → pr.sets m ≠ none) (s : Mapping),
    Res.foldlM (enterPair n) s pairs =
      .ok ((pairs.flatMap pairEntries).foldl (fun s e => enter n e.1 s e.2) s) := by
  intro pairs
  induction pairs with
  | nil => intro _ s; rfl
  | cons pr prs ih =>
    intro h s
    rw [Res.foldlM_cons, enterPair_eq n pr (h pr (by simp))]
    change Res.foldlM (enterPair n) _ prs = _
    rw [ih (fun q hq => h q (by simp [hq])), List.flatMap_cons, List.foldl_append]

/-- All entries. -/
def entries (pairs : List PairPaths) (buses : List ℤ) : List (Mode × ℤ) :=
  pairs.flatMap pairEntries ++ buses.map fun k => (Mode.bus, k)

theorem mapping_eq (n : Mode → ℤ) (pairs : List PairPaths) (buses : List ℤ)
    (h : ∀ pr ∈ pairs, ∀ m, pr.has m = true → pr.sets m ≠ none) :
    mapping n pairs buses =
      (let s' := (entries pairs buses).foldl (fun s e => enter n e.1 s e.2) ⟨fun _ => none, 0⟩
       if s'.count ≠ n .driving + n .transit + n .pnr + n .bus then .throw "path count is wrong"
       else .ok s') := by
  unfold mapping
  rw [pairs_eq n pairs h, Res.bind_ok']
  simp only [entries, List.foldl_append, foldl_enter]

theorem count_eq (n : Mode → ℤ) : ∀ (es : List (Mode × ℤ)) (s : Mapping),
    (es.foldl (fun s e => enter n e.1 s e.2) s).count = s.count + es.length := by
  intro es
  induction es with
  | nil => intro s; simp
  | cons e es ih =>
    intro s
    rw [List.foldl_cons, ih]
    simp only [enter, List.length_cons]
    push_cast; ring

theorem dict_eq (n : Mode → ℤ) (es : List (Mode × ℤ)) (x : ℤ) :
    (∀ e, (es.foldl (fun s e => enter n e.1 s e.2) ⟨fun _ => none, 0⟩).dict x = some e →
      e ∈ es ∧ x = e.2 + offset n e.1) ∧
    (∀ e ∈ es, x = e.2 + offset n e.1 →
      (es.foldl (fun s e => enter n e.1 s e.2) ⟨fun _ => none, 0⟩).dict x ≠ none) := by
  induction es using List.reverseRecOn with
  | nil => exact ⟨fun e h => (by cases h), fun e h => (by simp at h)⟩
  | append_singleton es a ih =>
    rw [List.foldl_append, List.foldl_cons, List.foldl_nil]
    simp only [enter]
    by_cases hx : x = a.2 + offset n a.1
    · subst hx
      rw [upd_same]
      exact ⟨fun e h => (by cases h; exact ⟨by simp, rfl⟩), fun e _ _ => by simp⟩
    · rw [upd_other _ _ _ _ hx]
      refine ⟨fun e h => ⟨by simp [(ih.1 e h).1], (ih.1 e h).2⟩, fun e he h => ?_⟩
      rcases List.mem_append.1 he with he | he
      · exact ih.2 e he h
      · rw [List.mem_singleton.1 he] at h
        exact absurd h hx

theorem mem_regEntries (pairs : List PairPaths) (buses : List ℤ) (m : Mode) (k : ℤ) :
    (m, k) ∈ entries pairs buses ↔ k ∈ numbersOf pairs buses m := by
  unfold entries pairEntries
  cases m <;> simp [numbersOf]

theorem pairs_length (pairs : List PairPaths) :
    (pairs.flatMap pairEntries).length = (numbersOf pairs [] .driving).length +
      (numbersOf pairs [] .transit).length + (numbersOf pairs [] .pnr).length := by
  induction pairs with
  | nil => rfl
  | cons pr prs ih =>
    simp only [numbersOf] at ih
    simp only [numbersOf, List.flatMap_cons, List.length_append]
    rw [ih]
    simp only [pairEntries, List.flatMap_cons, List.flatMap_nil, List.length_append, List.length_map,
      List.length_nil]
    omega

theorem entries_length (pairs : List PairPaths) (buses : List ℤ) :
    (entries pairs buses).length = (numbersOf pairs buses .driving).length +
      (numbersOf pairs buses .transit).length + (numbersOf pairs buses .pnr).length +
      (numbersOf pairs buses .bus).length := by
  unfold entries
  rw [List.length_append, pairs_length, List.length_map]
  rfl

theorem length_le_of_range {l : List ℤ} {n : ℤ} (h : l.Nodup) (hr : ∀ k ∈ l, 0 ≤ k ∧ k < n) (hn : 0 ≤ n) :
    (l.length : ℤ) ≤ n ∧ ((l.length : ℤ) = n ↔ ∀ k, 0 ≤ k → k < n → k ∈ l) := by
  have hs : l.toFinset ⊆ Finset.Ico 0 n := fun k hk => by
    rw [Finset.mem_Ico]; exact hr k (List.mem_toFinset.1 hk)
  have hc : l.toFinset.card = l.length := List.toFinset_card_of_nodup h
  have hI : (Finset.Ico (0 : ℤ) n).card = n.toNat := by rw [Int.card_Ico]; simp
  have hle := Finset.card_le_card hs
  rw [hc, hI] at hle
  refine ⟨by omega, fun e k h0 h1 => ?_, fun hall => ?_⟩
  · have : l.toFinset = Finset.Ico 0 n := Finset.eq_of_subset_of_card_le hs (by rw [hc, hI]; omega)
    rw [← List.mem_toFinset, this, Finset.mem_Ico]
    exact ⟨h0, h1⟩
  · have : l.toFinset = Finset.Ico 0 n := by
      refine Finset.Subset.antisymm hs fun k hk => ?_
      rw [Finset.mem_Ico] at hk
      exact List.mem_toFinset.2 (hall k hk.1 hk.2)
    rw [← hc, this, hI]; omega

theorem enterMode_ub (n : Mode → ℤ) (pr : PairPaths) (m : Mode) (h1 : pr.has m = true)
    (h2 : pr.sets m = none) (s : Mapping) : enterMode n pr s m = .ub := by
  unfold enterMode
  rw [if_pos h1, h2]

theorem foldlM_fails {α β : Type} {f : β → α → Res β} : ∀ {l : List α} {a : α}, a ∈ l →
    (∀ b, (f b a).isOk = false) → ∀ b, (Res.foldlM f b l).isOk = false
  | [], _, ha, _, _ => by simp at ha
  | x :: l, a, ha, h, b => by
    rw [Res.foldlM_cons]
    cases e : f b x with
    | ok c =>
      rcases List.mem_cons.1 ha with rfl | ha
      · have := h b; rw [e] at this; cases this
      · exact foldlM_fails ha h c
    | throw m => rfl
    | ub => rfl
    | diverge => rfl

/-- A pair that is marked as having a mode (not bus) but has no path set for it: no table is returned. -/
theorem C144_missing_set (n : Mode → ℤ) (pairs : List PairPaths) (buses : List ℤ) (pr : PairPaths)
    (hp : pr ∈ pairs) (m : Mode) (hm : m ≠ .bus) (h1 : pr.has m = true) (h2 : pr.sets m = none) :
    (mapping n pairs buses).isOk = false := by
  have : (Res.foldlM (enterPair n) ⟨fun _ => none, 0⟩ pairs).isOk = false :=
    foldlM_fails hp (fun s => foldlM_fails (a := m) (by cases m <;> simp_all)
      (fun s => by rw [enterMode_ub n pr m h1 h2]; rfl) s) _
  unfold mapping
  revert this
  cases Res.foldlM (enterPair n) ⟨fun _ => none, 0⟩ pairs with
  | ok s => intro h; cases h
  | _ => intro _; rfl

example : (mapping (fun _ => 1) [⟨fun m => m = .transit, fun _ => none⟩] []).isOk = false :=
  C144_missing_set _ _ _ ⟨fun m => m = .transit, fun _ => none⟩ (List.mem_singleton.2 rfl) .transit (by decide) (by decide) rfl

/-- **C144.**  The paths of mode `m` are numbered from 0 on, without repetition, and there are `n m` of
them.  If all of them are paths of pairs in the passenger path table (or bus routes), every number from
0 to the total is given to exactly one path: first the driving paths, then transit, park-and-ride and
bus routes, each in the order of their own numbers; no other number is given.  If not all are, an error
is raised. -/
theorem C144_path_numbers (n : Mode → ℤ) (pairs : List PairPaths) (buses : List ℤ)
    (h : ∀ pr ∈ pairs, ∀ m, pr.has m = true → pr.sets m ≠ none) (hn : ∀ m, 0 ≤ n m)
    (hd : ∀ m, (numbersOf pairs buses m).Nodup)
    (hr : ∀ m, ∀ k ∈ numbersOf pairs buses m, 0 ≤ k ∧ k < n m) :
    ((∀ m k, 0 ≤ k → k < n m → k ∈ numbersOf pairs buses m) → ∃ s, mapping n pairs buses = .ok s ∧
      s.count = n .driving + n .transit + n .pnr + n .bus ∧
      (∀ k, 0 ≤ k → k < n .driving → s.dict k = some (.driving, k)) ∧
      (∀ k, 0 ≤ k → k < n .transit → s.dict (n .driving + k) = some (.transit, k)) ∧
      (∀ k, 0 ≤ k → k < n .pnr → s.dict (n .driving + n .transit + k) = some (.pnr, k)) ∧
      (∀ k, 0 ≤ k → k < n .bus → s.dict (n .driving + n .transit + n .pnr + k) = some (.bus, k)) ∧
      ∀ x, x < 0 ∨ n .driving + n .transit + n .pnr + n .bus ≤ x → s.dict x = none) ∧
    (¬ (∀ m k, 0 ≤ k → k < n m → k ∈ numbersOf pairs buses m) →
      mapping n pairs buses = .throw "path count is wrong") := by
  have hlen := fun m => length_le_of_range (hd m) (hr m) (hn m)
  have hcount := count_eq n (entries pairs buses) ⟨fun _ => none, 0⟩
  rw [entries_length] at hcount
  push_cast at hcount
  simp only [zero_add] at hcount
  constructor
  · intro hall
    have hl : ∀ m, ((numbersOf pairs buses m).length : ℤ) = n m := fun m => (hlen m).2.2 (hall m)
    rw [hl, hl, hl, hl] at hcount
    refine ⟨_, by rw [mapping_eq n pairs buses h]; simp only; rw [if_neg (not_not.2 hcount)], hcount, ?_⟩
    have key : ∀ m k, 0 ≤ k → k < n m →
        ((entries pairs buses).foldl (fun s e => enter n e.1 s e.2) ⟨fun _ => none, 0⟩).dict
          (offset n m + k) = some (m, k) := by
      intro m k h0 h1
      obtain ⟨a, b⟩ := dict_eq n (entries pairs buses) (offset n m + k)
      have hne := b (m, k) ((mem_regEntries pairs buses m k).2 (hall m k h0 h1)) (by simp only; ring)
      obtain ⟨⟨m', k'⟩, he⟩ := Option.ne_none_iff_exists'.1 hne
      rw [he]
      obtain ⟨c, d⟩ := a _ he
      have hb := hr m' k' ((mem_regEntries pairs buses m' k').1 c)
      have h1' := hn .driving
      have h2' := hn .transit
      have h3' := hn .pnr
      simp only at d
      cases m <;> cases m' <;> simp only [offset] at d <;>
        first
          | (exfalso; omega)
          | (congr 2; omega)
    have key' := key
    refine ⟨fun k a b => by simpa [offset] using key .driving k a b, key .transit, key .pnr, key .bus, fun x hx => ?_⟩
    obtain ⟨a, -⟩ := dict_eq n (entries pairs buses) x
    cases e : ((entries pairs buses).foldl (fun s e => enter n e.1 s e.2) ⟨fun _ => none, 0⟩).dict x with
    | none => rfl
    | some y =>
      obtain ⟨m, k⟩ := y
      obtain ⟨c, d⟩ := a _ e
      have hb := hr m k ((mem_regEntries pairs buses m k).1 c)
      have h1' := hn .driving
      have h2' := hn .transit
      have h3' := hn .pnr
      have h4' := hn .bus
      exfalso
      cases m <;> simp only [offset] at d <;> omega
  · intro hall
    rw [mapping_eq n pairs buses h]
    simp only
    rw [if_pos]
    intro e
    rw [hcount] at e
    refine hall fun m => (hlen m).2.1 ?_
    have a := (hlen .driving).1
    have b := (hlen .transit).1
    have c := (hlen .pnr).1
    have d := (hlen .bus).1
    cases m <;> omega

/-- Two pairs with driving paths 1 and 0, transit path 0, and two bus routes. -/
def exPairs : List PairPaths :=
  [⟨fun m => decide (m = .driving), fun m => if m = .driving then some [1] else none⟩,
   ⟨fun m => decide (m = .driving ∨ m = .transit),
    fun m => if m = .driving then some [0] else if m = .transit then some [0] else none⟩]

/-- Their numbers. -/
def exNum : Mode → ℤ
  | .driving => 2
  | .transit => 1
  | .pnr => 0
  | .bus => 2

example : (∀ pr ∈ exPairs, ∀ m, pr.has m = true → pr.sets m ≠ none) ∧
    (∀ m, numbersOf exPairs [1, 0] m = match m with
      | .driving => [1, 0] | .transit => [0] | .pnr => [] | .bus => [1, 0]) ∧
    (match mapping exNum exPairs [1, 0] with
      | .ok s => [s.dict 0, s.dict 1, s.dict 2, s.dict 3, s.dict 4, s.dict 5]
      | _ => []) = [some (.driving, 0), some (.driving, 1), some (.transit, 0), some (.bus, 0),
        some (.bus, 1), none] ∧
    mapping exNum exPairs [1] = .throw "path count is wrong" := by
  refine ⟨?_, ?_, by decide +kernel, by rfl⟩
  · intro pr hp m
    simp only [exPairs, List.mem_cons, List.not_mem_nil, or_false] at hp
    rcases hp with rfl | rfl <;> cases m <;> simp
  · intro m; cases m <;> rfl

/-! ## C145: sequences of links and of nodes -/

theorem ends_fold (g : G) : ∀ (ls : List ℤ) (u v : ℤ) (acc : List ℤ), Sp.Walk g u ls v →
    Res.foldlM (endStep g) (acc ++ [u]) ls = .ok (acc ++ Sp.walkNodes g u ls) := by
  intro ls
  induction ls with
  | nil => intro u v acc _; rfl
  | cons l ls ih =>
    intro u v acc hw
    obtain ⟨t, e1, e2⟩ := hw
    rw [Res.foldlM_cons]
    have : endStep g (acc ++ [u]) l = .ok ((acc ++ [u]) ++ [t]) := by
      unfold endStep
      rw [e1, Res.bind_ok']
    rw [this]
    change Res.foldlM (endStep g) ((acc ++ [u]) ++ [t]) ls = _
    rw [ih t v (acc ++ [u]) e2]
    simp only [Sp.walkNodes, e1, List.append_assoc, List.singleton_append]

theorem linkTo_spec (ops : List Op) (fuel : ℕ) (hf : sizeLinks (run empty ops) < fuel) (l u v : ℤ)
    (h : getEndpoints (run empty ops) l = .ok (u, v)) : ∃ cs l', connections fuel (run empty ops) u .out = .ok cs ∧
      linkTo (run empty ops) v cs = some l' ∧ getEndpoints (run empty ops) l' = .ok (u, v) ∧
      l' ∈ linkIds (run empty ops) := by
  have hl : l ∈ linkIds (run empty ops) := by
    by_contra hn
    rw [(C05_endpoints_unknown ops l).1 hn] at h; simp at h
  obtain ⟨f, t, e, _, hu, _⟩ := (C05_endpoints_unknown ops l).2 hl
  rw [h] at e; cases e
  obtain ⟨cs, h1, _, _, h4⟩ := (C02_directed_connections ops u .out fuel hf).1 hu
  have hmem : l ∈ cs := (h4 l).2 ⟨u, v, h, rfl⟩
  cases hfind : linkTo (run empty ops) v cs with
  | none =>
    unfold linkTo at hfind
    rw [List.find?_eq_none] at hfind
    have := hfind l hmem
    rw [h] at this
    simp at this
  | some c =>
    refine ⟨cs, c, h1, hfind, ?_⟩
    unfold linkTo at hfind
    have hc := List.mem_of_find?_eq_some hfind
    have hp := List.find?_some hfind
    obtain ⟨f, t, e1, e2⟩ := (h4 c).1 hc
    rw [e1] at hp
    simp only at hp e2
    have ht : t = v := by simpa using hp
    refine ⟨by rw [e1, e2, ht], ?_⟩
    by_contra hn
    rw [(C05_endpoints_unknown ops c).1 hn] at e1; simp at e1

theorem nodeLoop_spec (ops : List Op) (fuel : ℕ) (hf : sizeLinks (run empty ops) < fuel)
    (hpos : ∀ l ∈ linkIds (run empty ops), 0 ≤ l) (junk : ℕ → ℤ) :
    ∀ (ls : List ℤ) (u v : ℤ) (i : ℕ), Sp.Walk (run empty ops) u ls v →
      ∃ ls', nodeLoop fuel (run empty ops) junk i (Sp.walkNodes (run empty ops) u ls) = .ok ls' ∧
        Sp.Walk (run empty ops) u ls' v ∧
        Sp.walkNodes (run empty ops) u ls' = Sp.walkNodes (run empty ops) u ls ∧
        ls'.map (getEndpoints (run empty ops)) = ls.map (getEndpoints (run empty ops)) := by
  intro ls
  induction ls with
  | nil => intro u v i hw; exact ⟨[], by simp [Sp.walkNodes, nodeLoop], hw, rfl, rfl⟩
  | cons l ls ih =>
    intro u v i hw
    obtain ⟨t, e1, e2⟩ := hw
    obtain ⟨ls', a, b, c, d⟩ := ih t v (i + 1) e2
    obtain ⟨cs, l', f1, f2, f3, f4⟩ := linkTo_spec ops fuel hf l u t e1
    obtain ⟨r, hr⟩ := Io.walkNodes_head (run empty ops) t ls
    refine ⟨l' :: ls', ?_, ⟨t, f3, b⟩, ?_, ?_⟩
    · simp only [Sp.walkNodes, e1]
      rw [hr] at a ⊢
      rw [nodeLoop, f1]
      simp only [Res.bind_ok', f2, Option.getD_some, if_neg (not_lt.2 (hpos l' f4)), a]
    · simp only [Sp.walkNodes, f3, e1, c]
    · simp only [List.map_cons, f3, e1, d]

/-- **C145.**  In a graph whose links have numbers from 0 on: the node sequence of a connected sequence
of links is the sequence of the nodes passed; the link sequence of that node sequence is a connected
sequence of links from the same start to the same end through the same nodes, and it is the original one
if no two links have the same ends. -/
theorem C145_sequences_partial (ops : List Op) (fuel : ℕ) (hf : sizeLinks (run empty ops) < fuel)
    (hpos : ∀ l ∈ linkIds (run empty ops), 0 ≤ l) (junk : ℕ → ℤ) (ls : List ℤ) (u v : ℤ) (hls : ls ≠ [])
    (hw : Sp.Walk (run empty ops) u ls v) :
    linksToNodes (run empty ops) ls = .ok (Sp.walkNodes (run empty ops) u ls) ∧
    ∃ ls', nodesToLinks fuel (run empty ops) junk (Sp.walkNodes (run empty ops) u ls) = .ok ls' ∧
      Sp.Walk (run empty ops) u ls' v ∧
      Sp.walkNodes (run empty ops) u ls' = Sp.walkNodes (run empty ops) u ls ∧
      ((∀ l ∈ ls, ∀ l', getEndpoints (run empty ops) l' = getEndpoints (run empty ops) l → l' = l) →
        ls' = ls) := by
  obtain ⟨l, rest, rfl⟩ := List.exists_cons_of_ne_nil hls
  obtain ⟨t, e1, e2⟩ := id hw
  constructor
  · change (getEndpoints (run empty ops) l).bind (fun e => Res.foldlM (endStep (run empty ops)) [e.1] (l :: rest)) = _
    rw [e1, Res.bind_ok']
    exact ends_fold (run empty ops) (l :: rest) u v [] hw
  · obtain ⟨ls', a, b, c, d⟩ := nodeLoop_spec ops fuel hf hpos junk (l :: rest) u v 0 hw
    refine ⟨ls', ?_, b, c, fun hs => ?_⟩
    · unfold nodesToLinks
      rw [if_neg, a]
      obtain ⟨r, hr⟩ := Io.walkNodes_head (run empty ops) t rest
      simp only [Sp.walkNodes, e1, hr, List.length_cons]
      omega
    · clear a b c e1 e2 hw hls
      generalize l :: rest = xs at *
      revert ls'
      induction xs with
      | nil => intro ls' d; simpa using d
      | cons x xs ih =>
        intro ls' d
        cases ls' with
        | nil => simp at d
        | cons y ys =>
          simp only [List.map_cons, List.cons.injEq] at d
          rw [hs x (by simp) y d.1, ih (fun z hz => hs z (by simp [hz])) ys d.2]

/-- Nodes 1, 2, 3; links 0: 1 → 2, 1: 2 → 3, 2: 1 → 2. -/
def exSeq : List Op :=
  [.addNode 1, .addNode 2, .addNode 3, .addLink 1 2 0, .addLink 2 3 1, .addLink 1 2 2]

example : Sp.Walk (run empty exSeq) 1 [0, 1] 3 ∧ linksToNodes (run empty exSeq) [0, 1] = .ok [1, 2, 3] ∧
    nodesToLinks 10 (run empty exSeq) (fun _ => 0) [1, 2, 3] = .ok [2, 1] ∧
    ∀ l ∈ linkIds (run empty exSeq), 0 ≤ l :=
  ⟨⟨2, by decide, 3, by decide, rfl⟩, by decide, by decide, by decide⟩

/-- Links that do not connect are converted without complaint, an empty sequence is undefined behaviour,
and where there is no link the result holds whatever the memory held before: any number `x ≥ 0`. -/
theorem C145_unchecked (x : ℤ) (hx : 0 ≤ x) :
    linksToNodes (run empty exSeq) [1, 0] = .ok [2, 3, 2] ∧
    linksToNodes (run empty exSeq) [] = .ub ∧
    nodesToLinks 10 (run empty exSeq) (fun _ => x) [1, 2, 1] = .ok [2, x] := by
  refine ⟨by decide, rfl, ?_⟩
  have h1 : connections 10 (run empty exSeq) 1 .out = .ok [2, 0] := by decide
  have h2 : connections 10 (run empty exSeq) 2 .out = .ok [1] := by decide
  have h3 : linkTo (run empty exSeq) 2 [2, 0] = some 2 := by decide
  have h4 : linkTo (run empty exSeq) 1 [1] = none := by decide
  simp [nodesToLinks, nodeLoop, h1, h2, h3, h4, Res.bind_ok', not_lt.2 hx]

end Verif

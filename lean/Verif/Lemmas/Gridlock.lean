import Verif.Model.Gridlock
import Verif.Props.Graph
import Verif.Spec.ShortestPath

namespace Verif
open Graph Grid

namespace Grid

/-- `m` leaves the node where `l` ends. -/
def Succ (g : G) (l m : ℤ) : Prop := ∃ f t t', getEndpoints g l = .ok (f, t) ∧ getEndpoints g m = .ok (t, t')

theorem mem_insertSorted (a b : ℤ) (l : List ℤ) : b ∈ insertSorted a l ↔ b = a ∨ b ∈ l := by
  induction l with
  | nil => simp [insertSorted]
  | cons c l ih =>
    unfold insertSorted
    split
    · simp
    · split
      · rename_i h; subst h; simp
      · simp only [List.mem_cons, ih]; tauto

theorem nodup_insertSorted (a : ℤ) (l : List ℤ) (h : l.Pairwise (· < ·)) : (insertSorted a l).Pairwise (· < ·) := by
  induction l with
  | nil => simp [insertSorted]
  | cons c l ih =>
    rw [List.pairwise_cons] at h
    unfold insertSorted
    split
    · rename_i hac
      rw [List.pairwise_cons]
      refine ⟨?_, List.pairwise_cons.2 h⟩
      intro x hx
      rcases List.mem_cons.1 hx with rfl | hx
      · exact hac
      · exact lt_trans hac (h.1 x hx)
    · split
      · exact List.pairwise_cons.2 h
      · rename_i h1 h2
        rw [List.pairwise_cons]
        refine ⟨?_, ih h.2⟩
        intro x hx
        rcases (mem_insertSorted a x l).1 hx with rfl | hx
        · omega
        · exact h.1 x hx

theorem linkSet_spec (g : G) : (linkSet g).Pairwise (· < ·) ∧ ∀ l, l ∈ linkSet g ↔ l ∈ linkIds g := by
  unfold linkSet
  have : ∀ (ls s : List ℤ), s.Pairwise (· < ·) →
      (ls.foldl (fun s l => insertSorted l s) s).Pairwise (· < ·) ∧
      ∀ l, l ∈ ls.foldl (fun s l => insertSorted l s) s ↔ l ∈ s ∨ l ∈ ls := by
    intro ls
    induction ls with
    | nil => intro s h; exact ⟨h, by simp⟩
    | cons a ls ih =>
      intro s h
      obtain ⟨h1, h2⟩ := ih _ (nodup_insertSorted a s h)
      refine ⟨h1, ?_⟩
      intro l
      rw [List.foldl_cons, h2, mem_insertSorted, List.mem_cons]
      tauto
  obtain ⟨h1, h2⟩ := this (linkIds g) [] (by simp)
  exact ⟨h1, fun l => by rw [h2]; simp⟩

theorem queueOut_some {r : List ℤ} : ∀ {out q q' : List ℤ}, queueOut r q out = some q' →
    q' = q ++ out ∧ ∀ m ∈ out, m ∈ r := by
  intro out
  induction out with
  | nil => intro q q' h; simp only [queueOut, Option.some.injEq] at h; simp [h]
  | cons m out ih =>
    intro q q' h
    unfold queueOut at h
    split at h
    · rename_i hm
      obtain ⟨e, h2⟩ := ih h
      refine ⟨by rw [e]; simp, ?_⟩
      intro x hx
      rcases List.mem_cons.1 hx with rfl | hx
      · exact hm
      · exact h2 x hx
    · cases h

/-- What the loops need from the graph. -/
structure Fine (g : G) (cf : ℕ) : Prop where
  ends : ∀ l ∈ linkIds g, ∃ e, getEndpoints g l = .ok e
  conns : ∀ l f t, getEndpoints g l = .ok (f, t) → ∃ out, connections cf g t .out = .ok out ∧
    ∀ m, m ∈ out ↔ Succ g l m
  ids : ∀ l f t, getEndpoints g l = .ok (f, t) → l ∈ linkIds g

/-- A rank that grows along successors, and successors stay inside. -/
def Ranked (g : G) (r : List ℤ) : Prop :=
  (∀ l ∈ r, ∀ m, Succ g l m → m ∈ r) ∧ ∃ f : ℤ → ℕ, ∀ l ∈ r, ∀ m, Succ g l m → f l < f m

theorem Ranked.grow {g : G} {r : List ℤ} {l : ℤ} (hr : r.Nodup) (h : Ranked g (r.erase l))
    (hl : ∀ m, Succ g l m → m ∈ r.erase l) : Ranked g r := by
  obtain ⟨h1, f, h2⟩ := h
  refine ⟨?_, fun x => if x = l then 0 else f x + 1, ?_⟩
  · intro x hx m hm
    by_cases e : x = l
    · subst e; exact List.mem_of_mem_erase (hl m hm)
    · exact List.mem_of_mem_erase (h1 x ((List.mem_erase_of_ne e).2 hx) m hm)
  · intro x hx m hm
    have hml : m ≠ l := by
      rintro rfl
      have : m ∈ r.erase m := by
        by_cases e : x = m
        · subst e; exact hl x hm
        · exact h1 x ((List.mem_erase_of_ne e).2 hx) m hm
      exact (hr.not_mem_erase) this
    by_cases e : x = l
    · subst e; simp [hml]
    · simp only [e, hml, if_false]
      have := h2 x ((List.mem_erase_of_ne e).2 hx) m hm
      omega

theorem inner_ranked {g : G} {cf : ℕ} (hg : Fine g cf) : ∀ (fuel : ℕ) (q r r' : List ℤ),
    inner cf g fuel q r = .ok (some r') → r.Nodup →
    (∃ xs : List ℤ, r' = xs.foldl List.erase r ∧ ∀ x ∈ q, x ∈ xs) ∧ (Ranked g r' → Ranked g r) := by
  intro fuel
  induction fuel with
  | zero =>
    intro q r r' h hr
    cases q with
    | nil => simp only [inner, Res.ok.injEq, Option.some.injEq] at h; subst h; exact ⟨⟨[], rfl, by simp⟩, id⟩
    | cons l q => simp [inner] at h
  | succ fuel ih =>
    intro q r r' h hr
    cases q with
    | nil => simp only [inner, Res.ok.injEq, Option.some.injEq] at h; subst h; exact ⟨⟨[], rfl, by simp⟩, id⟩
    | cons l q =>
      simp only [inner] at h
      rw [Res.bind_eq_ok'] at h
      obtain ⟨⟨f, t⟩, he, h⟩ := h
      rw [Res.bind_eq_ok'] at h
      obtain ⟨out, ho, h⟩ := h
      obtain ⟨out', ho', hsucc⟩ := hg.conns l f t he
      rw [ho] at ho'
      cases ho'
      cases hq : queueOut (r.erase l) q out with
      | none => rw [hq] at h; simp at h
      | some q' =>
        rw [hq] at h
        obtain ⟨rfl, hout⟩ := queueOut_some hq
        obtain ⟨⟨xs, e1, e2⟩, e3⟩ := ih _ _ _ h (hr.erase l)
        refine ⟨⟨l :: xs, e1, ?_⟩, ?_⟩
        · intro x hx
          rcases List.mem_cons.1 hx with rfl | hx
          · simp
          · exact List.mem_cons_of_mem _ (e2 x (by simp [hx]))
        · intro hk
          exact (e3 hk).grow hr fun m hm => hout m ((hsucc m).2 hm)

theorem foldl_erase_sublist : ∀ (xs r : List ℤ), (xs.foldl List.erase r).Sublist r := by
  intro xs
  induction xs with
  | nil => intro r; exact List.Sublist.refl r
  | cons x xs ih => intro r; exact (ih _).trans List.erase_sublist

theorem outer_ranked {g : G} {cf : ℕ} (hg : Fine g cf) (fuel : ℕ) : ∀ (n : ℕ) (r : List ℤ),
    outer cf g fuel n r = .ok true → r.Nodup → Ranked g r := by
  intro n
  induction n with
  | zero =>
    intro r h hr
    cases r with
    | nil => exact ⟨by simp, fun _ => 0, by simp⟩
    | cons l r => simp [outer] at h
  | succ n ih =>
    intro r h hr
    cases r with
    | nil => exact ⟨by simp, fun _ => 0, by simp⟩
    | cons l r =>
      simp only [outer] at h
      rw [Res.bind_eq_ok'] at h
      obtain ⟨res, hi, h⟩ := h
      cases res with
      | none => simp at h
      | some r' =>
        obtain ⟨⟨xs, e1, _⟩, e3⟩ := inner_ranked hg _ _ _ _ hi hr
        refine e3 (ih r' h ?_)
        rw [e1]
        exact hr.sublist (foldl_erase_sublist _ _)

/-! Termination -/

theorem inner_ends {g : G} {cf : ℕ} (hg : Fine g cf) : ∀ (n k : ℕ) (q r : List ℤ), r.length = n →
    (q.filter (· ∉ r)).length = k → r.Nodup → (∀ l ∈ r, l ∈ linkIds g) → (∀ l ∈ q, l ∈ linkIds g) →
    ∃ F res, ∀ fuel ≥ F, inner cf g fuel q r = .ok res := by
  intro n
  induction n using Nat.strong_induction_on with
  | _ n ihn =>
    intro k
    induction k using Nat.strong_induction_on with
    | _ k ihk =>
      intro q r hn hk hr hrl hql
      cases q with
      | nil => exact ⟨0, some r, fun fuel _ => by cases fuel <;> rfl⟩
      | cons l q =>
        obtain ⟨⟨f, t⟩, he⟩ := hg.ends l (hql l (by simp))
        obtain ⟨out, ho, hsucc⟩ := hg.conns l f t he
        cases hq : queueOut (r.erase l) q out with
        | none =>
          refine ⟨1, none, ?_⟩
          intro fuel hf
          obtain ⟨fuel, rfl⟩ : ∃ j, fuel = j + 1 := ⟨fuel - 1, by omega⟩
          simp only [inner, he, ho, Res.bind_ok', hq]
        | some q' =>
          obtain ⟨rfl, hout⟩ := queueOut_some hq
          have hq2 : ∀ x ∈ q ++ out, x ∈ linkIds g := by
            intro x hx
            rcases List.mem_append.1 hx with hx | hx
            · exact hql x (by simp [hx])
            · exact hrl x (List.mem_of_mem_erase (hout x hx))
          have step : ∀ F res, (∀ fuel ≥ F, inner cf g fuel (q ++ out) (r.erase l) = .ok res) →
              ∃ F res, ∀ fuel ≥ F, inner cf g fuel (l :: q) r = .ok res := by
            intro F res h
            refine ⟨F + 1, res, ?_⟩
            intro fuel hf
            obtain ⟨fuel, rfl⟩ : ∃ j, fuel = j + 1 := ⟨fuel - 1, by omega⟩
            simp only [inner, he, ho, Res.bind_ok', hq]
            exact h fuel (by omega)
          by_cases hl : l ∈ r
          · obtain ⟨F, res, h⟩ := ihn (r.length - 1) (by have := List.length_pos_of_mem hl; omega) _
              (q ++ out) (r.erase l) (List.length_erase_of_mem hl) rfl (hr.erase l)
              (fun x hx => hrl x (List.mem_of_mem_erase hx)) hq2
            exact step F res h
          · have he2 : r.erase l = r := List.erase_of_not_mem hl
            rw [he2] at hout
            have hk2 : ((q ++ out).filter (· ∉ r)).length < k := by
              rw [List.filter_append]
              have h0 : out.filter (· ∉ r) = [] := by
                rw [List.filter_eq_nil_iff]
                intro x hx
                simpa using hout x hx
              rw [h0, List.append_nil, ← hk, List.filter_cons_of_pos (by simpa using hl)]
              simp
            obtain ⟨F, res, h⟩ := ihk _ hk2 (q ++ out) r hn rfl hr hrl hq2
            exact step F res (by rw [he2]; exact h)

theorem outer_ends {g : G} {cf : ℕ} (hg : Fine g cf) : ∀ (n : ℕ) (r : List ℤ), r.length ≤ n → r.Nodup →
    (∀ l ∈ r, l ∈ linkIds g) → ∃ F b, ∀ fuel ≥ F, ∀ m ≥ n, outer cf g fuel m r = .ok b := by
  intro n
  induction n with
  | zero =>
    intro r hn _ _
    have : r = [] := by cases r with | nil => rfl | cons a r => simp at hn
    subst this
    exact ⟨0, true, fun fuel _ m _ => by cases m <;> rfl⟩
  | succ n ih =>
    intro r hn hr hrl
    cases r with
    | nil => exact ⟨0, true, fun fuel _ m _ => by cases m <;> rfl⟩
    | cons l r =>
      obtain ⟨F, res, h⟩ := inner_ends hg _ _ [l] (l :: r) rfl rfl hr hrl (by simpa using hrl l (by simp))
      cases res with
      | none =>
        refine ⟨F, false, ?_⟩
        intro fuel hf m hm
        obtain ⟨m, rfl⟩ : ∃ j, m = j + 1 := ⟨m - 1, by omega⟩
        simp only [outer, h fuel hf, Res.bind_ok']
      | some r' =>
        obtain ⟨⟨xs, e1, e2⟩, _⟩ := inner_ranked hg F _ _ _ (h F (le_refl _)) hr
        have hsub : r'.Sublist (l :: r) := by rw [e1]; exact foldl_erase_sublist _ _
        have hlt : r'.length ≤ n := by
          have hnl : l ∉ r' := by
            have : ∀ (xs r : List ℤ), r.Nodup → l ∈ xs → l ∉ xs.foldl List.erase r := by
              intro xs
              induction xs with
              | nil => intro r _ h; simp at h
              | cons x xs ih2 =>
                intro r hr hx
                rcases List.mem_cons.1 hx with rfl | hx
                · intro hm
                  exact hr.not_mem_erase ((foldl_erase_sublist xs (r.erase l)).subset hm)
                · exact ih2 _ (hr.erase x) hx
            rw [e1]
            exact this xs _ hr (e2 l (by simp))
          have h1 := List.Sublist.length_le hsub
          rcases Nat.lt_or_ge r'.length (l :: r).length with h2 | h2
          · simp only [List.length_cons] at hn h2; omega
          · exact absurd (hsub.eq_of_length_le h2) (fun e => hnl (by rw [e]; simp))
        obtain ⟨F2, b, h2⟩ := ih r' hlt (hr.sublist hsub) fun x hx => hrl x (hsub.subset hx)
        refine ⟨max F F2, b, ?_⟩
        intro fuel hf m hm
        obtain ⟨m, rfl⟩ : ∃ j, m = j + 1 := ⟨m - 1, by omega⟩
        simp only [outer, h fuel (le_trans (le_max_left _ _) hf), Res.bind_ok']
        exact h2 fuel (le_trans (le_max_right _ _) hf) m (by omega)

theorem fine_run (ops : List Op) : Fine (run empty ops) (sizeLinks (run empty ops) + 1) := by
  have hrel := run_rel_empty ops
  have hends : ∀ l ∈ linkIds (run empty ops), ∃ e, getEndpoints (run empty ops) l = .ok e := by
    intro l hl
    rw [linkIds, hrel.linkKeys] at hl
    obtain ⟨⟨i, f, t⟩, hm, rfl⟩ := List.mem_map.1 (List.mem_reverse.1 hl)
    exact ⟨_, getEndpoints_spec hrel hm⟩
  have hids : ∀ l f t, getEndpoints (run empty ops) l = .ok (f, t) → l ∈ (Spec.empty.run ops).linkIds := by
    intro l f t he
    by_contra hn
    rw [getEndpoints_none hrel hn] at he
    cases he
  refine ⟨hends, ?_, ?_⟩
  · intro l f t he
    have hl := hids l f t he
    obtain ⟨⟨i, f', t'⟩, hm, rfl⟩ := List.mem_map.1 hl
    have he2 := getEndpoints_spec hrel hm
    simp only at he
    rw [he] at he2
    cases he2
    have ht : t ∈ nodeIds (run empty ops) := by
      rw [nodeIds, hrel.nodeKeys]
      exact (hrel.ends i f t hm).2.1
    obtain ⟨out, h1, _, _, h2⟩ := (C02_directed_connections ops t .out _ (Nat.lt_succ_self _)).1 ht
    refine ⟨out, h1, ?_⟩
    intro m
    rw [h2]
    constructor
    · rintro ⟨a, b, hab, rfl⟩
      exact ⟨_, _, _, he, hab⟩
    · rintro ⟨a, b, c, hab, hc⟩
      rw [he] at hab
      cases hab
      exact ⟨_, _, hc, rfl⟩
  · intro l f t he
    rw [linkIds, hrel.linkKeys]
    exact List.mem_reverse.2 (hids l f t he)

theorem rank_walk {g : G} {r : List ℤ} (h : Ranked g r) {fr : ℤ → ℕ}
    (hf : ∀ l ∈ r, ∀ m, Succ g l m → fr l < fr m) : ∀ (ls : List ℤ) (l m u v w : ℤ), l ∈ r →
    getEndpoints g l = .ok (w, u) → Sp.Walk g u (ls ++ [m]) v → fr l < fr m := by
  intro ls
  induction ls with
  | nil =>
    intro l m u v w hl he hw
    obtain ⟨t, h1, _⟩ := hw
    exact hf l hl m ⟨_, _, _, he, h1⟩
  | cons a ls ih =>
    intro l m u v w hl he hw
    obtain ⟨t, h1, h2⟩ := hw
    have hs : Succ g l a := ⟨_, _, _, he, h1⟩
    have := hf l hl a hs
    have := ih a m t v u (h.1 l hl a hs) h1 h2
    omega

end Grid
end Verif

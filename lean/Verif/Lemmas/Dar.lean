import Verif.Spec.Tables
import Verif.Lemmas.Tables
import Mathlib.Data.List.Nodup
import Mathlib.Data.List.Range
import Mathlib.Data.List.Flatten

/-! # Lemmas about assignment ratios -/

namespace Verif.Tab
open Curve Ults

theorem foldlM_collect {α β : Type} {f : List β → α → Res (List β)} {g : α → List β} (as : List α)
    (h : ∀ a ∈ as, ∀ acc, f acc a = .ok (acc ++ g a)) (acc : List β) :
    Res.foldlM f acc as = .ok (acc ++ as.flatMap g) := by
  induction as generalizing acc with
  | nil => simp
  | cons a as ih =>
    rw [Res.foldlM_cons, h a (by simp), Res.ok_bind, ih fun b hb => h b (by simp [hb])]
    simp

/-- The times and flows of one path and departure. -/
def sub (h : List Item) (k : ℤ × ℤ) : List (ℚ × ℚ) :=
  (h.filter fun x => decide ((x.path, x.dep) = k)).map fun x => (x.time, x.flow)

theorem sub_snoc (h : List Item) (x : Item) (k : ℤ × ℤ) :
    sub (h ++ [x]) k = sub h k ++ if (x.path, x.dep) = k then [(x.time, x.flow)] else [] := by
  unfold sub
  rw [List.filter_append, List.map_append]
  congr 1
  by_cases e : (x.path, x.dep) = k <;> simp [e]

theorem sub_legal {h : List Item} (hl : LegalItems h) (k : ℤ × ℤ) : Legal (sub h k) := by
  constructor
  · intro r hr
    unfold sub at hr
    rw [List.mem_map] at hr
    obtain ⟨x, hx, rfl⟩ := hr
    exact hl.1 x (List.mem_filter.1 hx).1
  · unfold sub
    rw [List.pairwise_map]
    exact hl.2.filter _

theorem record_spec (h : List Item) (hl : LegalItems h) :
    ∃ tr, record h = .ok tr ∧ tr.keys.Nodup ∧ (∀ k, k ∈ tr.keys ↔ ∃ x ∈ h, (x.path, x.dep) = k) ∧
      ∀ k c, tr.get k = some c → Res.foldlM addIncrement install (sub h k) = .ok c := by
  induction h using List.reverseRecOn with
  | nil =>
    refine ⟨[], rfl, by simp [Store.keys], by simp [Store.keys], ?_⟩
    intro k c hk
    simp at hk
  | append_singleton h x ih =>
    have hl' : LegalItems h := ⟨fun y hy => hl.1 y (by simp [hy]), (List.pairwise_append.1 hl.2).1⟩
    obtain ⟨tr, h1, h2, h3, h4⟩ := ih hl'
    have hrec : record (h ++ [x]) = addFlow tr x.time x.flow x.path x.dep := by
      unfold record at h1 ⊢
      rw [Res.foldlM_append, h1]
      simp only [Res.ok_bind, Res.foldlM_cons, Res.foldlM_nil]
      cases addFlow tr x.time x.flow x.path x.dep <;> rfl
    obtain ⟨cx, hcx, _⟩ := run_legal (sub (h ++ [x]) (x.path, x.dep)) (sub_legal hl _)
    have hcx' := hcx
    rw [sub_snoc, if_pos rfl, Res.foldlM_append, Res.bind_eq_ok] at hcx
    obtain ⟨c0, hc0, hc1⟩ := hcx
    simp only [Res.foldlM_cons, Res.foldlM_nil] at hc1
    have hc1 : addIncrement c0 (x.time, x.flow) = .ok cx := by
      cases he : addIncrement c0 (x.time, x.flow) with
      | ok a => rw [he] at hc1; exact hc1
      | throw m => rw [he] at hc1; cases hc1
      | ub => rw [he] at hc1; cases hc1
      | diverge => rw [he] at hc1; cases hc1
    have hother : ∀ k, k ≠ (x.path, x.dep) → sub (h ++ [x]) k = sub h k := by
      intro k hk
      rw [sub_snoc, if_neg (Ne.symm hk), List.append_nil]
    cases hg : tr.get (x.path, x.dep) with
    | none =>
      have hnk : (x.path, x.dep) ∉ tr.keys := (Store.get_eq_none_iff _ _).1 hg
      have hsub : sub h (x.path, x.dep) = [] := by
        unfold sub
        rw [List.map_eq_nil_iff, List.filter_eq_nil_iff]
        intro y hy he
        exact hnk ((h3 _).2 ⟨y, hy, by simpa using he⟩)
      rw [hsub] at hc0
      cases hc0
      have hnew : addFlow tr x.time x.flow x.path x.dep = .ok (tr ++ [((x.path, x.dep), cx)]) := by
        unfold addFlow
        rw [hg]
        simp only [hc1, Res.bind_ok']
        unfold Store.insert
        have : tr.has (x.path, x.dep) = false := by unfold Store.has; rw [hg]; rfl
        rw [this]
        rfl
      refine ⟨_, hrec.trans hnew, ?_, ?_, ?_⟩
      · unfold Store.keys
        rw [List.map_append, List.nodup_append]
        refine ⟨h2, by simp, ?_⟩
        intro a ha b hb
        simp only [List.map_cons, List.map_nil, List.mem_singleton] at hb
        subst hb
        rintro rfl
        exact hnk ha
      · intro k
        unfold Store.keys at h3 ⊢
        rw [List.map_append, List.mem_append, h3]
        simp only [List.map_cons, List.map_nil, List.mem_singleton, List.mem_append]
        constructor
        · rintro (⟨y, hy, e⟩ | rfl)
          · exact ⟨y, Or.inl hy, e⟩
          · exact ⟨x, Or.inr rfl, rfl⟩
        · rintro ⟨y, hy | rfl, e⟩
          · exact Or.inl ⟨y, hy, e⟩
          · exact Or.inr e.symm
      · intro k c hk
        rw [Store.get_append] at hk
        by_cases e : k = (x.path, x.dep)
        · subst e
          rw [hg] at hk
          simp [Store.get_cons] at hk
          rw [← hk]; exact hcx'
        · rw [hother k e]
          apply h4
          rw [Store.get_cons, if_neg (Ne.symm e), Store.get_nil, Option.or_none] at hk
          exact hk
    | some c =>
      have hkk : (x.path, x.dep) ∈ tr.keys := by
        rw [← Store.get_isSome_iff, hg]; rfl
      have hcc := h4 _ _ hg
      rw [hcc] at hc0
      cases hc0
      have hnew : addFlow tr x.time x.flow x.path x.dep =
          .ok (tr.modify (x.path, x.dep) fun _ => cx) := by
        unfold addFlow
        rw [hg]
        simp only [hc1, Res.bind_ok']
        unfold Store.set
        rw [if_pos ((Store.has_iff _ _).2 hkk)]
      refine ⟨_, hrec.trans hnew, ?_, ?_, ?_⟩
      · rw [Store.keys_modify]; exact h2
      · intro k
        rw [Store.keys_modify, h3]
        constructor
        · rintro ⟨y, hy, e⟩; exact ⟨y, by simp [hy], e⟩
        · rintro ⟨y, hy, e⟩
          rw [List.mem_append, List.mem_singleton] at hy
          rcases hy with hy | rfl
          · exact ⟨y, hy, e⟩
          · rw [← e]; exact (h3 _).1 hkk
      · intro k c' hk
        rw [Store.get_modify] at hk
        by_cases e : (x.path, x.dep) = k
        · subst e
          rw [if_pos rfl, hg] at hk
          simp at hk
          rw [← hk]; exact hcx'
        · rw [if_neg e] at hk
          rw [hother k (Ne.symm e)]
          exact h4 _ _ hk

theorem flowUpTo_entering (h : List Item) (k : ℤ × ℤ) (s e : ℚ) (hse : s ≤ e) :
    flowUpTo (sub h k) e - flowUpTo (sub h k) s = entering h k.1 k.2 s e := by
  induction h using List.reverseRecOn with
  | nil => simp [flowUpTo, sub, entering]
  | append_singleton h x ih =>
    have h2 : entering (h ++ [x]) k.1 k.2 s e = entering h k.1 k.2 s e +
        if (x.path, x.dep) = k ∧ s < x.time ∧ x.time ≤ e then x.flow else 0 := by
      unfold entering
      rw [List.filter_append, List.map_append, List.sum_append]
      congr 1
      have : (x.path = k.1 ∧ x.dep = k.2 ∧ s < x.time ∧ x.time ≤ e) ↔
          ((x.path, x.dep) = k ∧ s < x.time ∧ x.time ≤ e) := by
        rw [Prod.ext_iff, and_assoc]
      rw [List.filter_cons]
      by_cases hc : (x.path, x.dep) = k ∧ s < x.time ∧ x.time ≤ e
      · rw [if_pos (by simpa using this.2 hc), if_pos hc]; simp
      · rw [if_neg (by simpa using fun h => hc (this.1 h)), if_neg hc]; simp
    rw [h2, ← ih, sub_snoc]
    by_cases hk : (x.path, x.dep) = k
    · rw [if_pos hk, flowUpTo_snoc, flowUpTo_snoc]
      simp only [hk, true_and]
      by_cases h1 : x.time ≤ s
      · have : x.time ≤ e := le_trans h1 hse
        simp [h1, this, not_lt.2 h1]
      · by_cases h3 : x.time ≤ e
        · simp [h1, h3, not_le.1 h1]; ring
        · simp [h1, h3]
    · rw [if_neg hk, List.append_nil]
      simp [hk]

/-- What the tree says about a period. -/
theorem tree_flow {h : List Item} (hl : LegalItems h) {tr : Tree} (hr : record h = .ok tr) {e : (ℤ × ℤ) × Curve}
    (he : e ∈ tr) {s t : ℕ} (hst : s ≤ t) (ht : t < 10000) :
    ∃ a b, getResult e.2 (s : ℚ) = .ok a ∧ getResult e.2 (t : ℚ) = .ok b ∧
      b - a = entering h e.1.1 e.1.2 s t := by
  obtain ⟨tr', h1, h2, h3, h4⟩ := record_spec h hl
  rw [hr] at h1
  cases h1
  have hc := h4 e.1 e.2 (Store.get_of_mem h2 (by simpa using he))
  obtain ⟨c, hc', hok, hint, _, ⟨r0, h0, h00⟩, hlk⟩ := run_legal _ (sub_legal hl e.1)
  rw [hc] at hc'
  cases hc'
  refine ⟨_, _, getResult_lookup hok hint h0 h00 ⟨s, by omega, rfl⟩,
    getResult_lookup hok hint h0 h00 ⟨t, ht, rfl⟩, ?_⟩
  rw [hlk _ (by positivity), hlk _ (by positivity)]
  exact flowUpTo_entering h e.1 s t (by exact_mod_cast hst)

/-! ## The cells -/

/-- The value of a cell. -/
def share (f : List ℚ) (y : ℕ) (x : ℚ) : Option ℚ :=
  match f[y]? with
  | none => none
  | some d => if d = 0 then none else some (x / d)

/-- The cells of one entry of a tree. -/
def cellsOf (h : List Item) (reg : Store ℤ ℕ) (s t : ℚ) (link interval nl np : ℕ) (f : List ℚ)
    (k : ℤ × ℤ) : List Cell :=
  match reg.get k.1 with
  | none => []
  | some idx =>
    if entering h k.1 k.2 s t > dblEps then
      [⟨link + nl * interval, idx + np * k.2, share f (idx + np * k.2 : ℤ).toNat (entering h k.1 k.2 s t)⟩]
    else []

theorem darCells_eq {h : List Item} (hl : LegalItems h) {tr : Tree} (hr : record h = .ok tr) {reg : Store ℤ ℕ}
    {np D : ℕ} (hreg : ∀ p i, reg.get p = some i → i < np) {f : List ℚ} (hf : np * D ≤ f.length)
    (hD : ∀ x ∈ h, 0 ≤ x.dep ∧ x.dep < D) {s t : ℕ} (hst : s ≤ t) (ht : t < 10000) (link interval nl : ℕ) :
    darCells tr reg s t link interval nl np f = .ok (tr.flatMap fun e => cellsOf h reg s t link interval nl np f e.1) := by
  unfold darCells
  rw [foldlM_collect (g := fun e => cellsOf h reg s t link interval nl np f e.1)]
  · simp
  · intro e he acc
    obtain ⟨a, b, h1, h2, h3⟩ := tree_flow hl hr he hst ht
    unfold cellsOf
    cases hg : reg.get e.1.1 with
    | none => simp
    | some idx =>
      simp only [h1, h2, Res.bind_ok', h3]
      split
      · have hkey : ∃ x ∈ h, (x.path, x.dep) = e.1 := by
          obtain ⟨tr', q1, _, q3, _⟩ := record_spec h hl
          rw [hr] at q1
          cases q1
          exact (q3 e.1).1 (List.mem_map_of_mem (f := Prod.fst) he)
        obtain ⟨x, hx, hxe⟩ := hkey
        have hd := hD x hx
        have hde : x.dep = e.1.2 := by rw [← hxe]
        rw [hde] at hd
        have hi := hreg _ _ hg
        obtain ⟨d, hd'⟩ : ∃ d : ℕ, e.1.2 = d := ⟨e.1.2.toNat, by omega⟩
        have hdD : d < D := by omega
        have hy : ((idx : ℤ) + np * e.1.2) = ((idx + np * d : ℕ) : ℤ) := by rw [hd']; push_cast; rfl
        have hlt : idx + np * d < f.length := by
          have : np * (d + 1) ≤ np * D := Nat.mul_le_mul_left _ hdD
          rw [Nat.mul_add, Nat.mul_one] at this
          omega
        unfold portion share
        rw [hy, if_neg (by omega), Int.toNat_natCast]
        rw [List.getElem?_eq_getElem hlt]
        rfl
      · simp

theorem mem_cellsOf {h : List Item} {reg : Store ℤ ℕ} {s t : ℚ} {link interval nl np : ℕ} {f : List ℚ}
    {k : ℤ × ℤ} {c : Cell} : c ∈ cellsOf h reg s t link interval nl np f k ↔
      ∃ idx, reg.get k.1 = some idx ∧ entering h k.1 k.2 s t > dblEps ∧
        c = ⟨link + nl * interval, idx + np * k.2, share f (idx + np * k.2 : ℤ).toNat (entering h k.1 k.2 s t)⟩ := by
  unfold cellsOf
  cases hg : reg.get k.1 with
  | none => simp
  | some idx =>
    by_cases hx : entering h k.1 k.2 s t > dblEps
    · simp [hx]
    · simp [hx]

/-- A place decides its parts. -/
theorem place_inj {n : ℕ} {i j : ℕ} (hi : i < n) (hj : j < n) {a b : ℤ}
    (h : (i : ℤ) + n * a = j + n * b) : i = j ∧ a = b := by
  have hn : (0 : ℤ) < n := by omega
  have h1 : ((i : ℤ) + n * a) % n = i := by
    rw [Int.add_mul_emod_self_left]
    exact Int.emod_eq_of_lt (by omega) (by omega)
  have h2 : ((j : ℤ) + n * b) % n = j := by
    rw [Int.add_mul_emod_self_left]
    exact Int.emod_eq_of_lt (by omega) (by omega)
  rw [h, h2] at h1
  have hij : i = j := by omega
  refine ⟨hij, ?_⟩
  subst hij
  have : (n : ℤ) * a = n * b := by linarith
  exact mul_left_cancel₀ hn.ne' this

end Verif.Tab

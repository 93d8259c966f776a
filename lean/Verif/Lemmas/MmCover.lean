import Verif.Spec.MmCover
import Verif.Lemmas.Cover

namespace Verif.MmCover
open Graph Sp Path Cover

theorem zipWith_map_self {α β γ : Type} (f : β → α → γ) (g : α → β) (l : List α) :
    List.zipWith f (l.map g) l = l.map fun x => f (g x) x := by
  induction l with
  | nil => rfl
  | cons a l ih => simp [ih]

theorem coverLoop_eq (links : List ℤ) (ps : List (List ℤ)) : ∀ (f : ℤ → Bool),
    Rec.coverLoop links ps (links.map f) = links.map fun l => f l || decide (∃ p ∈ ps, l ∈ p) := by
  induction ps with
  | nil => intro f; simp [Rec.coverLoop]
  | cons p ps ih =>
    intro f
    unfold Rec.coverLoop
    simp only
    rw [zipWith_map_self]
    have e : (links.map fun l => if f l = true then f l else Rec.isLinkIn p l) =
        links.map fun l => f l || decide (l ∈ p) := by
      apply List.map_congr_left
      intro l _
      cases h : f l <;> simp [Rec.isLinkIn]
    rw [e]
    split
    · next h =>
      apply List.map_congr_left
      intro l hl
      have h1 : (f l || decide (l ∈ p)) = true := by
        have := List.all_eq_true.1 h (f l || decide (l ∈ p)) (List.mem_map.2 ⟨l, hl, rfl⟩)
        simpa using this
      rw [h1]
      symm
      simp only [Bool.or_eq_true, decide_eq_true_eq, List.mem_cons] at h1 ⊢
      rcases h1 with h1 | h1
      · exact Or.inl h1
      · exact Or.inr ⟨p, Or.inl rfl, h1⟩
    · rw [ih]
      apply List.map_congr_left
      intro l _
      rw [Bool.or_assoc, ← Bool.decide_or]
      congr 2
      simp

/-- The flags of registered bus or walking links. -/
theorem check_eq (paths : List P) (pnrs : List Pnr) (links : List ℤ) :
    check paths pnrs links = links.map fun l => decide ((∃ p ∈ paths, l ∈ p.2) ∨
      ∃ q ∈ pnrs, l ∈ q.drive.2 ∨ l ∈ q.transit.2) := by
  unfold check
  simp only
  rw [coverLoop_eq links (paths.map (·.2)) (fun _ => false)]
  split
  · rw [coverLoop_eq]
    apply List.map_congr_left
    intro l _
    rw [Bool.false_or, ← Bool.decide_or, decide_eq_decide]
    simp only [List.mem_map, exists_exists_and_eq_and, Pnr.links, List.mem_append]
  · next h =>
    apply List.map_congr_left
    intro l hl
    have h1 : (false || decide (∃ p ∈ paths.map (·.2), l ∈ p)) = true := by
      by_contra hc
      apply h
      rw [List.any_eq_true]
      exact ⟨_, List.mem_map.2 ⟨l, hl, rfl⟩, by simpa using hc⟩
    rw [h1]
    symm
    rw [decide_eq_true_eq]
    rw [Bool.false_or, decide_eq_true_eq] at h1
    obtain ⟨p, hp, hl'⟩ := h1
    obtain ⟨q, hq, rfl⟩ := List.mem_map.1 hp
    exact Or.inl ⟨q, hq, hl'⟩

/-- The first uncovered link, when it is not a driving link. -/
theorem fold_throw {fuel : ℕ} {x : Inst} {orc : Orc} {rg : G} {buses walks : List ℤ} {isBus : Bool} {s : St}
    {pre post : List (ℕ × ℤ)} {il : ℕ × ℤ}
    (hpre : ∀ jl ∈ pre, (if isBus then s.bus else s.walk).getD jl.1 true = true)
    (hl : (if isBus then s.bus else s.walk).getD il.1 true = false) (hd : il.2 ∉ linkIds x.drive) :
    Res.foldlM (coverOne fuel x orc rg buses walks isBus) s (pre ++ il :: post) = .throw "out_of_range" := by
  induction pre with
  | nil =>
    rw [List.nil_append, Res.foldlM_cons]
    have hg : getEndpoints x.drive il.2 = .throw "out_of_range" := by
      unfold getEndpoints getLink
      have : x.drive.links.get il.2 = none := by
        have := hd
        unfold linkIds at this
        exact (Store.get_eq_none_iff _ _).2 this
      rw [this]
    have : coverOne fuel x orc rg buses walks isBus s il = .throw "out_of_range" := by
      unfold coverOne
      rw [if_neg (by rw [hl]; simp), hg]
      rfl
    rw [this]
    rfl
  | cons j pre ih =>
    rw [List.cons_append, Res.foldlM_cons]
    have : coverOne fuel x orc rg buses walks isBus s j = .ok s := by
      unfold coverOne
      rw [if_pos (hpre j (by simp))]
    rw [this, Res.ok_bind]
    exact ih fun y hy => hpre y (by simp [hy])

theorem fold_skip {fuel : ℕ} {x : Inst} {orc : Orc} {rg : G} {buses walks : List ℤ} {isBus : Bool} {s : St} :
    ∀ {ils : List (ℕ × ℤ)}, (∀ jl ∈ ils, (if isBus then s.bus else s.walk).getD jl.1 true = true) →
    Res.foldlM (coverOne fuel x orc rg buses walks isBus) s ils = .ok s
  | [], _ => by rw [Res.foldlM_nil]
  | j :: ils, h => by
    rw [Res.foldlM_cons]
    have : coverOne fuel x orc rg buses walks isBus s j = .ok s := by
      unfold coverOne
      rw [if_pos (h j (by simp))]
    rw [this, Res.ok_bind]
    exact fold_skip fun y hy => h y (by simp [hy])

theorem cov_snoc (pnrs : List Pnr) (paths : List P) (w : P) (l : ℤ) :
    Cov pnrs (paths ++ [w]) l ↔ Cov pnrs paths l ∨ l ∈ w.2 := by
  unfold Cov
  simp only [List.mem_append, List.mem_singleton]
  constructor
  · rintro (⟨p, hp | rfl, hl⟩ | h)
    · exact Or.inl (Or.inl ⟨p, hp, hl⟩)
    · exact Or.inr hl
    · exact Or.inl (Or.inr h)
  · rintro ((⟨p, hp, hl⟩ | h) | h)
    · exact Or.inl ⟨p, Or.inl hp, hl⟩
    · exact Or.inr h
    · exact Or.inl ⟨w, Or.inr rfl, h⟩

theorem note_eq (pnrs : List Pnr) (paths : List P) (w : P) (links : List ℤ) :
    note w links (links.map fun l => decide (Cov pnrs paths l)) =
      links.map fun l => decide (Cov pnrs (paths ++ [w]) l) := by
  unfold note
  rw [zipWith_map_self]
  apply List.map_congr_left
  intro l _
  rw [show decide (Cov pnrs (paths ++ [w]) l) = (decide (Cov pnrs paths l) || decide (l ∈ w.2)) by
    rw [← Bool.decide_or, decide_eq_decide]; exact cov_snoc _ _ _ _]
  by_cases h : Cov pnrs paths l <;> simp [h, Rec.isLinkIn]

theorem note_set (pnrs : List Pnr) (paths : List P) (w : P) {links : List ℤ} {i : ℕ} {l : ℤ}
    (hi : links[i]? = some l) (hl : l ∈ w.2) :
    note w links ((links.map fun l => decide (Cov pnrs paths l)).set i true) =
      links.map fun l => decide (Cov pnrs (paths ++ [w]) l) := by
  rw [← note_eq]
  unfold note
  refine List.ext_getElem? fun j => ?_
  rw [List.getElem?_zipWith, List.getElem?_zipWith, List.getElem?_set]
  by_cases hj : i = j
  · subst hj
    rw [if_pos rfl, hi, List.getElem?_map, hi]
    have : i < links.length := (List.getElem?_eq_some_iff.1 hi).1
    by_cases hc : Cov pnrs paths l <;> simp [this, hc, hl, Rec.isLinkIn]
  · rw [if_neg hj]

/-- The body of the loops. -/
theorem coverOne_ok {fuel : ℕ} {x : Inst} {orc : Orc} {rg : G} {buses walks : List ℤ} {isBus : Bool} {s s' : St}
    {il : ℕ × ℤ} (h : coverOne fuel x orc rg buses walks isBus s il = .ok s') : s' = s ∨ ∃ (o d : ℤ) (w : P),
      il.2 ∈ w.2 ∧ (if isBus then s.bus else s.walk).getD il.1 true = false ∧ push s.table o d w = .ok s'.table ∧
      s'.paths = s.paths ++ [w] ∧ s'.bus = (if isBus then note w buses (s.bus.set il.1 true) else s.bus) ∧
      s'.walk = note w walks (if isBus then s.walk else s.walk.set il.1 true) := by
  unfold coverOne at h
  by_cases hf : (if isBus then s.bus else s.walk).getD il.1 true = true
  · rw [if_pos hf] at h
    cases h
    exact Or.inl rfl
  · rw [if_neg hf, Res.bind_eq_ok'] at h
    obtain ⟨e, -, h⟩ := h
    rw [Res.bind_eq_ok'] at h
    obtain ⟨ab, -, h⟩ := h
    rw [Res.bind_eq_ok'] at h
    obtain ⟨r, -, h⟩ := h
    cases r with
    | some od =>
      obtain ⟨o, d⟩ := od
      simp only at h
      rw [Res.bind_eq_ok'] at h
      obtain ⟨p, -, h⟩ := h
      rw [Res.bind_eq_ok'] at h
      obtain ⟨q, -, h⟩ := h
      rw [Res.bind_eq_ok'] at h
      obtain ⟨t, ht, h⟩ := h
      refine Or.inr ⟨o, d, (p.1 ++ q.1.reverse, p.2 ++ il.2 :: q.2.reverse), by simp, by simpa using hf, ?_⟩
      cases isBus
      · simp only [Bool.false_eq_true, if_false, Res.ok.injEq] at h
        subst h
        exact ⟨ht, rfl, rfl, rfl⟩
      · simp only [if_true, Res.ok.injEq] at h
        subst h
        exact ⟨ht, rfl, rfl, rfl⟩
    | none =>
      simp only at h
      rw [Res.bind_eq_ok'] at h
      obtain ⟨r, -, h⟩ := h
      cases r with
      | some _ => cases h
      | none => cases h; exact Or.inl rfl

theorem push_ok {t t' : Table} {new : List (ℤ × ℤ × P)} {o d : ℤ} {p : P} (h : push (added t new) o d p = .ok t') :
    t' = added t (new ++ [(o, d, p)]) := by
  cases ht : t o d with
  | none =>
    unfold push at h
    simp [added, ht] at h
  | some ps =>
    rw [push_added ht] at h
    cases h
    rfl

/-- What the loop over links (of one kind) has done, from `paths0`. -/
structure Inv (table : Table) (pnrs : List Pnr) (buses walks : List ℤ) (isBus : Bool) (paths0 : List P)
    (new0 new : List (ℤ × ℤ × P)) (s : St) : Prop where
  table : s.table = added table (new0 ++ new)
  paths : s.paths = paths0 ++ new.map (·.2.2)
  bus : s.bus = buses.map fun l => decide (Cov pnrs (if isBus then s.paths else paths0) l)
  walk : s.walk = walks.map fun l => decide (Cov pnrs s.paths l)
  each : ∀ q ∈ new, ∃ l ∈ (if isBus then buses else walks), l ∈ q.2.2.2 ∧ ¬ Cov pnrs paths0 l

theorem inv_step {buses walks : List ℤ} {isBus : Bool} {table : Table}
    {pnrs : List Pnr} {paths0 : List P} {new0 new : List (ℤ × ℤ × P)} {s s1 : St} {il : ℕ × ℤ} {o d : ℤ} {w : P}
    (hi : (if isBus then buses else walks)[il.1]? = some il.2)
    (hs : Inv table pnrs buses walks isBus paths0 new0 new s)
    (hw : il.2 ∈ w.2) (hflag : (if isBus then s.bus else s.walk).getD il.1 true = false)
    (ht : push s.table o d w = .ok s1.table) (hp : s1.paths = s.paths ++ [w])
    (hb : s1.bus = (if isBus then note w buses (s.bus.set il.1 true) else s.bus))
    (hk : s1.walk = note w walks (if isBus then s.walk else s.walk.set il.1 true)) :
    Inv table pnrs buses walks isBus paths0 new0 (new ++ [(o, d, w)]) s1 := by
  rw [hs.table] at ht
  have hmem : il.2 ∈ (if isBus then buses else walks) := List.mem_of_getElem? hi
  have hpaths : s1.paths = paths0 ++ (new ++ [(o, d, w)]).map (·.2.2) := by rw [hp, hs.paths]; simp
  have hnot : ¬ Cov pnrs s.paths il.2 := by
    intro hc
    cases isBus
    · simp only [Bool.false_eq_true, if_false] at hflag hi
      rw [hs.walk, List.getD_eq_getElem?_getD, List.getElem?_map, hi] at hflag
      simp [hc] at hflag
    · simp only [if_true] at hflag hi
      have hbus := hs.bus
      simp only [if_true] at hbus
      rw [hbus, List.getD_eq_getElem?_getD, List.getElem?_map, hi] at hflag
      simp [hc] at hflag
  have hnot0 : ¬ Cov pnrs paths0 il.2 := by
    intro hc
    apply hnot
    rw [hs.paths]
    rcases hc with ⟨p, a, b⟩ | hc
    · exact Or.inl ⟨p, by simp [a], b⟩
    · exact Or.inr hc
  refine ⟨by rw [push_ok ht, List.append_assoc], hpaths, ?_, ?_, ?_⟩
  · rw [hb]
    cases isBus
    · simpa using hs.bus
    · simp only [if_true] at hi ⊢
      have hbus := hs.bus
      simp only [if_true] at hbus
      rw [hbus, note_set pnrs s.paths w hi hw, hp]
  · rw [hk, hs.walk]
    cases isBus
    · simp only [Bool.false_eq_true, if_false] at hi ⊢
      rw [note_set pnrs s.paths w hi hw, hp]
    · simp only [if_true]
      rw [note_eq, hp]
  · intro q hq
    rcases List.mem_append.1 hq with hq | hq
    · exact hs.each q hq
    · have : q = (o, d, w) := by simpa using hq
      subst this
      exact ⟨il.2, hmem, hw, hnot0⟩

theorem fold_inv {fuel : ℕ} {x : Inst} {orc : Orc} {rg : G} {buses walks : List ℤ} {isBus : Bool} {table : Table}
    {pnrs : List Pnr} {paths0 : List P} {new0 : List (ℤ × ℤ × P)} : ∀ (ils : List (ℕ × ℤ)),
    (∀ il ∈ ils, (if isBus then buses else walks)[il.1]? = some il.2) → ∀ {new : List (ℤ × ℤ × P)} {s s' : St},
    Inv table pnrs buses walks isBus paths0 new0 new s →
    Res.foldlM (coverOne fuel x orc rg buses walks isBus) s ils = .ok s' →
    ∃ new', Inv table pnrs buses walks isBus paths0 new0 new' s'
  | [], _, new, s, s', hs, h => by
    rw [Res.foldlM_nil] at h
    cases h
    exact ⟨new, hs⟩
  | il :: ils, hil, new, s, s', hs, h => by
    rw [Res.foldlM_cons, Res.bind_eq_ok] at h
    obtain ⟨s1, h1, h2⟩ := h
    have hrest := fun y (hy : y ∈ ils) => hil y (List.mem_cons_of_mem _ hy)
    rcases coverOne_ok h1 with rfl | ⟨o, d, w, hw, hflag, ht, hp, hb, hk⟩
    · exact fold_inv ils hrest hs h2
    · exact fold_inv (new := new ++ [(o, d, w)]) ils hrest (inv_step (hil il (by simp)) hs hw hflag ht hp hb hk) h2

end Verif.MmCover

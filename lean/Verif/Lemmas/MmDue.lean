import Verif.Spec.MmDue
import Mathlib.Algebra.Order.BigOperators.Group.List
import Mathlib.Tactic.Linarith
import Mathlib.Tactic.Ring
import Mathlib.Tactic.FieldSimp
import Mathlib.Tactic.Positivity

/-! # Lemmas on the flows of the multimodal equilibrium -/

namespace Verif.MmDue

theorem add_flow (p : PPath) (c : ℕ) (x : ℚ) (c' : ℕ) :
    (p.add c x).flow c' = p.flow c' + if c' = c then x else 0 := by
  unfold PPath.add
  by_cases h : c' = c
  · subst h; simp [upd]
  · simp [upd, h]

theorem add_route (p : PPath) (c : ℕ) (x : ℚ) : (p.add c x).route = p.route := rfl
theorem add_dis (p : PPath) (c : ℕ) (x : ℚ) : (p.add c x).dis = p.dis := rfl

theorem isIn_iff {ps : List PPath} {best : Route} : isIn ps best = true ↔ ∃ p ∈ ps, p.route = best := by
  simp [isIn]

theorem isIn_append (a b : List PPath) (best : Route) : isIn (a ++ b) best = (isIn a best || isIn b best) := by
  simp [isIn]

theorem addLast_split {best : Route} (c : ℕ) (x : ℚ) : ∀ {ps : List PPath}, isIn ps best = true →
    ∃ l1 p l2, ps = l1 ++ p :: l2 ∧ p.route = best ∧ addLast best c x ps = l1 ++ p.add c x :: l2 := by
  intro ps
  induction ps with
  | nil => intro h; simp [isIn] at h
  | cons p ps ih =>
    intro h
    unfold addLast
    by_cases hi : isIn ps best = true
    · obtain ⟨l1, q, l2, e1, e2, e3⟩ := ih hi
      exact ⟨p :: l1, q, l2, by rw [e1]; rfl, e2, by rw [if_pos hi, e3]; rfl⟩
    · have hp : p.route = best := by
        obtain ⟨q, hq, e⟩ := isIn_iff.1 h
        rw [List.mem_cons] at hq
        rcases hq with rfl | hq
        · exact e
        · exact absurd (isIn_iff.2 ⟨q, hq, e⟩) hi
      exact ⟨[], p, ps, rfl, hp, by rw [if_neg hi, if_pos hp]; rfl⟩

theorem all_eq (s : Sets) : s.all = (s .driving).getD [] ++ ((s .transit).getD [] ++ (s .pnr).getD []) := by
  simp [Sets.all, modes]

theorem each_all (s : Sets) (f : PPath → PPath) : (s.each f).all = s.all.map f := by
  rw [all_eq, all_eq]
  simp only [Sets.each, List.map_append]
  cases s .driving <;> cases s .transit <;> cases s .pnr <;> simp

theorem each_routes (s : Sets) {f : PPath → PPath} (h : ∀ p, (f p).route = p.route) : (s.each f).routes = s.routes := by
  funext m
  unfold Sets.routes Sets.each
  cases s m with
  | none => rfl
  | some ps => simp [h]

theorem addLast_routes (best : Route) (c : ℕ) (x : ℚ) (ps : List PPath) :
    (addLast best c x ps).map PPath.route = ps.map PPath.route := by
  induction ps with
  | nil => rfl
  | cons p ps ih =>
    unfold addLast
    split
    · simp [ih]
    · split
      · simp [add_route]
      · rfl

theorem upd_routes (s : Sets) (m : Mode) (best : Route) (c : ℕ) (x : ℚ) :
    Sets.routes (upd s m ((s m).map (addLast best c x))) = s.routes := by
  funext k
  unfold Sets.routes upd
  by_cases h : k = m
  · subst h
    simp only [if_true]
    cases s k with
    | none => rfl
    | some ps => simp [addLast_routes]
  · simp [h]

theorem has_iff {s : Sets} {m : Mode} {best : Route} :
    s.has m best = true ↔ ∃ ps, s m = some ps ∧ ∃ p ∈ ps, p.route = best := by
  unfold Sets.has
  rw [isIn_iff]
  cases s m with
  | none => simp
  | some ps => simp

/-- Where the flow of the best path goes. -/
theorem addLast_ok {s : Sets} {best : Route} {c : ℕ} {x : ℚ} {s' : Sets} (h : s.addLast best c x = .ok s') :
    s'.routes = s.routes ∧
    ∃ l1 p l2, s.all = l1 ++ p :: l2 ∧ p.route = best ∧ s'.all = l1 ++ p.add c x :: l2 := by
  unfold Sets.addLast at h
  by_cases h1 : s.has .pnr best = true
  · rw [if_pos h1] at h
    cases h
    refine ⟨upd_routes _ _ _ _ _, ?_⟩
    obtain ⟨ps, e, hp⟩ := has_iff.1 h1
    obtain ⟨l1, p, l2, e1, e2, e3⟩ := addLast_split c x (isIn_iff.2 hp)
    refine ⟨(s .driving).getD [] ++ ((s .transit).getD [] ++ l1), p, l2, ?_, e2, ?_⟩
    · rw [all_eq, e, Option.getD_some, e1]; simp
    · rw [all_eq]; simp [upd, e, e3]
  · rw [if_neg h1] at h
    by_cases h2 : s.has .transit best = true
    · rw [if_pos h2] at h
      cases h
      refine ⟨upd_routes _ _ _ _ _, ?_⟩
      obtain ⟨ps, e, hp⟩ := has_iff.1 h2
      obtain ⟨l1, p, l2, e1, e2, e3⟩ := addLast_split c x (isIn_iff.2 hp)
      refine ⟨(s .driving).getD [] ++ l1, p, l2 ++ (s .pnr).getD [], ?_, e2, ?_⟩
      · rw [all_eq, e, Option.getD_some, e1]; simp
      · rw [all_eq]; simp [upd, e, e3]
    · rw [if_neg h2] at h
      by_cases h3 : s.has .driving best = true
      · rw [if_pos h3] at h
        cases h
        refine ⟨upd_routes _ _ _ _ _, ?_⟩
        obtain ⟨ps, e, hp⟩ := has_iff.1 h3
        obtain ⟨l1, p, l2, e1, e2, e3⟩ := addLast_split c x (isIn_iff.2 hp)
        refine ⟨l1, p, l2 ++ ((s .transit).getD [] ++ (s .pnr).getD []), ?_, e2, ?_⟩
        · rw [all_eq, e, Option.getD_some, e1]; simp
        · rw [all_eq]; simp [upd, e, e3]
      · rw [if_neg h3] at h
        cases h

theorem addLast_isOk {s : Sets} {best : Route} (c : ℕ) (x : ℚ) (h : isIn s.all best = true) :
    ∃ s', s.addLast best c x = .ok s' := by
  unfold Sets.addLast
  by_cases h1 : s.has .pnr best = true
  · rw [if_pos h1]; exact ⟨_, rfl⟩
  · rw [if_neg h1]
    by_cases h2 : s.has .transit best = true
    · rw [if_pos h2]; exact ⟨_, rfl⟩
    · rw [if_neg h2]
      by_cases h3 : s.has .driving best = true
      · rw [if_pos h3]; exact ⟨_, rfl⟩
      · exfalso
        rw [all_eq, isIn_append, isIn_append] at h
        unfold Sets.has at h1 h2 h3
        simp_all

theorem Grows.refl (s : Sets) : Grows s s := by
  intro m
  cases s m with
  | none => trivial
  | some ps => exact List.prefix_refl _

theorem Grows.trans {a b c : Sets} (h1 : Grows a b) (h2 : Grows b c) : Grows a c := by
  intro m
  have x := h1 m
  have y := h2 m
  cases ha : a m <;> cases hb : b m <;> cases hc : c m <;> rw [ha, hb] at x <;> rw [hb, hc] at y <;> simp_all
  exact x.trans y

theorem grows_of_routes {s s' : Sets} (h : s'.routes = s.routes) : Grows s s' := by
  intro m
  have := congrFun h m
  unfold Sets.routes at this
  cases ha : s m <;> cases hb : s' m <;> rw [ha, hb] at this <;> simp_all

theorem enlist_ok {cg : Bool} {best : Route} {dis : ℕ → ℚ} {mid : ℤ} {s : Sets} {a : Sets × Bool}
    (h : enlist cg best dis mid s = .ok a) :
    (a.1 = s ∧ a.2 = true ∧ (cg = true → isIn s.all best = true)) ∨
    (cg = true ∧ a.2 = false ∧ Grows s a.1 ∧ (∃ ps, s best.mode = some ps ∧ isIn ps best = false) ∧
      ∃ l1 l2, s.all = l1 ++ l2 ∧ a.1.all = l1 ++ ⟨best, fun _ => 0, dis, mid⟩ :: l2) := by
  unfold enlist at h
  cases cg with
  | false =>
    simp only [Bool.false_eq_true, if_false] at h
    cases h
    exact Or.inl ⟨rfl, rfl, by simp⟩
  | true =>
    simp only [if_true] at h
    cases hm : s best.mode with
    | none => rw [hm] at h; cases h
    | some ps =>
      rw [hm] at h
      change (if isIn ps best then Res.ok (s, true)
        else Res.ok (upd s best.mode (some (ps ++ [⟨best, fun _ => 0, dis, mid⟩])), false)) = Res.ok a at h
      by_cases hi : isIn ps best = true
      · rw [if_pos hi] at h
        cases h
        refine Or.inl ⟨rfl, rfl, fun _ => ?_⟩
        rw [all_eq, isIn_append, isIn_append]
        generalize hk : best.mode = k at hm
        cases k <;> rw [hm] <;> simp [hi]
      · rw [if_neg hi] at h
        cases h
        refine Or.inr ⟨rfl, rfl, ?_, ⟨ps, rfl, by simpa using hi⟩, ?_⟩
        · intro k
          simp only [upd]
          by_cases hk : k = best.mode
          · subst hk
            rw [if_pos rfl, hm]
            simp
          · rw [if_neg hk]
            cases s k with
            | none => trivial
            | some q => exact List.prefix_refl _
        · simp only
          generalize hk : best.mode = k at hm
          cases k
          · refine ⟨ps, (s .transit).getD [] ++ (s .pnr).getD [], ?_, ?_⟩
            · rw [all_eq, hm]; rfl
            · rw [all_eq]; simp [upd]
          · refine ⟨(s .driving).getD [] ++ ps, (s .pnr).getD [], ?_, ?_⟩
            · rw [all_eq, hm]; simp
            · rw [all_eq]; simp [upd]
          · refine ⟨(s .driving).getD [] ++ ((s .transit).getD [] ++ ps), [], ?_, ?_⟩
            · rw [all_eq, hm]; simp
            · rw [all_eq]; simp [upd]

/-- What an update keeps: the flow of every interval, non-negativity, and the paths. -/
def Keeps (s s' : Sets) : Prop :=
  (∀ c, s'.passengers c = s.passengers c) ∧ (s.NonNeg → s'.NonNeg) ∧ Grows s s'

theorem Keeps.refl (s : Sets) : Keeps s s := ⟨fun _ => rfl, fun h => h, Grows.refl s⟩

theorem Keeps.trans {a b c : Sets} (h1 : Keeps a b) (h2 : Keeps b c) : Keeps a c :=
  ⟨fun k => (h2.1 k).trans (h1.1 k), fun h => h2.2.1 (h1.2.1 h), h1.2.2.trans h2.2.2⟩

theorem enlist_keeps {cg : Bool} {best : Route} {dis : ℕ → ℚ} {mid : ℤ} {s : Sets} {a : Sets × Bool}
    (h : enlist cg best dis mid s = .ok a) : Keeps s a.1 := by
  rcases enlist_ok h with ⟨e, _, _⟩ | ⟨_, _, hg, _, l1, l2, e1, e2⟩
  · rw [e]; exact Keeps.refl s
  · refine ⟨fun c => by unfold Sets.passengers; rw [e1, e2]; simp, ?_, hg⟩
    intro hp p hm c
    rw [e2, List.mem_append, List.mem_cons] at hm
    unfold Sets.NonNeg at hp
    rw [e1] at hp
    rcases hm with hm | rfl | hm
    · exact hp p (by simp [hm]) c
    · exact le_refl _
    · exact hp p (by simp [hm]) c

theorem sum_map_sub {A : Type} (ps : List A) (f g : A → ℚ) :
    (ps.map fun p => f p - g p).sum = (ps.map f).sum - (ps.map g).sum := by
  induction ps with
  | nil => simp
  | cons p ps ih => simp only [List.map_cons, List.sum_cons]; rw [ih]; ring

theorem sum_map_add {A : Type} (ps : List A) (f g : A → ℚ) :
    (ps.map fun p => f p + g p).sum = (ps.map f).sum + (ps.map g).sum := by
  induction ps with
  | nil => simp
  | cons p ps ih => simp only [List.map_cons, List.sum_cons]; rw [ih]; ring

theorem sum_map_mul {A : Type} (ps : List A) (a : ℚ) (f : A → ℚ) :
    (ps.map fun p => a * f p).sum = a * (ps.map f).sum := by
  induction ps with
  | nil => simp
  | cons p ps ih => simp only [List.map_cons, List.sum_cons]; rw [ih]; ring

theorem sum_map_nonneg {A : Type} {ps : List A} {f : A → ℚ} (h : ∀ p ∈ ps, 0 ≤ f p) : 0 ≤ (ps.map f).sum := by
  apply List.sum_nonneg
  intro x hx
  rw [List.mem_map] at hx
  obtain ⟨p, hp, rfl⟩ := hx
  exact h p hp

/-- Taking `f p` from interval `c` of every path and giving the total to one of them. -/
theorem shift_keeps {s s' : Sets} {best : Route} {c : ℕ} {f : PPath → ℚ}
    (h : (s.each fun p => p.add c (-f p)).addLast best c ((s.all.map f).sum) = .ok s')
    (hf : (∀ p ∈ s.all, ∀ k, 0 ≤ p.flow k) → ∀ p ∈ s.all, 0 ≤ f p ∧ f p ≤ p.flow c) : Keeps s s' := by
  obtain ⟨hr, l1, p, l2, e1, e2, e3⟩ := addLast_ok h
  rw [each_all] at e1
  have hr' : s'.routes = s.routes := hr.trans (each_routes s fun p => rfl)
  refine ⟨?_, ?_, grows_of_routes hr'⟩
  · intro k
    have h1 : ((s.all.map fun p => p.add c (-f p)).map fun p => p.flow k).sum =
        (s.all.map fun p => p.flow k).sum - if k = c then (s.all.map f).sum else 0 := by
      rw [List.map_map]
      by_cases hk : k = c
      · rw [if_pos hk, ← sum_map_sub]
        congr 1
        apply List.map_congr_left
        intro p _
        simp only [Function.comp, add_flow, if_pos hk]
        ring
      · rw [if_neg hk, sub_zero]
        congr 1
        apply List.map_congr_left
        intro p _
        simp only [Function.comp, add_flow, if_neg hk, add_zero]
    rw [e1] at h1
    unfold Sets.passengers
    rw [e3]
    simp only [List.map_append, List.map_cons, List.sum_append, List.sum_cons, add_flow] at h1 ⊢
    split at h1 <;> rename_i hk
    · rw [if_pos hk]; linarith
    · rw [if_neg hk]; linarith
  · intro hp q hq k
    have hsub : ∀ q ∈ s.all.map (fun p => p.add c (-f p)), ∀ k, 0 ≤ q.flow k := by
      intro q hq k
      rw [List.mem_map] at hq
      obtain ⟨q0, hq0, rfl⟩ := hq
      have h1 := hf hp q0 hq0
      have h2 := hp q0 hq0 k
      rw [add_flow]
      split
      · rename_i hk; subst hk; linarith
      · linarith
    rw [e1] at hsub
    rw [e3, List.mem_append, List.mem_cons] at hq
    rcases hq with hq | rfl | hq
    · exact hsub q (by simp [hq]) k
    · rw [add_flow]
      have h1 := hsub p (by simp) k
      have h2 := sum_map_nonneg fun p hm => (hf hp p hm).1
      split <;> linarith
    · exact hsub q (by simp [hq]) k

theorem fixedChange_le {step root : ℚ} (h0 : 0 ≤ step) (h1 : step ≤ 1) (hr : 1 ≤ root) (best : Route) (c : ℕ)
    {p : PPath} (hf : 0 ≤ p.flow c) :
    0 ≤ fixedChange step root best c p ∧ fixedChange step root best c p ≤ p.flow c := by
  have hroot : 0 < root := by linarith
  unfold fixedChange
  split
  · exact ⟨le_refl _, hf⟩
  · refine ⟨by positivity, ?_⟩
    rw [div_le_iff₀ hroot]
    nlinarith

theorem fixedCol_keeps {cg : Bool} {step root : ℚ} (h0 : 0 ≤ step) (h1 : step ≤ 1) (hr : 1 ≤ root) {best : Route}
    {dis : ℕ → ℚ} {mid : ℤ} {c : ℕ} {s s' : Sets} (h : fixedCol cg step root best dis mid c s = .ok s') :
    Keeps s s' := by
  unfold fixedCol at h
  rw [Res.bind_eq_ok'] at h
  obtain ⟨a, ha, h⟩ := h
  exact (enlist_keeps ha).trans (shift_keeps h fun hp p hm => fixedChange_le h0 h1 hr best c (hp p hm c))

theorem fold_keeps {f : Sets → ℕ → Res Sets} (hf : ∀ s c s', f s c = .ok s' → Keeps s s') :
    ∀ (cs : List ℕ) (s s' : Sets), Res.foldlM f s cs = .ok s' → Keeps s s' := by
  intro cs
  induction cs with
  | nil => intro s s' h; cases h; exact Keeps.refl s
  | cons c cs ih =>
    intro s s' h
    rw [Res.foldlM_cons, Res.bind_eq_ok] at h
    obtain ⟨u, hu, h⟩ := h
    exact (hf s c u hu).trans (ih u s' h)

end Verif.MmDue

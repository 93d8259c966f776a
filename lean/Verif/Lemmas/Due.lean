import Verif.Model.Due
import Mathlib.Algebra.BigOperators.Group.List.Basic
import Mathlib.Algebra.Order.BigOperators.Group.List
import Mathlib.Tactic.Linarith
import Mathlib.Tactic.Ring
import Mathlib.Tactic.FieldSimp
import Mathlib.Tactic.Positivity

/-! # Lemmas on path flows -/

namespace Verif.Due

theorem add_flow (p : DPath) (c : ℕ) (x : ℚ) (c' : ℕ) :
    (p.add c x).flow c' = p.flow c' + if c' = c then x else 0 := by
  unfold DPath.add
  by_cases h : c' = c
  · subst h; simp [upd]
  · simp [upd, h]

theorem add_links (p : DPath) (c : ℕ) (x : ℚ) : (p.add c x).links = p.links := rfl

theorem isIn_iff {ps : List DPath} {best : List ℤ} : isIn ps best = true ↔ best ∈ ps.map DPath.links := by
  simp [isIn]

theorem addLast_links (best : List ℤ) (c : ℕ) (x : ℚ) (ps : List DPath) :
    (addLast best c x ps).map DPath.links = ps.map DPath.links := by
  induction ps with
  | nil => rfl
  | cons p ps ih =>
    unfold addLast
    split
    · simp [ih]
    · split
      · simp [add_links]
      · rfl

theorem addLast_sum {best : List ℤ} {ps : List DPath} (h : best ∈ ps.map DPath.links) (c : ℕ) (x : ℚ) (c' : ℕ) :
    ((addLast best c x ps).map fun p => p.flow c').sum =
      (ps.map fun p => p.flow c').sum + if c' = c then x else 0 := by
  induction ps with
  | nil => simp at h
  | cons p ps ih =>
    unfold addLast
    by_cases hi : isIn ps best = true
    · rw [if_pos hi]
      rw [List.map_cons, List.sum_cons, ih (isIn_iff.1 hi), List.map_cons, List.sum_cons, add_assoc]
    · rw [if_neg hi]
      have hp : p.links = best := by
        rw [List.map_cons, List.mem_cons] at h
        rcases h with h | h
        · exact h.symm
        · exact absurd (isIn_iff.2 h) hi
      rw [if_pos hp]
      simp only [List.map_cons, List.sum_cons, add_flow]
      ring

theorem addLast_mem {best : List ℤ} {c : ℕ} {x : ℚ} {ps : List DPath} {q : DPath} (h : q ∈ addLast best c x ps) :
    q ∈ ps ∨ ∃ p ∈ ps, p.links = best ∧ q = p.add c x := by
  induction ps with
  | nil => simp [addLast] at h
  | cons p ps ih =>
    unfold addLast at h
    split at h
    · rw [List.mem_cons] at h
      rcases h with rfl | h
      · simp
      · rcases ih h with h | ⟨p', h1, h2, h3⟩
        · simp [h]
        · exact Or.inr ⟨p', by simp [h1], h2, h3⟩
    · split at h
      · rename_i hb
        rw [List.mem_cons] at h
        rcases h with rfl | h
        · exact Or.inr ⟨p, by simp, hb, rfl⟩
        · simp [h]
      · exact Or.inl h

theorem sum_sub (ps : List DPath) (c : ℕ) (f : DPath → ℚ) (c' : ℕ) :
    ((ps.map fun p => p.add c (-f p)).map fun p => p.flow c').sum =
      (ps.map fun p => p.flow c').sum - if c' = c then (ps.map f).sum else 0 := by
  induction ps with
  | nil => simp
  | cons p ps ih =>
    simp only [List.map_cons, List.sum_cons, add_flow]
    rw [ih]
    split <;> ring

theorem map_links_sub (ps : List DPath) (c : ℕ) (f : DPath → ℚ) :
    (ps.map fun p => p.add c (f p)).map DPath.links = ps.map DPath.links := by
  rw [List.map_map]; rfl

/-- What one update of a path set keeps: the flow of every interval, non-negativity, and the paths. -/
def Keeps (ps ps' : List DPath) : Prop :=
  (∀ c, (ps'.map fun p => p.flow c).sum = (ps.map fun p => p.flow c).sum) ∧
  ((∀ p ∈ ps, ∀ c, 0 ≤ p.flow c) → ∀ p ∈ ps', ∀ c, 0 ≤ p.flow c) ∧
  ∃ new, ps'.map DPath.links = ps.map DPath.links ++ new

theorem Keeps.refl (ps : List DPath) : Keeps ps ps := ⟨fun _ => rfl, fun h => h, [], by simp⟩

theorem Keeps.trans {a b c : List DPath} (h1 : Keeps a b) (h2 : Keeps b c) : Keeps a c := by
  obtain ⟨x1, x2, n1, x3⟩ := h1
  obtain ⟨y1, y2, n2, y3⟩ := h2
  exact ⟨fun k => (y1 k).trans (x1 k), fun h => y2 (x2 h), n1 ++ n2, by rw [y3, x3, List.append_assoc]⟩

/-- Adding an empty path. -/
theorem keeps_new (ps : List DPath) (best : List ℤ) (dis : ℕ → ℚ) :
    Keeps ps (if isIn ps best then ps else ps ++ [⟨best, fun _ => 0, dis⟩]) ∧
    best ∈ (if isIn ps best then ps else ps ++ [⟨best, fun _ => 0, dis⟩]).map DPath.links := by
  by_cases h : isIn ps best = true
  · rw [if_pos h]
    exact ⟨Keeps.refl _, isIn_iff.1 h⟩
  · rw [if_neg h]
    refine ⟨⟨fun c => by simp, ?_, [best], by simp⟩, by simp⟩
    intro hp p hm c
    rw [List.mem_append, List.mem_singleton] at hm
    rcases hm with hm | rfl
    · exact hp p hm c
    · exact le_refl _

theorem msaFixedCol_keeps {step root : ℚ} (h0 : 0 ≤ step) (h1 : step ≤ 1) (hr : 1 ≤ root) (best : List ℤ)
    (dis : ℕ → ℚ) (c : ℕ) (ps : List DPath) : Keeps ps (msaFixedCol step root best dis c ps) := by
  unfold msaFixedCol
  obtain ⟨hk, hm⟩ := keeps_new ps best dis
  generalize (if isIn ps best then ps else ps ++ [⟨best, fun _ => 0, dis⟩]) = ps1 at hk hm
  refine hk.trans ⟨?_, ?_, [], ?_⟩
  · intro c'
    simp only
    rw [addLast_sum (by rw [map_links_sub ps1 c fun p => -fixedChange step root best c p]; exact hm), sum_sub]
    split <;> ring
  · intro hp p hpm c'
    simp only at hpm
    have hroot : 0 < root := by linarith
    have hch : ∀ q ∈ ps1, 0 ≤ fixedChange step root best c q ∧ fixedChange step root best c q ≤ q.flow c := by
      intro q hq
      have hf := hp q hq c
      unfold fixedChange
      split
      · exact ⟨le_refl _, hf⟩
      · refine ⟨by positivity, ?_⟩
        rw [div_le_iff₀ hroot]
        nlinarith
    have hsub : ∀ q ∈ ps1.map (fun p => p.add c (-fixedChange step root best c p)), ∀ k, 0 ≤ q.flow k := by
      intro q hq k
      rw [List.mem_map] at hq
      obtain ⟨q0, hq0, rfl⟩ := hq
      rw [add_flow]
      have := hch q0 hq0
      have := hp q0 hq0 k
      split
      · rename_i hk; subst hk; linarith
      · linarith
    rcases addLast_mem hpm with h | ⟨q, hq, _, rfl⟩
    · exact hsub p h c'
    · rw [add_flow]
      have h2 := hsub q hq c'
      have h3 : 0 ≤ (ps1.map (fixedChange step root best c)).sum := by
        apply List.sum_nonneg
        intro x hx
        rw [List.mem_map] at hx
        obtain ⟨y, hy, rfl⟩ := hx
        exact (hch y hy).1
      split <;> linarith
  · simp only
    rw [addLast_links, map_links_sub ps1 c fun p => -fixedChange step root best c p, List.append_nil]

theorem msaFixed_keeps {step root : ℚ} (h0 : 0 ≤ step) (h1 : step ≤ 1) (hr : 1 ≤ root) (best : ℕ → List ℤ)
    (dis : List ℤ → ℕ → ℚ) (T : ℕ) (ps : List DPath) : Keeps ps (msaFixed T step root best dis ps) := by
  unfold msaFixed
  generalize List.range T = cs
  induction cs generalizing ps with
  | nil => exact Keeps.refl _
  | cons c cs ih =>
    rw [List.foldl_cons]
    exact (msaFixedCol_keeps h0 h1 hr _ _ c ps).trans (ih _)

/-- Two tables have the same pairs, related by `R`. -/
def Related (R : List DPath → List DPath → Prop) (t t' : Table) : Prop :=
  ∀ od, match t od, t' od with
    | none, none => True
    | some ps, some ps' => R ps ps'
    | _, _ => False

theorem Related.refl {R : List DPath → List DPath → Prop} (hr : ∀ ps, R ps ps) (t : Table) : Related R t t := by
  intro od
  cases t od with
  | none => trivial
  | some ps => exact hr ps

theorem Related.trans {R : List DPath → List DPath → Prop} (ht : ∀ a b c, R a b → R b c → R a c) {t u v : Table}
    (h1 : Related R t u) (h2 : Related R u v) : Related R t v := by
  intro od
  have a := h1 od
  have b := h2 od
  cases hx : t od <;> cases hy : u od <;> cases hz : v od <;> rw [hx, hy] at a <;> rw [hy, hz] at b <;>
    simp_all
  exact ht _ _ _ a b

theorem updateTable_related {R : List DPath → List DPath → Prop} (hr : ∀ ps, R ps ps)
    (ht : ∀ a b c, R a b → R b c → R a c) {f : ℤ × ℤ → List DPath → List DPath} (hf : ∀ od ps, R ps (f od ps)) :
    ∀ (pairs : List (ℤ × ℤ)) (t t' : Table), updateTable pairs f t = .ok t' → Related R t t' := by
  intro pairs
  induction pairs with
  | nil =>
    intro t t' h
    cases h
    exact Related.refl hr t
  | cons od pairs ih =>
    intro t t' h
    unfold updateTable at h
    rw [Res.foldlM_cons, Res.bind_eq_ok] at h
    obtain ⟨u, hu, h⟩ := h
    have h2 := ih u t' h
    refine Related.trans ht ?_ h2
    cases ho : t od with
    | none => rw [ho] at hu; cases hu
    | some ps =>
      rw [ho] at hu
      cases hu
      intro od'
      by_cases he : od' = od
      · subst he
        rw [ho]
        simp only [upd, if_true]
        exact hf _ _
      · simp only [upd, if_neg he]
        cases t od' with
        | none => trivial
        | some q => exact hr q

/-! ## Departure time choice -/

theorem sum_range_upd (T : ℕ) {bc : ℕ} (hb : bc < T) (x : ℚ) :
    ((List.range T).map fun c => if c = bc then x else 0).sum = x := by
  induction T with
  | zero => omega
  | succ T ih =>
    rw [List.range_succ, List.map_append, List.sum_append]
    by_cases h : bc = T
    · subst h
      have : ((List.range bc).map fun c => if c = bc then x else (0 : ℚ)) = (List.range bc).map fun _ => 0 := by
        apply List.map_congr_left
        intro c hc
        rw [List.mem_range] at hc
        rw [if_neg (by omega)]
      rw [this]
      simp
    · rw [ih (by omega)]
      simp [Ne.symm h]

theorem sum_range_add (T : ℕ) (f g : ℕ → ℚ) :
    ((List.range T).map fun c => f c + g c).sum = ((List.range T).map f).sum + ((List.range T).map g).sum := by
  induction T with
  | zero => simp
  | succ T ih => rw [List.range_succ]; simp only [List.map_append, List.sum_append, ih]; simp; ring

theorem totalDemand_shift {T : ℕ} {ps ps' : List DPath} {bc : ℕ} (hb : bc < T) (x : ℚ)
    (h : ∀ c, demand ps' c = demand ps c + if c = bc then x else 0) :
    totalDemand T ps' = totalDemand T ps + x := by
  unfold totalDemand
  rw [show demand ps' = fun c => demand ps c + if c = bc then x else 0 from funext h, sum_range_add,
    sum_range_upd T hb]

theorem swap_sum (T : ℕ) (f : DPath → ℕ → ℚ) (ps : List DPath) :
    ((List.range T).map fun c => (ps.map fun p => f p c).sum).sum =
      (ps.map fun p => ((List.range T).map (f p)).sum).sum := by
  induction ps with
  | nil => simp
  | cons p ps ih =>
    simp only [List.map_cons, List.sum_cons]
    rw [sum_range_add, ih]

theorem totalDemand_sub (T : ℕ) (ps : List DPath) (f : DPath → ℕ → ℚ) :
    totalDemand T (ps.map fun p => { p with flow := fun c => if c < T then p.flow c - f p c else p.flow c }) =
      totalDemand T ps - (ps.map fun p => ((List.range T).map (f p)).sum).sum := by
  rw [← swap_sum T f ps]
  unfold totalDemand
  have h : ∀ c ∈ List.range T,
      demand (ps.map fun p => { p with flow := fun c => if c < T then p.flow c - f p c else p.flow c }) c =
        demand ps c + -(ps.map fun p => f p c).sum := by
    intro c hc
    rw [List.mem_range] at hc
    unfold demand
    induction ps with
    | nil => simp
    | cons p ps ih =>
      simp only [List.map_cons, List.sum_cons, if_pos hc] at ih ⊢
      rw [ih]
      ring
  rw [List.map_congr_left h, sum_range_add]
  have : ∀ (l : List ℕ) (g : ℕ → ℚ), (l.map fun c => -g c).sum = -(l.map g).sum := by
    intro l g
    induction l with
    | nil => simp
    | cons a l ih => simp only [List.map_cons, List.sum_cons, ih]; ring
  rw [this]
  ring

theorem map_upd_sum (ps : List DPath) (bc : ℕ) (x : ℚ) (c : ℕ) :
    demand (ps.map fun p => p.add bc x) c = demand ps c + if c = bc then (ps.length : ℚ) * x else 0 := by
  unfold demand
  induction ps with
  | nil => simp
  | cons p ps ih =>
    simp only [List.map_cons, List.sum_cons, add_flow, List.length_cons]
    rw [ih]
    push_cast
    split <;> ring

theorem msaDtc_total {T : ℕ} {step : ℚ} {iter : ℕ} {best : List ℤ} {bc : ℕ} {dis : ℕ → ℚ} {ps : List DPath}
    (hb : bc < T) (hne : ps ≠ []) : totalDemand T (msaDtc T step iter best bc dis ps) = totalDemand T ps := by
  unfold msaDtc
  simp only
  by_cases hi : isIn ps best = true
  · rw [if_pos hi]
    rw [totalDemand_shift hb _ (fun c => addLast_sum (by
      rw [List.map_map]
      exact isIn_iff.1 hi) bc _ c), totalDemand_sub]
    ring
  · rw [if_neg hi]
    apply (totalDemand_shift (ps := ps) hb 0 ?_).trans (by ring)
    intro c
    have h1 : ∀ (a : List DPath) (q : DPath), demand (a ++ [q]) c = demand a c + q.flow c := by
      intro a q; simp [demand]
    rw [h1, map_upd_sum]
    have hl : (0 : ℚ) < ps.length := by exact_mod_cast List.length_pos_of_ne_nil hne
    by_cases hc : c = bc
    · subst hc
      simp only [if_true, upd]
      field_simp
      ring
    · simp [hc, upd]

theorem msaDtc_ne {T : ℕ} {step : ℚ} {iter : ℕ} {best : List ℤ} {bc : ℕ} {dis : ℕ → ℚ} {ps : List DPath}
    (hne : ps ≠ []) : msaDtc T step iter best bc dis ps ≠ [] := by
  unfold msaDtc
  simp only
  split
  · intro h
    have := congrArg (List.map DPath.links) h
    rw [addLast_links, List.map_map] at this
    simp at this
    exact hne this
  · simp

theorem msaDtc_nonneg {T : ℕ} {step : ℚ} {iter : ℕ} {best : List ℤ} {bc : ℕ} {dis : ℕ → ℚ} {ps : List DPath}
    (h0 : 0 ≤ step) (hp : ∀ p ∈ ps, ∀ c, 0 ≤ p.flow c)
    (hc : best ∈ ps.map DPath.links ∨ ∀ p ∈ ps, step / (iter + 1) / (ps.length : ℚ) ≤ p.flow bc) :
    ∀ p ∈ msaDtc T step iter best bc dis ps, ∀ c, 0 ≤ p.flow c := by
  have htot : 0 ≤ totalDemand T ps := by
    unfold totalDemand
    apply List.sum_nonneg
    intro x hx
    rw [List.mem_map] at hx
    obtain ⟨c, _, rfl⟩ := hx
    apply List.sum_nonneg
    intro y hy
    rw [List.mem_map] at hy
    obtain ⟨p, hpm, rfl⟩ := hy
    exact hp p hpm c
  unfold msaDtc
  simp only
  generalize totalDemand T ps = tot at htot
  have hch : ∀ p ∈ ps, ∀ c, 0 ≤ dtcChange step iter tot best bc p c ∧
      dtcChange step iter tot best bc p c ≤ p.flow c := by
    intro p hpm c
    have := hp p hpm c
    unfold dtcChange
    split
    · exact ⟨le_min this (by positivity), min_le_left _ _⟩
    · exact ⟨le_refl _, this⟩
  by_cases hi : isIn ps best = true
  · rw [if_pos hi]
    intro p hpm c
    have hsub : ∀ q ∈ ps.map (fun p => ({ p with
        flow := fun c => if c < T then p.flow c - dtcChange step iter tot best bc p c else p.flow c } : DPath)),
        ∀ k, 0 ≤ q.flow k := by
      intro q hq k
      rw [List.mem_map] at hq
      obtain ⟨q0, hq0, rfl⟩ := hq
      have h1 := hch q0 hq0 k
      have h2 := hp q0 hq0 k
      simp only
      split <;> linarith
    rcases addLast_mem hpm with h | ⟨q, hq, _, rfl⟩
    · exact hsub p h c
    · rw [add_flow]
      have h2 := hsub q hq c
      have h3 : 0 ≤ (ps.map fun p => ((List.range T).map (dtcChange step iter tot best bc p)).sum).sum := by
        apply List.sum_nonneg
        intro x hx
        rw [List.mem_map] at hx
        obtain ⟨y, hy, rfl⟩ := hx
        apply List.sum_nonneg
        intro z hz
        rw [List.mem_map] at hz
        obtain ⟨k, _, rfl⟩ := hz
        exact (hch y hy k).1
      split <;> linarith
  · rw [if_neg hi]
    have hc' : ∀ p ∈ ps, step / (iter + 1) / (ps.length : ℚ) ≤ p.flow bc := by
      rcases hc with h | h
      · exact absurd (isIn_iff.2 h) hi
      · exact h
    intro p hpm c
    rw [List.mem_append, List.mem_map, List.mem_singleton] at hpm
    rcases hpm with ⟨q, hq, rfl⟩ | rfl
    · rw [add_flow]
      have h1 := hp q hq c
      have h2 := hc' q hq
      split
      · rename_i hk; subst hk; linarith
      · linarith
    · simp only [upd]
      split
      · positivity
      · exact le_refl _

end Verif.Due

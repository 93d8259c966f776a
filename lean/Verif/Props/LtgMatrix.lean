import Verif.Props.Ltg

/-!
# Matrices of travel time gradients (C103)

`total` is in `Verif.Spec.Ltg`; the gradients themselves are those of C102.
-/

namespace Verif
open Ltg Curve Tt Marg MQuery

variable {V : Type}

theorem ltgMatrix_holds {e : Ltg.Env V} {ins outs : Bool → ℤ → List (ℕ × ℕ)} {f : Bool → ℤ → ℕ} {k : ℤ → MLnk.Link V}
    {q : ℤ → MQuery.Link} {s s1 s2 : Ltg.State} {b : Bool} (h : Ltg.Ready e ins outs f k q s) (hT : e.q.T < 10000)
    (hσ : 0 < e.scalar) (hp : GoodPaths e k) (hreg : e.q.reg.Nodup) (hid : ∀ p ∈ e.paths, 0 ≤ p.1 ∧ p.1 < e.paths.length)
    {ai n : ℕ} (hai : 0 < ai) (hn : e.q.T ≤ ai * n) (thr : ℤ) {starts : List ℕ} (hs : ∀ x ∈ starts, x < e.q.T)
    (hv : ∀ l ∈ e.q.ids, ∀ L, ValidUntil e.q.T (ins false l) (outs false l) L → ValidUntil e.q.T (ins b l) (outs b l) L)
    (h1 : Ltg.build e s = .ok s1) (h2 : Ltg.dissipated e s1 = .ok s2) :
    ∃ recs M, ltg e s2 b thr (starts.map fun x : ℕ => (x : ℤ)) = .ok recs ∧
      ltgMatrix e s2 b ai n thr (starts.map fun x : ℕ => (x : ℤ)) = .ok M ∧
      ∀ i j t u : ℕ, (hi : i < e.q.reg.length) → j < e.paths.length →
        M (i + e.q.reg.length * t) (j + e.paths.length * u) = total ai e.q.reg[i] t j u recs := by
  obtain ⟨s1', s2', g1, g2, g3⟩ := tables_done h
  rw [h1] at g1; cases g1
  rw [h2] at g2; cases g2
  have hprep : ∀ p ∈ e.paths, (∀ l ∈ p.2, ∃ k' q, Prep e s2 b (dataOf k f outs s2 b) (ins b l) l k' q) ∧
      (∀ l, p.2.head? = some l → (dataOf k f outs s2 b).pq l = true) ∧ p.2.length ≤ 10000 := by
    intro p hpp
    obtain ⟨p1, p2, p3⟩ := hp p hpp
    refine ⟨fun l hl => ?_, fun l hl => ?_, p2⟩
    · obtain ⟨_, a2, a3⟩ := g3 b l (p1 l hl)
      have a5 := validUntil_le (hv l (p1 l hl) _ a2)
      obtain ⟨q', a4⟩ := a3 a5.1 a5.2
      exact ⟨_, q', a4⟩
    · obtain ⟨a1, _⟩ := g3 b l (p1 l (List.mem_of_mem_head? hl))
      exact a1.pq.2 (p3 l hl)
  have hai' : (0 : ℤ) < ai := by exact_mod_cast hai
  have e1 := ltg_eq (insOf := ins b) h.steps hT hσ h.scale thr starts hs hprep
  have e2 := collect_eq (em := tripletsFor e.q.reg e.paths.length ai) (em' := tripletsFor' e.q.reg e.paths.length ai)
    (fun p st l a z g => by unfold tripletsFor; rw [if_neg (by omega)]; rfl) "get_complete_truck_ltg_matrix"
    (insOf := ins b) h.steps hT hσ h.scale thr starts hs hprep
  refine ⟨_, fun r c => at' r c ((dataOf k f outs s2 b).all (tripletsFor' e.q.reg e.paths.length ai) e.q.T e.q.unit e.scalar
      thr e.q.reg e.paths starts), e1, ?_, ?_⟩
  · unfold ltgMatrix
    rw [e2, Res.bind_ok']
    unfold fromTriplets
    rw [if_pos]
    · rfl
    rw [List.all_eq_true]
    intro t ht
    rw [decide_eq_true_eq]
    refine all_mem hai' (by exact_mod_cast hn) hid hs (fun p hpp l hl => ?_) t ht
    obtain ⟨_, a2, _⟩ := g3 b l ((hp p hpp).1 l hl)
    exact (validUntil_le (hv l ((hp p hpp).1 l hl) _ a2)).1
  · intro i j t u hi hj
    exact all_at hai' hreg hid hi ⟨by omega, by omega⟩ t u

/-- **C103** Cars: after every loading, if there are enough assignment intervals for the loading, and the paths are
numbered from 0, the complete matrix can be computed for all starts in the loading, and its entry for a registered link
entered in assignment interval `t` and a path started in assignment interval `u` is the sum of the gradients that are
reported one by one for them. -/
theorem C103_cars {e : Ltg.Env V} {ins outs : Bool → ℤ → List (ℕ × ℕ)} {f : Bool → ℤ → ℕ} {k : ℤ → MLnk.Link V}
    {q : ℤ → MQuery.Link} {s s1 s2 : Ltg.State} (h : Ltg.Ready e ins outs f k q s) (hT : e.q.T < 10000)
    (hσ : 0 < e.scalar) (hp : GoodPaths e k) (hreg : e.q.reg.Nodup) (hid : ∀ p ∈ e.paths, 0 ≤ p.1 ∧ p.1 < e.paths.length)
    {ai n : ℕ} (hai : 0 < ai) (hn : e.q.T ≤ ai * n) (thr : ℤ) {starts : List ℕ} (hs : ∀ x ∈ starts, x < e.q.T)
    (h1 : Ltg.build e s = .ok s1) (h2 : Ltg.dissipated e s1 = .ok s2) :
    ∃ recs M, ltg e s2 false thr (starts.map fun x : ℕ => (x : ℤ)) = .ok recs ∧
      ltgMatrix e s2 false ai n thr (starts.map fun x : ℕ => (x : ℤ)) = .ok M ∧
      ∀ i j t u : ℕ, (hi : i < e.q.reg.length) → j < e.paths.length →
        M (i + e.q.reg.length * t) (j + e.paths.length * u) = total ai e.q.reg[i] t j u recs :=
  ltgMatrix_holds h hT hσ hp hreg hid hai hn thr hs (fun _ _ _ h => h) h1 h2

/-- **C103** Trucks (partial: as in C102, the last valid times of cars are those of trucks on every link). -/
theorem C103_trucks_partial {e : Ltg.Env V} {ins outs : Bool → ℤ → List (ℕ × ℕ)} {f : Bool → ℤ → ℕ}
    {k : ℤ → MLnk.Link V} {q : ℤ → MQuery.Link} {s s1 s2 : Ltg.State} (h : Ltg.Ready e ins outs f k q s)
    (hT : e.q.T < 10000) (hσ : 0 < e.scalar) (hp : GoodPaths e k) (hreg : e.q.reg.Nodup)
    (hid : ∀ p ∈ e.paths, 0 ≤ p.1 ∧ p.1 < e.paths.length)
    {ai n : ℕ} (hai : 0 < ai) (hn : e.q.T ≤ ai * n) (thr : ℤ) {starts : List ℕ} (hs : ∀ x ∈ starts, x < e.q.T)
    (hv : ∀ l ∈ e.q.ids, ∀ L, ValidUntil e.q.T (ins false l) (outs false l) L → ValidUntil e.q.T (ins true l) (outs true l) L)
    (h1 : Ltg.build e s = .ok s1) (h2 : Ltg.dissipated e s1 = .ok s2) :
    ∃ recs M, ltg e s2 true thr (starts.map fun x : ℕ => (x : ℤ)) = .ok recs ∧
      ltgMatrix e s2 true ai n thr (starts.map fun x : ℕ => (x : ℤ)) = .ok M ∧
      ∀ i j t u : ℕ, (hi : i < e.q.reg.length) → j < e.paths.length →
        M (i + e.q.reg.length * t) (j + e.paths.length * u) = total ai e.q.reg[i] t j u recs :=
  ltgMatrix_holds h hT hσ hp hreg hid hai hn thr hs hv h1 h2

/-- **C103** A start at or after the end of the loading is refused; the message of the query for cars names the function
for trucks. -/
theorem C103_late {e : Ltg.Env V} {ins outs : Bool → ℤ → List (ℕ × ℕ)} {f : Bool → ℤ → ℕ} {k : ℤ → MLnk.Link V}
    {q : ℤ → MQuery.Link} {s s1 s2 : Ltg.State} {starts : List ℕ} {thr : ℤ} {ai n : ℕ} (hai : 0 < ai)
    (h : Ltg.Ready e ins outs f k q s) (hT : e.q.T < 10000) (hσ : 0 < e.scalar) (hp : GoodPaths e k)
    (hs : ∃ x ∈ starts, e.q.T ≤ x) (hreg : ∃ p ∈ e.paths, ∃ l ∈ e.q.reg, l ∈ p.2) (h1 : Ltg.build e s = .ok s1)
    (h2 : Ltg.dissipated e s1 = .ok s2) :
    ltgMatrix e s2 false ai n thr (starts.map fun x : ℕ => (x : ℤ)) = .throw
      "Error, Mcdta::get_complete_truck_ltg_matrix, input start intervals exceeds the total loading intervals - 1" := by
  unfold ltgMatrix
  rw [collect_late (em' := tripletsFor' e.q.reg e.paths.length ai)
    (fun p st l a z g => by unfold tripletsFor; rw [if_neg (by omega)]; rfl) _ h hT hσ hp hs hreg h1 h2]
  rfl

/-! ## Examples -/

/-- The network of C102 with its path numbered 0. -/
def gyEnv : Ltg.Env ℕ := { gxEnv with paths := [(0, [1, 2])] }

/-- The example meets the hypotheses. -/
theorem gyExample : ∃ m1 m2, Ltg.Ready gyEnv gxIns gxOuts gxF (gxK m1 m2) (gxLink gxIns gxOuts) (gxState gxIns gxOuts) ∧
    GoodPaths gyEnv (gxK m1 m2) ∧ gyEnv.q.reg.Nodup ∧ (∀ p ∈ gyEnv.paths, 0 ≤ p.1 ∧ p.1 < gyEnv.paths.length) ∧
    gyEnv.q.T < 10000 ∧ gyEnv.q.T ≤ 5 * 3 := by
  obtain ⟨m1, m2, h1, h2⟩ := gxExample
  refine ⟨m1, m2, ⟨h1.1, h1.2, h1.3, h1.4, h1.5, h1.6, h1.7, h1.8, h1.9⟩, fun p hp => ?_, by decide, by decide, by decide, by decide⟩
  have : p = (0, [1, 2]) := by simpa [gyEnv] using hp
  subst this
  exact h2 (7, [1, 2]) (by simp [gxEnv])

/-- Cells of the matrix of the example. -/
def gyRun (b : Bool) (ai n : ℤ) (starts : List ℤ) (cells : List (ℤ × ℤ)) : Res (List ℚ) :=
  (Ltg.build gyEnv (gxState gxIns gxOuts)).bind fun s1 => (Ltg.dissipated gyEnv s1).bind fun s2 =>
    (ltgMatrix gyEnv s2 b ai n 1000 starts).bind fun M => .ok (cells.map fun c => M c.1 c.2)

/-- The gradients are those of C102: 5 seconds for the point queue in the intervals 0, 1, 2, and for the other link in the
intervals 4 to 7, the latter twice. -/
example : gyRun false 5 3 [0, 1] [(0, 0), (1, 0), (2, 0), (3, 0), (4, 0), (5, 0)] = .ok [15, 10, 0, 30, 0, 0] := by
  decide +kernel

/-- **C103** The number of assignment intervals is not checked: in the example, one assignment interval of five intervals
is not enough, and the code writes outside the matrix. -/
theorem C103_too_few_intervals : ∃ m1 m2,
    Ltg.Ready gyEnv gxIns gxOuts gxF (gxK m1 m2) (gxLink gxIns gxOuts) (gxState gxIns gxOuts) ∧
    GoodPaths gyEnv (gxK m1 m2) ∧ gyRun false 5 1 [0, 1] [] = .ub := by
  obtain ⟨m1, m2, h1, h2, _⟩ := gyExample
  exact ⟨m1, m2, h1, h2, by decide +kernel⟩

end Verif

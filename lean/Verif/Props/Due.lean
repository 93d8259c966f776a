import Verif.Lemmas.DueGap

/-! # C43-C46, C68: user equilibrium

`ps.map fun p => p.flow c` are the flows of the paths of a set in assignment interval `c`; its sum is the
demand of the interval. -/

namespace Verif
open Due

/-- What one iteration looks at: the value of `sqrt (iter + 1)`, the pairs with demand in the order of the
loops, and the best path found for each pair and interval. -/
structure MsaRound where
  root : ℚ
  pairs : List (ℤ × ℤ)
  best : ℤ × ℤ → ℕ → List ℤ

/-- Any number of iterations with fixed departure times. -/
def msaRounds (T : ℕ) (step : ℚ) (dis : List ℤ → ℕ → ℚ) (rs : List MsaRound) (t : Table) : Res Table :=
  Res.foldlM (fun t r => updateTable r.pairs (fun od => msaFixed T step r.root (r.best od) dis) t) t rs

theorem msaRounds_keeps {T : ℕ} {step : ℚ} {dis : List ℤ → ℕ → ℚ} (h0 : 0 ≤ step) (h1 : step ≤ 1) :
    ∀ (rs : List MsaRound) (t t' : Table), (∀ r ∈ rs, 1 ≤ r.root) → msaRounds T step dis rs t = .ok t' →
      Related Keeps t t' := by
  intro rs
  induction rs with
  | nil => intro t t' _ h; cases h; exact Related.refl Keeps.refl t
  | cons r rs ih =>
    intro t t' hr h
    unfold msaRounds at h
    rw [Res.foldlM_cons, Res.bind_eq_ok] at h
    obtain ⟨u, hu, h⟩ := h
    exact Related.trans (R := Keeps) (fun _ _ _ => Keeps.trans)
      (updateTable_related (R := Keeps) Keeps.refl (fun _ _ _ => Keeps.trans)
        (fun od ps => msaFixed_keeps h0 h1 (hr r (by simp)) (r.best od) dis T ps) _ _ _ hu)
      (ih u t' (fun x hx => hr x (by simp [hx])) h)

/-- C43.  After any number of iterations with fixed departure times, with any best paths, every pair still
has a path set with the old paths first, the same total flow in every interval, and flows that are
non-negative if they were. -/
theorem C43_iterations_conserve (T : ℕ) (step : ℚ) (h0 : 0 ≤ step) (h1 : step ≤ 1) (dis : List ℤ → ℕ → ℚ)
    (rs : List MsaRound) (hr : ∀ r ∈ rs, 1 ≤ r.root) (t t' : Table) (h : msaRounds T step dis rs t = .ok t')
    (od : ℤ × ℤ) (ps : List DPath) (hps : t od = some ps) :
    ∃ ps', t' od = some ps' ∧ (ps.map DPath.links <+: ps'.map DPath.links) ∧
      (∀ c, (ps'.map fun p => p.flow c).sum = (ps.map fun p => p.flow c).sum) ∧
      ((∀ p ∈ ps, ∀ c, 0 ≤ p.flow c) → ∀ p ∈ ps', ∀ c, 0 ≤ p.flow c) := by
  have := msaRounds_keeps h0 h1 rs t t' hr h od
  rw [hps] at this
  cases hps' : t' od with
  | none => rw [hps'] at this; exact this.elim
  | some ps' =>
    rw [hps'] at this
    obtain ⟨a, b, new, c⟩ := this
    exact ⟨ps', rfl, ⟨new, c.symm⟩, a, b⟩

/-- C43, from the start: when the flows start from the demand (`init_path_flow`), after any number of
iterations the flows of every interval are non-negative and sum to the demand. -/
theorem C43_demand_is_served (T : ℕ) (step : ℚ) (h0 : 0 ≤ step) (h1 : step ≤ 1) (dis : List ℤ → ℕ → ℚ)
    (rs : List MsaRound) (hr : ∀ r ∈ rs, 1 ≤ r.root) (dmd : ℤ × ℤ → ℕ → ℚ) (paths : ℤ × ℤ → List (List ℤ))
    (od : ℤ × ℤ) (hne : paths od ≠ []) (hd : ∀ c, 0 ≤ dmd od c) (t t' : Table)
    (ht : t od = some (initFlow (dmd od) dis (paths od))) (h : msaRounds T step dis rs t = .ok t') :
    ∃ ps, t' od = some ps ∧ ∀ c, (∀ p ∈ ps, 0 ≤ p.flow c) ∧ (ps.map fun p => p.flow c).sum = dmd od c := by
  obtain ⟨ps, e1, _, e2, e3⟩ := C43_iterations_conserve T step h0 h1 dis rs hr t t' h od _ ht
  refine ⟨ps, e1, fun c => ⟨fun p hp => e3 ?_ p hp c, ?_⟩⟩
  · intro p hp k
    unfold initFlow at hp
    rw [List.mem_map] at hp
    obtain ⟨l, _, rfl⟩ := hp
    have := hd k
    positivity
  · rw [e2]
    unfold initFlow
    rw [List.map_map]
    have hl : (0 : ℚ) < (paths od).length := by exact_mod_cast List.length_pos_of_ne_nil hne
    have : ∀ (xs : List (List ℤ)) (y : ℚ), (xs.map fun _ => y).sum = (xs.length : ℚ) * y := by
      intro xs y; simp
    show ((paths od).map fun _ => 1 / ((paths od).length : ℚ) * dmd od c).sum = dmd od c
    rw [this]
    field_simp

/-- C43, progress: a path other than the best one keeps exactly the share `1 - step / root` of its flow,
and the best one receives the rest. -/
theorem C43_shares (step root : ℚ) (best : List ℤ) (dis : ℕ → ℚ) (c : ℕ) (ps : List DPath)
    (p : DPath) (hp : p ∈ ps) (hne : p.links ≠ best) :
    ∃ q ∈ msaFixedCol step root best dis c ps, q.links = p.links ∧
      q.flow c = p.flow c * (1 - step / root) ∧ ∀ k, k ≠ c → q.flow k = p.flow k := by
  have hmem : ∀ (qs : List DPath), p.add c (-fixedChange step root best c p) ∈ qs → ∀ x,
      p.add c (-fixedChange step root best c p) ∈ addLast best c x qs := by
    intro qs
    induction qs with
    | nil => intro h; simp at h
    | cons q qs ih =>
      intro h x
      unfold addLast
      rw [List.mem_cons] at h
      split
      · rcases h with h | h
        · simp [h]
        · simp [ih h x]
      · split
        · rename_i hb
          rcases h with h | h
          · rw [← h, add_links] at hb; exact absurd hb hne
          · simp [h]
        · rcases h with h | h
          · simp [h]
          · simp [h]
  refine ⟨p.add c (-fixedChange step root best c p), ?_, rfl, ?_, ?_⟩
  · unfold msaFixedCol
    apply hmem
    rw [List.mem_map]
    refine ⟨p, ?_, rfl⟩
    split
    · exact hp
    · simp [hp]
  · rw [add_flow, if_pos rfl]
    unfold fixedChange
    rw [if_neg hne]
    ring
  · intro k hk
    rw [add_flow, if_neg hk, add_zero]

/-- Two pairs, the first with two paths; three iterations, one with a new path. -/
def exTable : Table := fun od =>
  if od = (1, 9) then some (initFlow (fun c => if c = 0 then 6 else 4) (fun _ _ => 1) [[1, 2], [3]])
  else if od = (2, 9) then some (initFlow (fun _ => 3) (fun _ _ => 1) [[4]])
  else none

def exRounds : List MsaRound :=
  [⟨1, [(1, 9), (2, 9)], fun _ _ => [3]⟩, ⟨7 / 5, [(1, 9)], fun _ c => if c = 0 then [5] else [3]⟩,
   ⟨17 / 10, [(1, 9)], fun _ _ => [1, 2]⟩]

example : ((msaRounds 2 (1 / 2) (fun _ _ => 1) exRounds exTable).bind fun t =>
    match t (1, 9) with
    | none => .ub
    | some ps => .ok (ps.map DPath.links, ((ps.map fun p => p.flow 0).sum, (ps.map fun p => p.flow 1).sum))) =
      .ok ([[1, 2], [3], [5]], (6, 4)) := by decide +kernel

example : (∀ r ∈ exRounds, 1 ≤ r.root) ∧
    ((initFlow (fun c => if c = 0 then 6 else 4) (fun _ _ => 1) [[1, 2], [3]]).map fun p => p.flow 0) =
      [3, 3] := by decide +kernel

/-! ## C44 -/

/-- One iteration with departure time choice: the pairs with demand, the best path and assignment
interval of each. -/
structure DtcRound where
  iter : ℕ
  pairs : List (ℤ × ℤ)
  best : ℤ × ℤ → List ℤ
  col : ℤ × ℤ → ℕ

/-- Any number of iterations with departure time choice. -/
def dtcRounds (T : ℕ) (step : ℚ) (dis : List ℤ → ℕ → ℚ) (rs : List DtcRound) (t : Table) : Res Table :=
  Res.foldlM (fun t r => updateTable r.pairs
    (fun od => msaDtc T step r.iter (r.best od) (r.col od) (dis (r.best od))) t) t rs

/-- C44, conservation: after any number of iterations with departure time choice, every pair with a
non-empty path set has the same total flow over all paths and intervals. -/
theorem C44_total_conserved_partial (T : ℕ) (step : ℚ) (dis : List ℤ → ℕ → ℚ) (rs : List DtcRound)
    (hr : ∀ r ∈ rs, ∀ od, r.col od < T) (t t' : Table) (h : dtcRounds T step dis rs t = .ok t')
    (od : ℤ × ℤ) (ps : List DPath) (hps : t od = some ps) (hne : ps ≠ []) :
    ∃ ps', t' od = some ps' ∧
      ((List.range T).map fun c => (ps'.map fun p => p.flow c).sum).sum =
        ((List.range T).map fun c => (ps.map fun p => p.flow c).sum).sum := by
  have key : ∀ (rs : List DtcRound) (t t' : Table), (∀ r ∈ rs, ∀ od, r.col od < T) →
      dtcRounds T step dis rs t = .ok t' →
      Related (fun a b => a ≠ [] → b ≠ [] ∧ totalDemand T b = totalDemand T a) t t' := by
    intro rs
    have hrefl : ∀ ps : List DPath, (ps ≠ [] → ps ≠ [] ∧ totalDemand T ps = totalDemand T ps) :=
      fun _ h => ⟨h, rfl⟩
    have htr : ∀ a b c : List DPath, (a ≠ [] → b ≠ [] ∧ totalDemand T b = totalDemand T a) →
        (b ≠ [] → c ≠ [] ∧ totalDemand T c = totalDemand T b) →
        (a ≠ [] → c ≠ [] ∧ totalDemand T c = totalDemand T a) := by
      intro a b c h1 h2 ha
      obtain ⟨x, y⟩ := h1 ha
      obtain ⟨z, w⟩ := h2 x
      exact ⟨z, w.trans y⟩
    induction rs with
    | nil => intro t t' _ h; cases h; exact Related.refl hrefl t
    | cons r rs ih =>
      intro t t' hr h
      unfold dtcRounds at h
      rw [Res.foldlM_cons, Res.bind_eq_ok] at h
      obtain ⟨u, hu, h⟩ := h
      exact Related.trans htr
        (updateTable_related hrefl htr
          (fun od ps hne => ⟨msaDtc_ne hne, msaDtc_total (hr r (by simp) od) hne⟩) _ _ _ hu)
        (ih u t' (fun x hx => hr x (by simp [hx])) h)
  have := key rs t t' hr h od
  rw [hps] at this
  cases hps' : t' od with
  | none => rw [hps'] at this; exact this.elim
  | some ps' =>
    rw [hps'] at this
    exact ⟨ps', rfl, (this hne).2⟩

/-- C44, non-negativity, where it holds: if the best path is known already, or if every path has at least
the amount that is taken from it in the best interval. -/
theorem C44_nonneg_partial (T : ℕ) (step : ℚ) (h0 : 0 ≤ step) (iter : ℕ) (best : List ℤ) (bc : ℕ) (dis : ℕ → ℚ)
    (ps : List DPath) (hp : ∀ p ∈ ps, ∀ c, 0 ≤ p.flow c)
    (hc : (∃ p ∈ ps, p.links = best) ∨ ∀ p ∈ ps, step / (iter + 1) / (ps.length : ℚ) ≤ p.flow bc) :
    ∀ p ∈ msaDtc T step iter best bc dis ps, ∀ c, 0 ≤ p.flow c := by
  apply msaDtc_nonneg h0 hp
  rcases hc with ⟨p, h1, h2⟩ | h
  · exact Or.inl (List.mem_map.2 ⟨p, h1, h2⟩)
  · exact Or.inr h

/-- C44 is false when a new path is added: one path with the flows 0 and 1, and a new best path in the
first interval, give the old path a flow of -1. -/
theorem C44_negative_flow :
    ((msaDtc 2 1 0 [7] 0 (fun _ => 0) [⟨[1], fun c => if c = 1 then 1 else 0, fun _ => 0⟩]).map
      fun p => (p.links, p.flow 0, p.flow 1)) = [([1], -1, 1), ([7], 1, 0)] := by
  decide +kernel

example : ((dtcRounds 2 (1 / 2) (fun _ _ => 1) [⟨0, [(1, 9)], fun _ => [3], fun _ => 1⟩,
      ⟨1, [(1, 9), (2, 9)], fun _ => [4], fun _ => 0⟩] exTable).bind fun t =>
    match t (1, 9) with
    | none => .ub
    | some ps => .ok (ps.length, (ps.map fun p => p.flow 0).sum + (ps.map fun p => p.flow 1).sum)) =
      .ok (3, 10) := by decide +kernel

/-! ## C45 -/

/-- C45, where it holds: if the path found is no worse than the paths in use, one gradient projection
step with step size at most one keeps the flow of every interval and non-negativity. -/
theorem C45_conserves_partial (step : ℚ) (h0 : 0 ≤ step) (h1 : step ≤ 1) (best : List ℤ) (dis : ℕ → ℚ) (c : ℕ)
    (ps : List DPath) (hp : ∀ p ∈ ps, ∀ k, 0 ≤ p.flow k) (hd : ∀ p ∈ ps, p.links = best → p.dis c = dis c)
    (hbest : ∀ p ∈ ps, 0 < p.flow c → dis c ≤ p.dis c) :
    (∀ k, ((gpCol step best dis c ps).map fun p => p.flow k).sum = (ps.map fun p => p.flow k).sum) ∧
    ∀ p ∈ gpCol step best dis c ps, ∀ k, 0 ≤ p.flow k :=
  gpCol_keeps h0 h1 hp hd hbest

/-- C45, the direction: under the same conditions no path dearer than the mean of the paths in use gains
flow, and no cheaper one loses any. -/
theorem C45_direction (step : ℚ) (h0 : 0 ≤ step) (best : List ℤ) (dis : ℕ → ℚ) (c : ℕ)
    (ps : List DPath) (hp : ∀ p ∈ ps, ∀ k, 0 ≤ p.flow k) (hin : ∃ p ∈ ps, p.links = best) :
    ∃ μ : ℚ, (gpCol step best dis c ps).length = ps.length ∧
      ∀ i (h : i < ps.length) (h' : i < (gpCol step best dis c ps).length),
      (gpCol step best dis c ps)[i].links = ps[i].links ∧
      (μ ≤ ps[i].dis c → (gpCol step best dis c ps)[i].flow c ≤ ps[i].flow c) ∧
      (ps[i].dis c ≤ μ → ps[i].flow c ≤ (gpCol step best dis c ps)[i].flow c) := by
  have hin' : isIn ps best = true := isIn_iff.2 (by
    obtain ⟨p, h1, h2⟩ := hin; exact List.mem_map.2 ⟨p, h1, h2⟩)
  refine ⟨meanDis best c ps, ?_, ?_⟩
  · unfold gpCol
    simp only [hin', if_true]
    split <;> simp
  · intro i h h'
    have hpf := hp ps[i] (by simp) c
    unfold gpCol
    simp only [hin', if_true]
    split
    · exact ⟨rfl, fun _ => le_refl _, fun _ => le_refl _⟩
    · rename_i hf
      have hf' : (tau step best c ps).2 = true := by simpa using hf
      have a3 := (tau_aux (c := c) (best := best) (x := step * minFlow c ps) (μ := meanDis best c ps)
        ps (dblMax, false)).2.2
      change (tau step best c ps = _ ∨ ∃ ch, 0 < ch ∧ (tau step best c ps).1 = _) at a3
      have hm0 := minFlow_nonneg c ps
      have ht0 : 0 ≤ (tau step best c ps).1 := by
        rcases a3 with a3 | ⟨ch, hch, a3⟩
        · rw [a3] at hf'; simp at hf'
        · rw [a3]; positivity
      simp only [List.getElem_map]
      split
      · refine ⟨rfl, ?_, ?_⟩
        · intro hμ
          rw [add_flow, if_pos rfl]
          have : 0 ≤ min (ps[i].flow c) ((tau step best c ps).1 * (ps[i].dis c - meanDis best c ps)) :=
            le_min hpf (mul_nonneg ht0 (by linarith))
          linarith
        · intro hμ
          rw [add_flow, if_pos rfl]
          have h1 : (tau step best c ps).1 * (ps[i].dis c - meanDis best c ps) ≤ 0 :=
            mul_nonpos_of_nonneg_of_nonpos ht0 (by linarith)
          have := min_le_right (ps[i].flow c) ((tau step best c ps).1 * (ps[i].dis c - meanDis best c ps))
          linarith
      · exact ⟨rfl, fun _ => le_refl _, fun _ => le_refl _⟩

/-- C45 is false when the new path is dearer (the shortest path search minimises cost with tolls, the
disutility leaves tolls out): a demand of 2 becomes a demand of 3. -/
theorem C45_creates_demand :
    ((gpCol 1 [7] (fun _ => 4) 0 [⟨[1], fun _ => 1, fun _ => 1⟩, ⟨[2], fun _ => 1, fun _ => 1⟩]).map
      fun p => (p.links, p.flow 0)) = [([1], 3 / 2), ([2], 3 / 2), ([7], 0)] := by
  decide +kernel

/-- C45 is false for step sizes above one, even when the new path is the best. -/
theorem C45_large_step :
    ((gpCol 4 [7] (fun _ => 1) 0 [⟨[1], fun _ => 1, fun _ => 3⟩, ⟨[2], fun _ => 1, fun _ => 2⟩]).map
      fun p => (p.links, p.flow 0)) = [([1], 0), ([2], 1), ([7], 4)] := by
  decide +kernel

example : ((gpCol (1 / 2) [7] (fun _ => 1) 0
    [⟨[1], fun _ => 2, fun _ => 4⟩, ⟨[2], fun _ => 1, fun _ => 4⟩, ⟨[3], fun _ => 0, fun _ => 0⟩]).map
      fun p => (p.links, p.flow 0)) = [([1], 3 / 2), ([2], 1 / 2), ([3], 0), ([7], 1)] := by
  decide +kernel

/-! ## C46 -/

attribute [local irreducible] dblMax

theorem mem_entries {T : ℕ} {ps : List DPath} {e : ℚ × ℚ} :
    e ∈ entries T ps ↔ ∃ c < T, ∃ p ∈ ps, e = (p.dis c, p.flow c) := by
  simp only [entries, List.mem_flatMap, List.mem_range, List.mem_map]
  constructor
  · rintro ⟨c, hc, p, hp, rfl⟩; exact ⟨c, hc, p, hp, rfl⟩
  · rintro ⟨c, hc, p, hp, rfl⟩; exact ⟨c, hc, p, hp, rfl⟩

/-- C46.  With non-negative flows and disutilities below the largest double, the merit function is
non-negative, and it is zero exactly when every path with positive flow in an interval has the lowest
disutility of its pair over all paths and intervals. -/
theorem C46_gap (T : ℕ) (sets : List (List DPath))
    (hf : ∀ ps ∈ sets, ∀ p ∈ ps, ∀ c < T, 0 ≤ p.flow c) (hd : ∀ ps ∈ sets, ∀ p ∈ ps, ∀ c < T, p.dis c < dblMax) :
    0 ≤ merit T sets ∧
    (merit T sets = 0 ↔ ∀ ps ∈ sets, ∀ p ∈ ps, ∀ c < T, 0 < p.flow c →
      ∀ q ∈ ps, ∀ k < T, p.dis c ≤ q.dis k) := by
  have hb : ∀ ps ∈ sets, ∀ e ∈ entries T ps, e.1 < dblMax ∧ 0 ≤ e.2 := by
    intro ps hps e he
    obtain ⟨c, hc, p, hp, rfl⟩ := mem_entries.1 he
    exact ⟨hd ps hps p hp c hc, hf ps hps p hp c hc⟩
  have hnn : ∀ x ∈ sets.map (fun ps =>
      ((entries T ps).map fun e => (e.1 - lowest ((entries T ps).map Prod.fst)) * e.2).sum), 0 ≤ x := by
    intro x hx
    rw [List.mem_map] at hx
    obtain ⟨ps, hps, rfl⟩ := hx
    exact List.sum_nonneg (gap_term _ (fun e he => (hb ps hps e he).1) fun e he => (hb ps hps e he).2).1
  unfold merit
  refine ⟨List.sum_nonneg hnn, ?_⟩
  rw [sum_eq_zero_of_nonneg _ hnn]
  have hset : ∀ ps ∈ sets,
      (((entries T ps).map fun e => (e.1 - lowest ((entries T ps).map Prod.fst)) * e.2).sum = 0 ↔
        ∀ p ∈ ps, ∀ c < T, 0 < p.flow c → ∀ q ∈ ps, ∀ k < T, p.dis c ≤ q.dis k) := by
    intro ps hps
    rw [(gap_term _ (fun e he => (hb ps hps e he).1) fun e he => (hb ps hps e he).2).2]
    constructor
    · intro h p hp c hc hpos q hq k hk
      exact h (p.dis c, p.flow c) (mem_entries.2 ⟨c, hc, p, hp, rfl⟩) hpos (q.dis k, q.flow k)
        (mem_entries.2 ⟨k, hk, q, hq, rfl⟩)
    · intro h e he hpos e' he'
      obtain ⟨c, hc, p, hp, rfl⟩ := mem_entries.1 he
      obtain ⟨k, hk, q, hq, rfl⟩ := mem_entries.1 he'
      exact h p hp c hc hpos q hq k hk
  constructor
  · intro h ps hps
    exact (hset ps hps).1 (h _ (List.mem_map_of_mem (f := fun ps =>
      ((entries T ps).map fun e => (e.1 - lowest ((entries T ps).map Prod.fst)) * e.2).sum) hps))
  · intro h x hx
    rw [List.mem_map] at hx
    obtain ⟨ps, hps, rfl⟩ := hx
    exact (hset ps hps).2 (h ps hps)

theorem mem_used {c : ℕ} {ps : List DPath} {e : ℚ × ℚ} :
    e ∈ used c ps ↔ ∃ p ∈ ps, 0 < p.flow c ∧ e = (p.dis c, p.flow c) := by
  simp only [used, List.mem_map, List.mem_filter, decide_eq_true_eq]
  constructor
  · rintro ⟨p, ⟨h1, h2⟩, rfl⟩; exact ⟨p, h1, h2, rfl⟩
  · rintro ⟨p, h1, h2, rfl⟩; exact ⟨p, ⟨h1, h2⟩, rfl⟩

theorem sums_zero {T : ℕ} {sets : List (List DPath)} (f : List DPath → ℕ → ℚ)
    (hf : ∀ ps ∈ sets, ∀ c < T, 0 ≤ f ps c) :
    0 ≤ (sets.map fun ps => ((List.range T).map (f ps)).sum).sum ∧
    ((sets.map fun ps => ((List.range T).map (f ps)).sum).sum = 0 ↔ ∀ ps ∈ sets, ∀ c < T, f ps c = 0) := by
  have h1 : ∀ ps ∈ sets, ∀ x ∈ (List.range T).map (f ps), 0 ≤ x := by
    intro ps hps x hx
    rw [List.mem_map] at hx
    obtain ⟨c, hc, rfl⟩ := hx
    exact hf ps hps c (List.mem_range.1 hc)
  have h2 : ∀ x ∈ sets.map (fun ps => ((List.range T).map (f ps)).sum), 0 ≤ x := by
    intro x hx
    rw [List.mem_map] at hx
    obtain ⟨ps, hps, rfl⟩ := hx
    exact List.sum_nonneg (h1 ps hps)
  refine ⟨List.sum_nonneg h2, ?_⟩
  rw [sum_eq_zero_of_nonneg _ h2]
  constructor
  · intro h ps hps c hc
    have := h _ (List.mem_map_of_mem (f := fun ps => ((List.range T).map (f ps)).sum) hps)
    exact (sum_eq_zero_of_nonneg _ (h1 ps hps)).1 this _ (List.mem_map_of_mem (List.mem_range.2 hc))
  · intro h x hx
    rw [List.mem_map] at hx
    obtain ⟨ps, hps, rfl⟩ := hx
    refine (sum_eq_zero_of_nonneg _ (h1 ps hps)).2 fun y hy => ?_
    rw [List.mem_map] at hy
    obtain ⟨c, hc, rfl⟩ := hy
    exact h ps hps c (List.mem_range.1 hc)

/-- Excess over the lowest disutility in use. -/
def excess (c : ℕ) (ps : List DPath) : ℚ :=
  ((used c ps).map fun e => (e.1 - lowest ((used c ps).map Prod.fst)) * e.2).sum

/-- Cost of the flow at the lowest disutility in use. -/
def leastCost (c : ℕ) (ps : List DPath) : ℚ :=
  ((used c ps).map fun e => lowest ((used c ps).map Prod.fst) * e.2).sum

theorem excess_spec {c : ℕ} {ps : List DPath} (hd : ∀ p ∈ ps, 0 < p.dis c ∧ p.dis c < dblMax) :
    0 ≤ excess c ps ∧
    (excess c ps = 0 ↔ ∀ p ∈ ps, ∀ q ∈ ps, 0 < p.flow c → 0 < q.flow c → p.dis c ≤ q.dis c) := by
  have hb : ∀ e ∈ used c ps, (0 < e.1 ∧ e.1 < dblMax) ∧ 0 < e.2 := by
    intro e he
    obtain ⟨p, hp, h2, rfl⟩ := mem_used.1 he
    exact ⟨hd p hp, h2⟩
  obtain ⟨g1, g2⟩ := gap_term (used c ps) (fun e he => (hb e he).1.2) fun e he => (hb e he).2.le
  refine ⟨List.sum_nonneg g1, ?_⟩
  unfold excess
  rw [g2]
  constructor
  · intro h p hp q hq h1 h2
    exact h _ (mem_used.2 ⟨p, hp, h1, rfl⟩) h1 _ (mem_used.2 ⟨q, hq, h2, rfl⟩)
  · intro h e he _ e' he'
    obtain ⟨p, hp, h1, rfl⟩ := mem_used.1 he
    obtain ⟨q, hq, h2, rfl⟩ := mem_used.1 he'
    exact h p hp q hq h1 h2

theorem leastCost_spec {c : ℕ} {ps : List DPath} (hd : ∀ p ∈ ps, 0 < p.dis c ∧ p.dis c < dblMax) :
    0 ≤ leastCost c ps ∧ (used c ps ≠ [] → 0 < leastCost c ps) := by
  have hb : ∀ e ∈ used c ps, (0 < e.1 ∧ e.1 < dblMax) ∧ 0 < e.2 := by
    intro e he
    obtain ⟨p, hp, h2, rfl⟩ := mem_used.1 he
    exact ⟨hd p hp, h2⟩
  have hlow : ∀ e ∈ used c ps, 0 < lowest ((used c ps).map Prod.fst) * e.2 := by
    intro e he
    have hl := (lowest_spec ((used c ps).map Prod.fst) (by
      intro x hx; rw [List.mem_map] at hx; obtain ⟨e, he, rfl⟩ := hx; exact (hb e he).1.2)
      (List.ne_nil_of_mem (List.mem_map_of_mem he))).1
    rw [List.mem_map] at hl
    obtain ⟨e', he', hl⟩ := hl
    rw [← hl]
    exact mul_pos (hb e' he').1.1 (hb e he).2
  have hall : ∀ x ∈ (used c ps).map (fun e => lowest ((used c ps).map Prod.fst) * e.2), 0 < x := by
    intro x hx
    rw [List.mem_map] at hx
    obtain ⟨e, he, rfl⟩ := hx
    exact hlow e he
  exact ⟨List.sum_nonneg fun x hx => (hall x hx).le,
    fun hne => List.sum_pos _ hall (by simpa using hne)⟩

theorem meritFixed_eq (T : ℕ) (sets : List (List DPath)) : meritFixed T sets =
    if (sets.map fun ps => ((List.range T).map fun c => leastCost c ps).sum).sum = 0 then none
    else some ((sets.map fun ps => ((List.range T).map fun c => excess c ps).sum).sum /
      (sets.map fun ps => ((List.range T).map fun c => leastCost c ps).sum).sum) := rfl

/-- C46, fixed departure times: with positive disutilities the relative gap is a number as soon as some
path has flow, is non-negative, and is zero exactly when in every interval the paths in use have equal
disutility.  (Unused paths are not looked at, see `C46_fixed_gap_ignores_unused`.) -/
theorem C46_fixed_gap_partial (T : ℕ) (sets : List (List DPath))
    (hd : ∀ ps ∈ sets, ∀ p ∈ ps, ∀ c < T, 0 < p.dis c ∧ p.dis c < dblMax)
    (hs : ∃ ps ∈ sets, ∃ p ∈ ps, ∃ c < T, 0 < p.flow c) :
    ∃ g, meritFixed T sets = some g ∧ 0 ≤ g ∧
      (g = 0 ↔ ∀ ps ∈ sets, ∀ c < T, ∀ p ∈ ps, ∀ q ∈ ps, 0 < p.flow c → 0 < q.flow c → p.dis c ≤ q.dis c) := by
  obtain ⟨gap0, gapz⟩ := sums_zero (T := T) (sets := sets) (fun ps c => excess c ps)
    fun ps hps c hc => (excess_spec fun p hp => hd ps hps p hp c hc).1
  obtain ⟨cost0, costz⟩ := sums_zero (T := T) (sets := sets) (fun ps c => leastCost c ps)
    fun ps hps c hc => (leastCost_spec fun p hp => hd ps hps p hp c hc).1
  have hpos : (sets.map fun ps => ((List.range T).map fun c => leastCost c ps).sum).sum ≠ 0 := by
    obtain ⟨ps, hps, p, hp, c, hc, hflow⟩ := hs
    intro he
    have h1 := costz.1 he ps hps c hc
    have h2 := (leastCost_spec fun p hp => hd ps hps p hp c hc).2
      (List.ne_nil_of_mem (mem_used.2 ⟨p, hp, hflow, rfl⟩))
    exact h2.ne' h1
  rw [meritFixed_eq, if_neg hpos]
  refine ⟨_, rfl, div_nonneg gap0 cost0, ?_⟩
  rw [div_eq_zero_iff, or_iff_left hpos, gapz]
  constructor
  · intro h ps hps c hc
    exact (excess_spec fun p hp => hd ps hps p hp c hc).2.1 (h ps hps c hc)
  · intro h ps hps c hc
    exact (excess_spec fun p hp => hd ps hps p hp c hc).2.2 (h ps hps c hc)

/-- C46, fixed departure times: the gap is zero although an unused path is better. -/
theorem C46_fixed_gap_ignores_unused :
    meritFixed 1 [[⟨[1], fun _ => 1, fun _ => 5⟩, ⟨[2], fun _ => 0, fun _ => 1⟩]] = some 0 := by
  decide +kernel

/-- C46, fixed departure times: without flow the gap is not a number. -/
theorem C46_fixed_gap_undefined :
    meritFixed 1 [[⟨[1], fun _ => 0, fun _ => 5⟩]] = none := by
  decide +kernel

attribute [local semireducible] dblMax in
example : merit 2 [[⟨[1], fun c => c, fun c => 5 - c⟩, ⟨[2], fun _ => 1, fun _ => 7⟩]] = 6 := by decide +kernel
attribute [local semireducible] dblMax in
example : merit 2 [[⟨[1], fun c => c, fun c => 5 - c⟩, ⟨[2], fun c => c, fun _ => 4⟩]] = 0 := by decide +kernel

/-! ## C68 -/

/-- What a traveller leaving at `depart` and travelling for `tt` feels: the value of the time spent,
and a penalty for every interval by which they arrive before or after the target. -/
def feltCost (u : Prefs) (depart tt : ℚ) : ℚ :=
  u.vot * tt + u.early * max 0 (u.target - (depart + tt)) + u.late * max 0 (depart + tt - u.target)

theorem disutility_felt (u : Prefs) (depart tt : ℚ) : disutility u depart tt = feltCost u depart tt := by
  unfold disutility feltCost
  split
  · rename_i h
    rw [max_eq_left (by linarith), max_eq_right (by linarith)]; ring
  · rename_i h
    rw [max_eq_right (by linarith), max_eq_left (by linarith)]; ring

/-- C68, as far as it holds: the departure interval chosen is the first one at which the cost felt, with
the tree's distance taken as travel time, is lowest; no interval is chosen only when no such cost is
below the largest double. -/
theorem C68_best_departure_partial (u : Prefs) (dist : ℕ → Option ℚ) (n : ℕ) :
    (∃ i x, i < n ∧ dist i = some x ∧ bestTime u dist n = (feltCost u i x, (i : ℤ)) ∧
      (∀ j y, j < n → dist j = some y → feltCost u i x ≤ feltCost u j y) ∧
      ∀ j y, j < i → dist j = some y → feltCost u i x < feltCost u j y) ∨
    (bestTime u dist n).2 = -1 ∧ ∀ j y, j < n → dist j = some y → dblMax ≤ feltCost u j y := by
  simp only [← disutility_felt]
  obtain ⟨h1, h2⟩ := bestTime_spec u dist n
  rcases h2 with h2 | ⟨i, x, hi, hx, he, _, h2⟩
  · right
    rw [h2] at h1 ⊢
    exact ⟨rfl, fun j y hj hy => h1 j hj y hy⟩
  · left
    rw [he] at h1 h2
    exact ⟨i, x, hi, hx, he, fun j y hj hy => h1 j hj y hy, fun j y hj hy => h2 j hj y hy⟩

attribute [local semireducible] dblMax in
example : bestTime ⟨1, 2, 3, 10⟩ (fun i => if i = 1 then none else some (8 - i)) 4 = (9, 3) := by
  decide +kernel

/-- C68, the assignment interval of a chosen departure always exists, and it is the one containing the
departure, or the last one for later departures. -/
theorem C68_departure_column (T freq t : ℕ) (hT : 0 < T) (hf : 0 < freq) :
    0 ≤ assignCol T freq t ∧ assignCol T freq t < T ∧
    (t < T * freq → assignCol T freq t * freq ≤ t ∧ (t : ℤ) < (assignCol T freq t + 1) * freq) ∧
    (T * freq ≤ t → assignCol T freq t = (T : ℤ) - 1) := by
  have e : assignCol T freq t = ((min (t / freq) (T - 1) : ℕ) : ℤ) := by
    unfold assignCol
    rw [Int.tdiv_eq_ediv_of_nonneg (by omega), ← Int.natCast_ediv]
    generalize t / freq = q
    split <;> omega
  rw [e]
  refine ⟨Int.natCast_nonneg _, ?_, fun h => ?_, fun h => ?_⟩
  · have : min (t / freq) (T - 1) ≤ T - 1 := min_le_right _ _
    generalize min (t / freq) (T - 1) = q at this
    omega
  · have h1 : t / freq < T := (Nat.div_lt_iff_lt_mul hf).2 h
    rw [min_eq_left (by omega)]
    have h2 := Nat.div_mul_le_self t freq
    have h3 := Nat.lt_div_mul_add (a := t) hf
    constructor
    · exact_mod_cast h2
    · have : t < (t / freq + 1) * freq := by rw [Nat.add_mul, Nat.one_mul]; exact h3
      exact_mod_cast this
  · have h1 : T ≤ t / freq := (Nat.le_div_iff_mul_le hf).2 h
    rw [min_eq_right (by omega)]; omega

example : assignCol 3 180 359 = 1 ∧ assignCol 3 180 540 = 2 := by decide +kernel

/-- C68 is false: the distances of the tree are costs (value of time times travel time plus toll), not
travel times.  With a value of time of 1/10 per interval and travel times 20 and 10, the code picks
departure 1, where the traveller arrives at 11, 9 early (disutility 10), although departure 0 arrives
exactly on time at 20 (disutility 2). -/
theorem C68_cost_taken_for_time :
    (bestTime ⟨1 / 10, 1, 1, 20⟩ (fun i => some (1 / 10 * if i = 0 then 20 else 10)) 2).2 = 1 ∧
    feltCost ⟨1 / 10, 1, 1, 20⟩ 0 20 = 2 ∧ feltCost ⟨1 / 10, 1, 1, 20⟩ 1 10 = 10 := by
  decide +kernel

end Verif

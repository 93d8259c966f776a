import Verif.Lemmas.NodeEnds

/-! # Property theorems: nodes (C22-C27, C58-C60)

`s` is the state before and `s'` the state after one interval of a node.  `s.waiting i o` are the
vehicles waiting at the exit of link `i` for link `o`, `s.inc o` the entrance queue of `o`. -/

namespace Verif
open Ults Curve Lnk Net

namespace NodeEx

/-- A point-queue link with the given capacity (per interval) and queues. -/
def pq (cap : ℚ) (inc fin : List ℕ) : LinkSt :=
  ⟨.pq ⟨1, 1, 1, 1, cap, 1, 1, 1, [], 0, inc, fin⟩, some install, some install⟩

/-- A vehicle bound for link `o`. -/
def veh (o : Option ℕ) : Veh := ⟨0, -1, false, 0, 0, none, o, none, 0, 0⟩

/-- Links 0 and 1 lead into a node, links 2 and 3 leave it.  Vehicles 1, 2, 3 wait on link 0 and 4,
5 on link 1; vehicle 2 is bound for link 3, the others for link 2. -/
def st : State :=
  { State.init (fun l => if l = 0 then pq 5 [] [1, 2, 3] else if l = 1 then pq 5 [] [4, 5]
      else if l = 2 then pq 3 [9] [] else pq 5 [] []) with
    vehs := fun v => veh (if v = 2 then some 3 else some 2) }

/-- Draws: never round up, take back first from in link 1, serve in link 1 first. -/
def orc : NodeOracle := ⟨fun _ _ => 1 / 2, fun _ => [1, 1, 0, 1], fun _ => [1, 0]⟩

theorem orc_order (k : ℕ) : (orc.order k).Perm (List.range [0, 1].length) := by
  show [1, 0].Perm [0, 1]; decide

end NodeEx

/-! ## C22 -/

/-- C22, every node, every demand column with non-negative entries and every non-negative supply:
the flows of a forward junction are non-negative, no flow exceeds its demand, the flows into an
exit add up to the smaller of total demand and supply, and they share it in proportion to the
demands. -/
theorem C22_fwj_flows (scalar : ℚ) (s : State) (ins : List ℕ) (cols : List (List ℚ × ℚ))
    (hd : ∀ c ∈ cols, (∀ x ∈ c.1, 0 ≤ x) ∧ 0 ≤ c.2) :
    ∃ flows, computeFlow scalar false s ins cols = .ok flows ∧ flows.length = cols.length ∧
      ∀ (j : ℕ) c f, cols[j]? = some c → flows[j]? = some f →
        f.length = c.1.length ∧ f.sum = min c.1.sum c.2 ∧
        ∀ (i : ℕ) x d, f[i]? = some x → c.1[i]? = some d →
          0 ≤ x ∧ x ≤ d ∧ x * c.1.sum = d * min c.1.sum c.2 := by
  refine ⟨_, rfl, by simp, ?_⟩
  intro j c f hc hf
  simp only [List.getElem?_map, hc, Option.map_some, Option.some.injEq] at hf
  subst hf
  obtain ⟨hd1, hd2⟩ := hd c (List.mem_of_getElem? hc)
  obtain ⟨h1, h2, h3⟩ := fwjCol_spec c.1 c.2 hd1 hd2
  refine ⟨h1, h3, ?_⟩
  intro i x d hx hd'
  obtain ⟨a, b⟩ := h2 i x d hx hd'
  refine ⟨a, b, ?_⟩
  have hD : 0 ≤ c.1.sum := List.sum_nonneg hd1
  have hd0 := hd1 d (List.mem_of_getElem? hd')
  simp only [fwjCol, List.getElem?_map, hd', Option.map_some, Option.some.injEq] at hx
  subst hx
  rw [min_mul_of_nonneg _ _ hD, mul_min_of_nonneg _ _ hd0]
  congr 1
  unfold divide
  by_cases h0 : d = 0
  · simp [h0]
  · have hs : c.1.sum ≠ 0 := by
      intro e
      have := List.single_le_sum hd1 d (List.mem_of_getElem? hd')
      rw [e] at this
      exact h0 (le_antisymm this hd0)
    rw [if_neg h0, if_neg hs]
    field_simp

example : computeFlow 1 false NodeEx.st [0, 1] [([2, 2], 3), ([1, 0], 5)]
    = .ok [[3 / 2, 3 / 2], [1, 0]] := by decide +kernel

/-- C22 for what the node computes from the vehicles waiting at its entrances: whenever a forward
junction has computed its flows, the total sent towards an exit is the smaller of the number of
vehicles waiting for it (in flow units) and its supply. -/
theorem C22_fwj_total (scalar : ℚ) (hsc : 0 < scalar) (s : State) (ins outs : List ℕ)
    (sups : List ℚ) (h : supplies s outs = .ok sups) (hpos : ∀ x ∈ sups, 0 ≤ x) :
    ∃ flows, computeFlow scalar false s ins ((outs.map (demandCol scalar s ins)).zip sups)
        = .ok flows ∧
      ∀ (j o : ℕ) f sup, outs[j]? = some o → flows[j]? = some f → sups[j]? = some sup →
        (s.links o).link.supply = .ok sup ∧
        f.sum = min ((((ins.map fun i => (s.waiting i o).length).sum : ℕ) : ℚ) / scalar) sup := by
  refine ⟨_, rfl, ?_⟩
  intro j o f sup ho hf hsup
  obtain ⟨_, hs'⟩ := supplies_get h
  obtain ⟨x, hx1, hx2⟩ := hs' j o ho
  rw [hsup] at hx1
  cases hx1
  refine ⟨hx2, ?_⟩
  rw [List.getElem?_map, zip_get? (a := demandCol scalar s ins o) (b := sup) (by simp [ho]) hsup] at hf
  simp only [Option.map_some, Option.some.injEq] at hf
  subst hf
  rw [(fwjCol_spec _ sup (demandCol_nonneg hsc s ins o) (hpos sup (List.mem_of_getElem? hsup))).2.2,
    demandCol_sum]

example : supplies NodeEx.st [2, 3] = .ok [3, 5] := by decide +kernel

/-- C22, general junction: an exit without supply gets no flow. -/
theorem C22_grj_no_supply (scalar : ℚ) (s : State) (ins : List ℕ) (cols : List (List ℚ × ℚ))
    (flows : List (List ℚ)) (h : computeFlow scalar true s ins cols = .ok flows) (j : ℕ) (d f : List ℚ)
    (hc : cols[j]? = some (d, 0)) (hf : flows[j]? = some f) : ∀ x ∈ f, x = 0 := by
  have hz : ∀ x : ℚ, divide x 0 = 0 := fun x => by unfold divide; split <;> rfl
  unfold computeFlow at h
  rw [if_pos rfl] at h
  split at h
  · cases h
    simp only [List.getElem?_map, hc, Option.map_some, Option.some.injEq] at hf
    subst hf
    simp
  · rw [Res.bind_eq_ok'] at h
    obtain ⟨p, _, h⟩ := h
    unfold grjFlow at h
    split at h
    · cases h
      simp only [List.getElem?_map, hc, Option.map_some, Option.some.injEq] at hf
      subst hf
      simp
    · rw [Res.bind_eq_ok'] at h
      obtain ⟨θ, _, h⟩ := h
      cases θ with
      | fin t =>
        cases h
        simp only [List.getElem?_map, hc, Option.map_some, Option.some.injEq] at hf
        subst hf
        intro x hx
        rw [List.mem_map] at hx
        obtain ⟨q, _, rfl⟩ := hx
        rw [hz, mul_zero]
      | pinf => cases h
      | ninf => cases h
      | nan => cases h

example : computeFlow 1 true NodeEx.st [0, 1] [([2, 2], 0), ([1, 0], 5)]
    = .ok [[0, 0], [3 / 5, 0]] := by decide +kernel

/-! ## C23 -/

/-- C23, the rounding step for every matrix of non-negative flows: the number into each exit never
exceeds its supply (in vehicles), equals the rounded total or the supply rounded down, whichever is
less, and no entry is negative or exceeds its flow rounded up. -/
theorem C23_round_flow_partial (scalar : ℚ) (hsc : 0 < scalar) (orc : NodeOracle)
    (cols : List (List ℚ × ℚ)) (hf : ∀ c ∈ cols, ∀ x ∈ c.1, 0 ≤ x) (mv : List (List ℤ))
    (h : roundFlow scalar orc 0 cols = .ok mv) :
    mv.length = cols.length ∧ ∀ (j : ℕ) f sup, cols[j]? = some (f, sup) → ∃ m, mv[j]? = some m ∧
      m.length = f.length ∧ (m.sum : ℚ) ≤ sup * scalar ∧
      m.sum = min (f.mapIdx fun i x => roundVal (x * scalar) (orc.u j i)).sum ⌊sup * scalar⌋ ∧
      ∀ (i : ℕ) x n, f[i]? = some x → m[i]? = some n →
        0 ≤ n ∧ n ≤ roundVal (x * scalar) (orc.u j i) ∧ n ≤ ⌊x * scalar⌋ + 1 := by
  obtain ⟨h1, h2⟩ := roundFlow_get h
  refine ⟨h1, ?_⟩
  intro j f sup hc
  obtain ⟨r, m, e1, e2, e3⟩ := h2 j f sup hc
  rw [Nat.zero_add] at e2 e3
  obtain ⟨r1, r2⟩ := roundCol_get e2
  have hf' := hf _ (List.mem_of_getElem? hc)
  have hr : r = f.mapIdx fun i x => roundVal (x * scalar) (orc.u j i) := by
    apply List.ext_getElem?
    intro i
    rw [List.getElem?_mapIdx]
    cases hi : f[i]? with
    | none =>
      have : r.length ≤ i := by rw [r1]; exact List.getElem?_eq_none_iff.1 hi
      simp [List.getElem?_eq_none_iff.2 this]
    | some x => rw [r2 i x hi]; simp
  have hnn : ∀ x ∈ r, 0 ≤ x := by
    intro x hx
    rw [hr] at hx
    obtain ⟨i, hi, rfl⟩ := List.mem_mapIdx.1 hx
    exact roundVal_natCast_nonneg (mul_nonneg (hf' _ (List.getElem_mem hi)) hsc.le)
  obtain ⟨q1, q2, q3⟩ := reduceLoop_spec e3 rfl hnn
  refine ⟨m, e1, by rw [q1, r1], (reduceLoop_le e3 rfl).2, by rw [q3, hr], ?_⟩
  intro i x n hx hn
  have a := q2 i
  rw [getD_of_get? hn, getD_of_get? (r2 i x hx), Nat.zero_add] at a
  refine ⟨a.1, a.2, le_trans a.2 (roundVal_bounds (mul_nonneg (hf' x ?_) hsc.le)).2⟩
  exact List.mem_of_getElem? hx

example : roundFlow 1 NodeEx.orc 0 [([7 / 4, 7 / 4], 3), ([1, 0], 5)] = .ok [[2, 1], [1, 0]] := by
  decide +kernel

/-- C23, termination: when every supply is non-negative and every entrance keeps being drawn, the
loop that takes vehicles back ends: after finitely many draws the step has returned normally
(numbers outside the `int` range excepted). -/
theorem C23_terminates (scalar : ℚ) (hsc : 0 < scalar) (u : ℕ → ℕ → ℚ) (order : ℕ → List ℕ)
    (rnd : ℕ → ℕ → ℕ) (cols : List (List ℚ × ℚ))
    (hf : ∀ c ∈ cols, (∀ x ∈ c.1, 0 ≤ x ∧ x * scalar < 2147483647) ∧ 0 ≤ c.2)
    (hfair : ∀ (j : ℕ) c, cols[j]? = some c → ∀ i, i < c.1.length → ∀ N, ∃ k, N ≤ k ∧
      rnd j k % c.1.length = i) :
    ∃ N mv, ∀ M, N ≤ M →
      roundFlow scalar ⟨u, fun j => (List.range M).map (rnd j), order⟩ 0 cols = .ok mv := by
  have hround : ∀ (f : List ℚ) (w : ℕ → ℚ) (i : ℕ), (∀ x ∈ f, 0 ≤ x ∧ x * scalar < 2147483647) →
      ∃ r, roundCol scalar w i f = .ok r ∧ ∀ m ∈ r, 0 ≤ m := by
    intro f
    induction f with
    | nil => intro w i _; exact ⟨[], rfl, by simp⟩
    | cons x f ih =>
      intro w i hx
      obtain ⟨hx0, hx1⟩ := hx x (by simp)
      obtain ⟨r, hr, hr0⟩ := ih w (i + 1) (fun y hy => hx y (by simp [hy]))
      have hnn : 0 ≤ x * scalar := mul_nonneg hx0 hsc.le
      refine ⟨roundVal (x * scalar) (w i) :: r, ?_, ?_⟩
      · simp only [roundCol]
        rw [round_nonneg_ok hnn hx1, Res.bind_ok', hr]
        rfl
      · intro m hm
        rcases List.mem_cons.1 hm with rfl | hm
        · exact roundVal_natCast_nonneg hnn
        · exact hr0 m hm
  suffices H : ∀ (cols : List (List ℚ × ℚ)) (j0 : ℕ),
      (∀ c ∈ cols, (∀ x ∈ c.1, 0 ≤ x ∧ x * scalar < 2147483647) ∧ 0 ≤ c.2) →
      (∀ (j : ℕ) c, cols[j]? = some c → ∀ i, i < c.1.length → ∀ N, ∃ k, N ≤ k ∧
        rnd (j0 + j) k % c.1.length = i) →
      ∃ N mv, ∀ M, N ≤ M →
        roundFlow scalar ⟨u, fun j => (List.range M).map (rnd j), order⟩ j0 cols = .ok mv by
    exact H cols 0 hf (by simpa using hfair)
  intro cols
  induction cols with
  | nil => intro j0 _ _; exact ⟨0, [], fun _ _ => rfl⟩
  | cons c cols ih =>
    intro j0 hf hfair
    obtain ⟨f, sup⟩ := c
    obtain ⟨hf1, hf2⟩ := hf (f, sup) (by simp)
    obtain ⟨r, hr, hr0⟩ := hround f (u j0) 0 hf1
    have hlen : r.length = f.length := (roundCol_get hr).1
    obtain ⟨N1, m, hN1⟩ := reduceLoop_terminates (sup := sup * scalar) (mul_nonneg hf2 hsc.le)
      r.sum.toNat (rnd j0) r r.sum rfl hr0 (Int.self_le_toNat _) (by
        intro i hi N
        have := hfair 0 (f, sup) (by simp) i (by rw [← hlen]; exact hi) N
        simpa [hlen] using this)
    obtain ⟨N2, rest, hN2⟩ := ih (j0 + 1) (fun c hc => hf c (by simp [hc])) (by
      intro j c hc i hi N
      have := hfair (j + 1) c (by simpa using hc) i hi N
      have e : j0 + 1 + j = j0 + (j + 1) := by omega
      rw [e]; exact this)
    refine ⟨max N1 N2, m :: rest, ?_⟩
    intro M hM
    simp only [roundFlow]
    rw [hr, Res.bind_ok']
    have hsplit : (List.range M).map (rnd j0)
        = (List.range N1).map (rnd j0) ++ (List.range (M - N1)).map fun k => rnd j0 (N1 + k) := by
      have : M = N1 + (M - N1) := by omega
      conv_lhs => rw [this, List.range_add]
      simp only [List.map_append, List.map_map]
      rfl
    rw [hsplit, reduceLoop_prefix _ _ hN1, Res.bind_ok', hN2 M (by omega)]
    rfl

example : (∀ c ∈ [([(7 / 4 : ℚ), 7 / 4], (3 : ℚ))],
      (∀ x ∈ c.1, 0 ≤ x ∧ x * 1 < 2147483647) ∧ 0 ≤ c.2) ∧
    ∀ (j : ℕ) c, [([(7 / 4 : ℚ), 7 / 4], (3 : ℚ))][j]? = some c → ∀ i, i < c.1.length → ∀ N, ∃ k,
      N ≤ k ∧ (fun _ k => k : ℕ → ℕ → ℕ) j k % c.1.length = i := by
  refine ⟨by intro c hc; simp at hc; subst hc; norm_num, ?_⟩
  intro j c hc i hi N
  refine ⟨N * c.1.length + i, by
    have : 0 < c.1.length := by omega
    nlinarith, ?_⟩
  simp [Nat.mod_eq_of_lt hi]

/-- C23 fails when an exit reports a negative supply: whatever is drawn, and however long, the loop
never ends. -/
theorem C23_negative_supply_never_ends (scalar sup : ℚ) (hsc : 0 < scalar) (hsup : sup < 0)
    (orc : NodeOracle) (f : List ℚ) (hf : f ≠ []) (h0 : ∀ x ∈ f, x = 0)
    (rest : List (List ℚ × ℚ)) : roundFlow scalar orc 0 ((f, sup) :: rest) = .diverge := by
  have hround : ∀ (f : List ℚ) (w : ℕ → ℚ) (i : ℕ), (∀ x ∈ f, x = 0) →
      ∃ r, roundCol scalar w i f = .ok r ∧ r.length = f.length ∧ ∀ m ∈ r, 0 ≤ m := by
    intro f
    induction f with
    | nil => intro w i _; exact ⟨[], rfl, rfl, by simp⟩
    | cons x f ih =>
      intro w i hx
      obtain ⟨r, hr, hl, hr0⟩ := ih w (i + 1) (fun y hy => hx y (by simp [hy]))
      have hx0 := hx x (by simp)
      subst hx0
      refine ⟨roundVal (0 * scalar) (w i) :: r, ?_, by simp [hl], ?_⟩
      · simp only [roundCol]
        rw [round_nonneg_ok (by simp) (by norm_num), Res.bind_ok', hr]
        rfl
      · intro m hm
        rcases List.mem_cons.1 hm with rfl | hm
        · exact roundVal_natCast_nonneg (by simp)
        · exact hr0 m hm
  obtain ⟨r, hr, hl, hr0⟩ := hround f (orc.u 0) 0 h0
  simp only [roundFlow]
  rw [hr, Res.bind_ok', reduceLoop_negative (mul_neg_of_neg_of_pos hsup hsc) _ r r.sum rfl hr0
    (by intro e; rw [e] at hl; exact hf (List.length_eq_zero_iff.1 hl.symm))]
  rfl

deriving instance DecidableEq for Lq

/-- Such a supply occurs: a short link-queue link made by the factory accepts 25 vehicles in its
first interval (its reported supply) although only 10 fit, and then reports a negative supply. -/
theorem C23_negative_supply_reachable :
    ∃ l l', Lq.mk' (V := ℕ) (1 / 5) (1 / 2) 1 5 10 5 10 = .ok l ∧
      ((List.range 25).length : ℚ) ≤ l.supply * 10 ∧
      Lq.clear { l with incoming := List.range 25 } = .ok l' ∧ l'.supply < 0 :=
  ⟨⟨1, 5, 10, 1 / 5, 1 / 2, 10, 5, 1 / 2, 1 / 20, [], 0, [], []⟩,
    ⟨1, 5, 10, 1 / 5, 1 / 2, 10, 5, 1 / 2, 1 / 20, List.range 25, 25, [], []⟩,
    by decide +kernel, by decide +kernel, by decide +kernel, by decide +kernel⟩

/-! ## C24 -/

/-- C24, every node (forward or general junction), every state and every service order: when the
node finishes its interval there are numbers `m i o` such that for every entrance `i` and exit `o`
exactly the `m i o` longest-waiting vehicles bound for `o` have left `i` (those that stay keep their
order), `o` has received exactly these vehicles at the end of its entrance queue, entrance by
entrance in some order and each entrance's vehicles in the order in which they waited, at most the
supply of `o` in all, and nothing else has moved. -/
theorem C24_node_transfer (scalar : ℚ) (ts : ℕ) (grj : Bool) (ins outs : List ℕ) (orc : NodeOracle)
    (s s' : State) (h : inoutEvolve scalar ts grj ins outs orc s = .ok s') (hins : ins.Nodup)
    (houts : outs.Nodup) (hord : ∀ k, (orc.order k).Perm (List.range ins.length)) :
    ∃ m : ℕ → ℕ → ℕ,
      (∀ i ∈ ins, ∀ o ∈ outs, m i o ≤ (s.waiting i o).length ∧
        s'.waiting i o = (s.waiting i o).drop (m i o)) ∧
      (∀ i ∈ ins, (s'.fin i).Sublist (s.fin i)) ∧
      (∀ o ∈ outs, ∃ order : List ℕ, order.Perm ins ∧
        s'.inc o = s.inc o ++ order.flatMap fun i => (s.waiting i o).take (m i o)) ∧
      (∀ o ∈ outs, ∃ sup, (s.links o).link.supply = .ok sup ∧
        (((ins.map fun i => m i o).sum : ℕ) : ℚ) ≤ sup * scalar) ∧
      (∀ l, l ∉ ins → s'.fin l = s.fin l) ∧ (∀ l, l ∉ outs → s'.inc l = s.inc l) ∧
      OnlyMoves s s' := by
  obtain ⟨hright, sups, flows, mv, _, _, _, _, _, hspec⟩ := inout_spec h hins houts hord
  refine ⟨fun i o => ((mv.getD (outs.idxOf o) []).getD (ins.idxOf i) 0).toNat, ?_,
    fun i _ => hspec.finSub i, ?_, ?_, hspec.finOther, hspec.incOther, hspec.moves⟩
  · intro i hi o ho
    obtain ⟨m, sup, f1, _, _, _, _, _, f2⟩ := hspec.col _ o (idxOf_get? ho)
    obtain ⟨g1, g2, g3⟩ := f2 _ i (idxOf_get? hi)
    simp only [getD_of_get? f1]
    exact ⟨g2, g3⟩
  · intro o ho
    obtain ⟨m, sup, f1, _, _, _, f2, _, f3⟩ := hspec.col _ o (idxOf_get? ho)
    refine ⟨(orc.order (outs.idxOf o)).map fun k => ins.getD k 0, ?_, ?_⟩
    · refine ((hord _).map _).trans ?_
      rw [map_getD_range]
    · rw [f2, List.flatMap_map]
      congr 1
      unfold blocks
      apply List.flatMap_congr
      intro k hk
      have hk' : k < ins.length := by simpa using ((hord _).mem_iff).1 hk
      have e : ins[k]? = some ins[k] := List.getElem?_eq_getElem hk'
      simp only [getD_of_get? f1, getD_of_get? e]
      rw [List.Nodup.idxOf_getElem hins]
  · intro o ho
    obtain ⟨m, sup, f1, f2, f3, f4, _, _, f5⟩ := hspec.col _ o (idxOf_get? ho)
    refine ⟨sup, f3, ?_⟩
    have : (((ins.map fun i => ((mv.getD (outs.idxOf o) []).getD (ins.idxOf i) 0).toNat).sum : ℕ) : ℤ)
        = m.sum := by
      simp only [getD_of_get? f1]
      rw [← sum_range_getD m, f2]
      have e : ins.map (fun i => (m.getD (ins.idxOf i) 0).toNat)
          = (List.range ins.length).map fun k => (m.getD k 0).toNat := by
        apply List.ext_getElem?
        intro k
        simp only [List.getElem?_map]
        by_cases hk : k < ins.length
        · rw [List.getElem?_eq_getElem hk, List.getElem?_range hk]
          simp [List.Nodup.idxOf_getElem hins]
        · rw [List.getElem?_eq_none_iff.2 (by omega), List.getElem?_eq_none_iff.2 (by simp; omega)]
          rfl
      rw [e]
      apply sum_toNat
      intro k hk
      have hk' : k < ins.length := by simpa using hk
      exact (f5 k _ (List.getElem?_eq_getElem hk')).1
    have h4 := f4
    rw [← this] at h4
    exact_mod_cast h4

/-- C24, conservation: the vehicles at the exits of the entrances together with those at the
entrances of the exits are the same before and after, none lost and none duplicated. -/
theorem C24_node_conservation (scalar : ℚ) (ts : ℕ) (grj : Bool) (ins outs : List ℕ)
    (orc : NodeOracle) (s s' : State) (h : inoutEvolve scalar ts grj ins outs orc s = .ok s')
    (hins : ins.Nodup) (houts : outs.Nodup)
    (hord : ∀ k, (orc.order k).Perm (List.range ins.length)) :
    (ins.flatMap s'.fin ++ outs.flatMap s'.inc).Perm (ins.flatMap s.fin ++ outs.flatMap s.inc) := by
  obtain ⟨_, _, _, _, _, _, _, _, _, hspec⟩ := inout_spec h hins houts hord
  rw [List.perm_iff_count]
  intro v
  have := hspec.count ins outs hins houts (fun _ h => h) (fun _ h => h) v
  simpa [waitCount] using this

example : ((inoutEvolve 1 7 false [0, 1] [2, 3] NodeEx.orc NodeEx.st).bind fun s =>
    .ok (s.fin 0, s.fin 1, s.inc 2, s.inc 3)) = .ok ([3], [5], [9, 4, 1], [2]) := by
  decide +kernel

/-! ## C58, C59 -/

/-- C58, forward junction: from every state in which each waiting vehicle is bound for one of the
exits, the supplies are non-negative and the curves are installed and not ahead of the clock, the
interval of the node ends without an exception once the rounding has ended: it is never asked to
move more vehicles than wait. -/
theorem C58_fwj_never_overdraws_partial (scalar : ℚ) (hsc : 0 < scalar) (ts : ℕ) (ins outs : List ℕ)
    (orc : NodeOracle) (s : State) (hins : ins.Nodup) (houts : outs.Nodup)
    (hord : ∀ k, (orc.order k).Perm (List.range ins.length)) (hu : ∀ j i, 0 ≤ orc.u j i)
    (hright : ∀ i ∈ ins, ∀ v ∈ s.fin i, ∃ o ∈ outs, (s.vehs v).next = some o)
    (sups : List ℚ) (hsup : supplies s outs = .ok sups) (hpos : ∀ x ∈ sups, 0 ≤ x)
    (flows : List (List ℚ))
    (hfl : computeFlow scalar false s ins ((outs.map (demandCol scalar s ins)).zip sups) = .ok flows)
    (mv : List (List ℤ)) (hmv : roundFlow scalar orc 0 (flows.zip sups) = .ok mv)
    (hcur : ∀ l, BothCurves s l ∧ CurveReady ((ts : ℚ) + 1) (s.links l).nIn ∧
      CurveReady ((ts : ℚ) + 1) (s.links l).nOut) :
    ∃ s', inoutEvolve scalar ts false ins outs orc s = .ok s' := by
  simp only [computeFlow, Bool.false_eq_true, if_false, Res.ok.injEq] at hfl
  subst hfl
  obtain ⟨lm, hm⟩ := fwj_numbers hsc hsup hpos hu hmv
  have hr : onRightNode s ins outs = true := by
    unfold onRightNode
    rw [List.all_eq_true]
    intro i hi
    rw [List.all_eq_true]
    intro v hv
    rw [List.any_eq_true]
    obtain ⟨o, ho, hn⟩ := hright i hi v hv
    exact ⟨o, ho, by simp [State.heads, hn]⟩
  have hfst : (outs.zip mv).map Prod.fst = outs := List.map_fst_zip (by omega)
  have hrow : (rowSums ins mv).map Prod.fst = ins := by
    simp only [rowSums, List.map_map]
    have : (Prod.fst ∘ fun p : ℕ × ℕ => (p.1, (mv.map fun c => c.getD p.2 0).sum)) = Prod.fst := rfl
    rw [this, List.zipIdx_map_fst]
  obtain ⟨s1, h1⟩ := recordOut_ok (scalar := scalar) (ts := ts) (outs.zip mv) s
    (by rw [hfst]; exact houts) (fun om _ => ⟨(hcur om.1).1, (hcur om.1).2.1⟩)
  obtain ⟨a1, a2, a3, a4, a5⟩ := recordOut_spec _ _ _ h1 (by rw [hfst]; exact houts)
  obtain ⟨s2, h2⟩ := recordIn_ok (scalar := scalar) (ts := ts) (rowSums ins mv) s1
    (by rw [hrow]; exact hins) (by
      intro im _
      refine ⟨?_, by rw [a2]; exact (hcur im.1).2.2⟩
      have := (hcur im.1).1
      unfold BothCurves at *
      rw [a2, a5]; exact this)
  obtain ⟨b1, b2, b3, b4, b5⟩ := recordIn_spec _ _ _ h2 (by rw [hrow]; exact hins)
  obtain ⟨s', h3⟩ := moveAll_ok (ts := ts) hins hord (outs.zip mv) 0 s2 (by rw [hfst]; exact houts) (by
    intro om hom k l hk
    obtain ⟨j, hj⟩ := List.mem_iff_getElem?.1 hom
    rw [List.getElem?_zip_eq_some] at hj
    obtain ⟨r, m, sup, e1, _, _, _, _, _, _, e2⟩ := hm j om.1 hj.1
    rw [hj.2] at e1
    cases e1
    obtain ⟨g1, _, g2⟩ := e2 k l hk
    rw [(a1.trans b1).waiting]
    exact ⟨g1, by omega⟩)
  refine ⟨s', ?_⟩
  unfold inoutEvolve
  rw [if_pos hr, hsup, Res.bind_ok']
  simp only [computeFlow, Bool.false_eq_true, if_false]
  rw [Res.bind_ok', hmv, Res.bind_ok', h1, Res.bind_ok', h2, Res.bind_ok']
  exact h3

example : supplies NodeEx.st [2, 3] = .ok [3, 5] ∧
    roundFlow 1 NodeEx.orc 0 ([[3 / 2, 3 / 2], [1, 0]].zip [3, 5]) = .ok [[1, 1], [1, 0]] ∧
    (∀ i ∈ [0, 1], ∀ v ∈ NodeEx.st.fin i, ∃ o ∈ [2, 3], (NodeEx.st.vehs v).next = some o) := by
  refine ⟨by decide +kernel, by decide +kernel, by decide +kernel⟩

namespace NodeEx

/-- One entrance (link 0) with four vehicles waiting, vehicle 1 for link 2 (supply 2) and the
others for link 3 (supply 10). -/
def stG : State :=
  { State.init (fun l => if l = 0 then pq 5 [] [1, 2, 3, 4] else if l = 2 then pq 2 [] []
      else pq 10 [] []) with
    vehs := fun v => veh (if v = 1 then some 2 else some 3) }

end NodeEx

/-- C58 is false of a general junction: with one vehicle waiting for one exit (supply 2) and three
for another (supply 10) it decides to move two vehicles to the first, and raises an exception. -/
theorem C58_false_for_grj (ts : ℕ) :
    inoutEvolve 1 ts true [0] [2, 3] ⟨fun _ _ => 1 / 2, fun _ => [], fun _ => [0]⟩ NodeEx.stG
      = .throw "invalid state when moving vehicles" := by
  have h1 : supplies NodeEx.stG [2, 3] = .ok [2, 10] := by decide +kernel
  have h2 : computeFlow 1 true NodeEx.stG [0]
      (([2, 3].map (demandCol 1 NodeEx.stG [0])).zip [2, 10]) = .ok [[2], [6 / 5]] := by
    decide +kernel
  have h3 : roundFlow 1 ⟨fun _ _ => 1 / 2, fun _ => [], fun _ => [0]⟩ 0
      ([[2], [6 / 5]].zip [2, 10]) = .ok [[2], [1]] := by decide +kernel
  have h0 : onRightNode NodeEx.stG [0] [2, 3] = true := by decide +kernel
  have key : ∀ s1 : State, (∀ l, (s1.links l).link = (NodeEx.stG.links l).link) →
      s1.vehs = NodeEx.stG.vehs →
      moveAll ts [0] ⟨fun _ _ => 1 / 2, fun _ => [], fun _ => [0]⟩ 0 s1 ([2, 3].zip [[2], [1]])
        = .throw "invalid state when moving vehicles" := by
    intro s1 hl hv
    have : moveOne ts 2 0 2 s1 = .throw "invalid state when moving vehicles" := by
      unfold moveOne
      have e : State.heads s1 2 = State.heads NodeEx.stG 2 := by
        funext v; simp [State.heads, hv]
      rw [e, hl 0]
      simp only
      rw [if_neg]
      decide +kernel
    show (moveCol ts [0] [0] s1 (2, [2])).bind _ = _
    have hc : moveCol ts [0] [0] s1 (2, [2]) = .throw "invalid state when moving vehicles" := by
      show (moveOne ts 2 0 2 s1).bind _ = _
      rw [this]; rfl
    rw [hc]; rfl
  unfold inoutEvolve
  rw [if_pos h0, h1, Res.bind_ok', h2, Res.bind_ok', h3, Res.bind_ok']
  obtain ⟨s1, hs1⟩ := recordOut_ok (scalar := 1) (ts := ts) ([2, 3].zip [[2], [1]]) NodeEx.stG
    (by decide) (by
      intro om hom
      have : om = (2, [2]) ∨ om = (3, [1]) := by simpa using hom
      rcases this with rfl | rfl
      · exact ⟨rfl, (0, 0), rfl, by positivity⟩
      · exact ⟨rfl, (0, 0), rfl, by positivity⟩)
  obtain ⟨a1, a2, a3, a4, a5⟩ := recordOut_spec _ _ _ hs1 (by decide)
  obtain ⟨s2, hs2⟩ := recordIn_ok (scalar := 1) (ts := ts) (rowSums [0] [[2], [1]]) s1
    (by decide) (by
      intro im him
      have : im = (0, 3) := by simpa [rowSums] using him
      subst this
      refine ⟨?_, ?_⟩
      · unfold BothCurves; rw [a2, a5]; rfl
      · rw [a2]; exact ⟨(0, 0), rfl, by positivity⟩)
  obtain ⟨b1, b2, b3, b4, b5⟩ := recordIn_spec _ _ _ hs2 (by decide)
  rw [hs1, Res.bind_ok', hs2, Res.bind_ok']
  exact key s2 (a1.trans b1).link (a1.trans b1).vehs

/-- C59, forward junction: when an exit can take all vehicles waiting for it, all of them enter it
in this interval; when it cannot, it takes more than its supply less one vehicle per entrance, and
one. -/
theorem C59_fwj_serves_partial (scalar : ℚ) (hsc : 0 < scalar) (ts : ℕ) (ins outs : List ℕ)
    (orc : NodeOracle) (s s' : State) (h : inoutEvolve scalar ts false ins outs orc s = .ok s')
    (hins : ins.Nodup) (houts : outs.Nodup)
    (hord : ∀ k, (orc.order k).Perm (List.range ins.length))
    (hu : ∀ j i, 0 ≤ orc.u j i ∧ orc.u j i < 1)
    (hpos : ∀ o ∈ outs, ∀ x, (s.links o).link.supply = .ok x → 0 ≤ x) :
    ∀ o ∈ outs, ∃ sup new, (s.links o).link.supply = .ok sup ∧ s'.inc o = s.inc o ++ new ∧
      ((((ins.map fun i => (s.waiting i o).length).sum : ℕ) : ℚ) ≤ sup * scalar →
        new.length = (ins.map fun i => (s.waiting i o).length).sum ∧
        ∀ i ∈ ins, s'.waiting i o = []) ∧
      (sup * scalar < (((ins.map fun i => (s.waiting i o).length).sum : ℕ) : ℚ) →
        sup * scalar - ins.length - 1 < new.length ∧ (new.length : ℚ) ≤ sup * scalar) := by
  obtain ⟨_, sups, flows, mv, hsup, hfl, _, _, hmv, hspec⟩ := inout_spec h hins houts hord
  simp only [computeFlow, Bool.false_eq_true, if_false, Res.ok.injEq] at hfl
  subst hfl
  have hpos' : ∀ x ∈ sups, 0 ≤ x := by
    intro x hx
    obtain ⟨j, hj⟩ := List.mem_iff_getElem?.1 hx
    obtain ⟨l1, l2⟩ := supplies_get hsup
    have hlt : j < outs.length := by rw [← l1]; exact (List.getElem?_eq_some_iff.1 hj).1
    obtain ⟨y, hy1, hy2⟩ := l2 j _ (List.getElem?_eq_getElem hlt)
    rw [hj] at hy1
    cases hy1
    exact hpos _ (List.getElem_mem hlt) _ hy2
  obtain ⟨lm, hm⟩ := fwj_numbers hsc hsup hpos' (fun j i => (hu j i).1) hmv
  intro o ho
  obtain ⟨r, m, sup, e1, e2, e3, e4, e5, e6, e7, e8⟩ := hm _ o (idxOf_get? ho)
  obtain ⟨m', sup', f1, _, f3, f4, f5, f6, f7⟩ := hspec.col _ o (idxOf_get? ho)
  rw [e1] at f1
  cases f1
  rw [e3] at f3
  cases f3
  refine ⟨sup, _, e3, f5, ?_, ?_⟩
  · intro hfree
    -- the flow column is the demand column
    obtain ⟨w1, w2, w3⟩ := fwjCol_spec _ sup (demandCol_nonneg hsc s ins o) e4
    obtain ⟨r1, r2⟩ := roundCol_get e6
    have hcol : ∀ (k l : ℕ), ins[k]? = some l → r.getD k 0 = (s.waiting l o).length := by
      intro k l hk
      have hd := demandCol_get (scalar := scalar) (s := s) (o := o) hk
      have hf : (fwjCol (demandCol scalar s ins o) sup)[k]?
          = some (((s.waiting l o).length : ℚ) / scalar) := by
        simp only [fwjCol, List.getElem?_map, hd, Option.map_some, Option.some.injEq]
        apply min_eq_left
        have hd0 : (0 : ℚ) ≤ ((s.waiting l o).length : ℚ) / scalar := by positivity
        by_cases hz : ((s.waiting l o).length : ℚ) / scalar = 0
        · rw [hz]; simp [divide]
        · have hS : 0 < (demandCol scalar s ins o).sum :=
            lt_of_lt_of_le (lt_of_le_of_ne hd0 (Ne.symm hz))
              (List.single_le_sum (demandCol_nonneg hsc s ins o) _ (List.mem_of_getElem? hd))
          unfold divide
          rw [if_neg hz, if_neg hS.ne', div_mul_eq_mul_div, le_div_iff₀ hS]
          apply mul_le_mul_of_nonneg_left _ hd0
          rw [demandCol_sum, div_le_iff₀ hsc]
          exact hfree
      have := r2 k _ hf
      rw [getD_of_get? this, div_mul_cancel₀ _ hsc.ne']
      have hu0 := (hu (outs.idxOf o) (0 + k)).1
      apply le_antisymm
      · exact roundVal_le_of_le (by positivity) (le_refl _) hu0
      · have := (roundVal_bounds (x := ((s.waiting l o).length : ℚ)) (u := orc.u (outs.idxOf o) (0 + k))
          (by positivity)).1
        simpa using this
    have hrsum : r.sum = ((ins.map fun i => (s.waiting i o).length).sum : ℕ) := by
      rw [← sum_range_getD r, r1, w1]
      have hl : (demandCol scalar s ins o).length = ins.length := by simp [demandCol]
      rw [hl]
      have e : (List.range ins.length).map (fun k => r.getD k 0)
          = (ins.map fun i => (s.waiting i o).length).map Nat.cast := by
        apply List.ext_getElem?
        intro k
        simp only [List.getElem?_map]
        by_cases hk : k < ins.length
        · have := hcol k _ (List.getElem?_eq_getElem hk)
          rw [List.getElem?_eq_getElem hk, List.getElem?_range hk]
          simpa using this
        · rw [List.getElem?_eq_none_iff.2 (by omega : ins.length ≤ k),
            List.getElem?_eq_none_iff.2 (by simp; omega)]
          rfl
      rw [e, sum_cast]
    have hmin : m.sum = r.sum := by
      rw [e7, min_eq_left]
      rw [Int.le_floor, hrsum]
      exact_mod_cast hfree
    have hlen : (blocks s ins o m (orc.order (outs.idxOf o))).length
        = (ins.map fun i => (s.waiting i o).length).sum := by
      have := f6
      rw [hmin, hrsum] at this
      exact_mod_cast this
    refine ⟨hlen, ?_⟩
    intro i hi
    have hk := idxOf_get? hi
    obtain ⟨g1, g2, g3⟩ := f7 _ i hk
    -- equal sums and entrywise at most: entrywise equal
    have heq : m.getD (ins.idxOf i) 0 = r.getD (ins.idxOf i) 0 := by
      apply sum_eq_entry (by rw [e5, r1, w1]; simp [demandCol]) hmin
      intro k
      by_cases hk : k < ins.length
      · exact (e8 k _ (List.getElem?_eq_getElem hk)).2.1
      · have h1 : m.length ≤ k := by omega
        have h2 : r.length ≤ k := by
          rw [r1, w1]; simp [demandCol]; omega
        simp [List.getD_eq_getElem?_getD, List.getElem?_eq_none_iff.2 h1,
          List.getElem?_eq_none_iff.2 h2]
    rw [g3, heq, hcol _ i hk]
    simp
  · intro hcong
    obtain ⟨w1, w2, w3⟩ := fwjCol_spec _ sup (demandCol_nonneg hsc s ins o) e4
    have hfsum : (fwjCol (demandCol scalar s ins o) sup).sum = sup := by
      rw [w3, min_eq_right]
      rw [demandCol_sum, le_div_iff₀ hsc]
      exact hcong.le
    have hlow := roundCol_sum_lower hsc (fun i => (hu (outs.idxOf o) i).2) e6 (by
      intro x hx
      obtain ⟨k, hk⟩ := List.mem_iff_getElem?.1 hx
      have hlt : k < (demandCol scalar s ins o).length := by
        rw [← w1]; exact (List.getElem?_eq_some_iff.1 hk).1
      exact (w2 k x _ hk (List.getElem?_eq_getElem hlt)).1)
    rw [hfsum, w1] at hlow
    have hl : (demandCol scalar s ins o).length = ins.length := by simp [demandCol]
    rw [hl] at hlow
    have hb : ((blocks s ins o m (orc.order (outs.idxOf o))).length : ℚ) = (m.sum : ℚ) := by
      exact_mod_cast f6
    rw [hb]
    refine ⟨?_, f4⟩
    have hfl : sup * scalar < (⌊sup * scalar⌋ : ℚ) + 1 := Int.lt_floor_add_one _
    have hn : (0 : ℚ) ≤ ins.length := by positivity
    rw [e7, Int.cast_min]
    apply lt_min
    · linarith
    · linarith

example : (∀ o ∈ [2, 3], ∀ x, (NodeEx.st.links o).link.supply = .ok x → 0 ≤ x) ∧
    (((([0, 1].map fun i => (NodeEx.st.waiting i 3).length).sum : ℕ) : ℚ) ≤ 5 * 1) ∧
    ((3 : ℚ) * 1 < (([0, 1].map fun i => (NodeEx.st.waiting i 2).length).sum : ℕ)) := by
  refine ⟨?_, by decide +kernel, by decide +kernel⟩
  intro o ho x hx
  have h : o = 2 ∨ o = 3 := by simpa using ho
  rcases h with rfl | rfl
  · have : (NodeEx.st.links 2).link.supply = .ok 3 := by decide +kernel
    rw [this] at hx; cases hx; norm_num
  · have : (NodeEx.st.links 3).link.supply = .ok 5 := by decide +kernel
    rw [this] at hx; cases hx; norm_num

/-- C59 is false of a general junction: one vehicle waits for an exit that can take ten, the flow
computed for it is a tenth of a vehicle, and unless the rounding draw is below one tenth it
stays. -/
theorem C59_false_for_grj (u : ℚ) (hu : 1 / 10 ≤ u) :
    ∃ s : State, s.fin 0 = [1] ∧ s.waiting 0 2 = [1] ∧ (s.links 2).link.supply = .ok 10 ∧
      computeFlow 1 true s [0] (([2].map (demandCol 1 s [0])).zip [10]) = .ok [[1 / 10]] ∧
      roundFlow 1 ⟨fun _ _ => u, fun _ => [], fun _ => [0]⟩ 0 ([[1 / 10]].zip [10]) = .ok [[0]] := by
  refine ⟨{ State.init (fun l => if l = 0 then NodeEx.pq 5 [] [1] else NodeEx.pq 10 [] []) with
    vehs := fun _ => NodeEx.veh (some 2) }, by decide +kernel, by decide +kernel, by decide +kernel,
    by decide +kernel, ?_⟩
  have hr : roundCol 1 (fun _ => u) 0 [1 / 10] = .ok [0] := by
    simp only [roundCol]
    rw [round_nonneg_ok (by norm_num) (by norm_num), Res.bind_ok', Res.bind_ok', roundVal_nonneg (by norm_num)]
    have : Int.fract ((1 / 10 : ℚ) * 1) = 1 / 10 := by decide +kernel
    rw [this, if_neg (by linarith)]
    have : ⌊(1 / 10 : ℚ) * 1⌋ = 0 := by decide +kernel
    rw [this]
  show (roundCol 1 (fun _ => u) 0 [1 / 10]).bind _ = _
  rw [hr, Res.bind_ok']
  have hl : reduceLoop (10 * 1) [] [0] ([0] : List ℤ).sum = .ok [0] := by decide +kernel
  show (reduceLoop (10 * 1) [] [0] ([0] : List ℤ).sum).bind _ = _
  rw [hl]
  rfl

/-! ## C25 -/

/-- C25, every in-out node: for every exit, the inflow curve records, at the end of the interval and
in flow units, exactly the number of vehicles that entered it, and nothing when none did; for every
entrance, the outflow curve records exactly the number that left; no other curve changes. -/
theorem C25_node_curves (scalar : ℚ) (ts : ℕ) (grj : Bool) (ins outs : List ℕ) (orc : NodeOracle)
    (s s' : State) (h : inoutEvolve scalar ts grj ins outs orc s = .ok s') (hins : ins.Nodup)
    (houts : outs.Nodup) (hord : ∀ k, (orc.order k).Perm (List.range ins.length))
    (hcur : ∀ l ∈ ins ++ outs, BothCurves s l) :
    (∀ o ∈ outs, Recorded scalar ts ((s'.inc o).length - (s.inc o).length : ℕ) (s.links o).nIn
      (s'.links o).nIn) ∧
    (∀ i ∈ ins, Recorded scalar ts ((s.fin i).length - (s'.fin i).length : ℕ) (s.links i).nOut
      (s'.links i).nOut) ∧
    (∀ l, l ∉ outs → (s'.links l).nIn = (s.links l).nIn) ∧
    (∀ l, l ∉ ins → (s'.links l).nOut = (s.links l).nOut) := by
  obtain ⟨hright, sups, flows, mv, _, _, _, _, _, hspec⟩ := inout_spec h hins houts hord
  refine ⟨?_, ?_, hspec.curveInOther, hspec.curveOutOther⟩
  · intro o ho
    obtain ⟨m, sup, f1, _, _, _, f2, f3, _⟩ := hspec.col _ o (idxOf_get? ho)
    have := hspec.curveIn _ o m (idxOf_get? ho) f1 (hcur o (by simp [ho]))
    have e : ((s'.inc o).length - (s.inc o).length : ℕ) = m.sum := by
      rw [f2, List.length_append, ← f3]; simp
    rw [e]; exact this
  · intro i hi
    have := hspec.curveOut _ i (idxOf_get? hi) (hcur i (by simp [hi]))
    rw [leaving_count hspec houts hright (idxOf_get? hi)] at this
    exact this

example : ((inoutEvolve 2 7 false [0, 1] [2, 3] NodeEx.orc
      { NodeEx.st with links := fun l => { NodeEx.st.links l with nIn := some [(0, 0), (8, 4)] } }).bind
        fun s => .ok ((s.links 2).nIn, (s.links 0).nOut, (s.links 1).nIn))
    = .ok (some [(0, 0), (8, 6)], some [(0, 0), (8, 3 / 2)], some [(0, 0), (8, 4)]) := by
  decide +kernel

/-! ## C26 -/

/-- C26, every origin node, every queue and every draw: when the node finishes its interval, for
every exit exactly the first `n` queued vehicles bound for it have entered it, in queue order, where
`n` is all of them if the supply allows it, and otherwise the supply rounded down or, if the draw is
below its fractional part, rounded up; the others stay in their order; vehicles bound for other
exits do not block them; the inflow curve records exactly these `n`; and no vehicle is lost. -/
theorem C26_origin_release (scalar : ℚ) (hsc : 0 < scalar) (ts node : ℕ) (outs : List ℕ)
    (u : ℕ → ℚ) (hu : ∀ k, 0 ≤ u k) (s s' : State)
    (h : originEvolve scalar ts node outs u s = .ok s') (houts : outs.Nodup)
    (hpos : ∀ o ∈ outs, ∀ x, (s.links o).link.supply = .ok x → 0 ≤ x) :
    (∀ (k o : ℕ), outs[k]? = some o → ∃ (sup : ℚ) (n : ℕ), (s.links o).link.supply = .ok sup ∧
      s'.inc o = s.inc o ++ (s.queued node o).take n ∧
      s'.queued node o = (s.queued node o).drop n ∧ n ≤ (s.queued node o).length ∧
      (((s.queued node o).length : ℚ) ≤ sup * scalar → n = (s.queued node o).length) ∧
      (sup * scalar < ((s.queued node o).length : ℚ) →
        ((n : ℤ) = ⌊sup * scalar⌋ ∧ Int.fract (sup * scalar) ≤ u k) ∨
        ((n : ℤ) = ⌊sup * scalar⌋ + 1 ∧ u k < Int.fract (sup * scalar))) ∧
      Recorded scalar ts n (s.links o).nIn (s'.links o).nIn) ∧
    (s'.queue node).Sublist (s.queue node) ∧
    (s'.queue node ++ outs.flatMap s'.inc).Perm (s.queue node ++ outs.flatMap s.inc) ∧
    (∀ k, k ≠ node → s'.queue k = s.queue k) ∧ (∀ l, s'.fin l = s.fin l) ∧
    (∀ l, l ∉ outs → s'.inc l = s.inc l) ∧ Frame s s' := by
  obtain ⟨_, lvs, e1, hspec, hvol⟩ := origin_spec h houts
  refine ⟨?_, hspec.sub, ?_, hspec.queueOther, hspec.fin, by rw [← e1]; exact hspec.incOther,
    hspec.frame⟩
  · intro k o ho
    obtain ⟨n, sup, hmem, hsup, hn⟩ := hvol k o ho
    obtain ⟨a1, a2, a3⟩ := hspec.out o n hmem
    have hS : 0 ≤ sup * scalar := mul_nonneg (hpos o (List.mem_of_getElem? ho) sup hsup) hsc.le
    have hn0 : 0 ≤ n ∧ n ≤ (s.queued node o).length := by
      rcases hn with ⟨_, rfl⟩ | ⟨hlt, rfl⟩
      · omega
      · exact ⟨roundVal_natCast_nonneg hS, roundVal_le_of_le hS hlt.le (hu k)⟩
    have hcast : ((n.toNat : ℕ) : ℤ) = n := Int.toNat_of_nonneg hn0.1
    refine ⟨sup, n.toNat, hsup, a1, a2, by omega, ?_, ?_, by rw [hcast]; exact a3⟩
    · intro hle
      rcases hn with ⟨_, rfl⟩ | ⟨hlt, _⟩
      · simp
      · linarith
    · intro hlt
      rcases hn with ⟨hge, _⟩ | ⟨_, hr⟩
      · linarith
      · rw [hcast, hr, roundVal_nonneg hS]
        split
        · rename_i hf; exact Or.inr ⟨rfl, hf⟩
        · rename_i hf; exact Or.inl ⟨rfl, not_lt.1 hf⟩
  · rw [List.perm_iff_count]
    intro v
    have := hspec.count outs houts (by
      intro lv hlv
      rw [← e1]
      exact List.mem_map_of_mem (f := Prod.fst) hlv) v
    simpa using this

namespace NodeEx

/-- Vehicles 1 to 5 queue at origin node 7; vehicle 2 is bound for link 3, the others for link 2,
which takes 5/2 vehicles. -/
def stO : State :=
  { State.init (fun l => if l = 2 then pq (5 / 2) [] [] else pq 5 [] []) with
    vehs := fun v => veh (if v = 2 then some 3 else some 2)
    queue := fun n => if n = 7 then [1, 2, 3, 4, 5] else [] }

end NodeEx

example : ((originEvolve 1 0 7 [2, 3] (fun _ => 1 / 4) NodeEx.stO).bind fun s =>
    .ok (s.queue 7, s.inc 2, s.inc 3)) = .ok ([5], [1, 3, 4], [2]) := by decide +kernel

example : ∀ o ∈ [2, 3], ∀ x, (NodeEx.stO.links o).link.supply = .ok x → 0 ≤ x := by
  intro o ho x hx
  have h : o = 2 ∨ o = 3 := by simpa using ho
  rcases h with rfl | rfl
  · have : (NodeEx.stO.links 2).link.supply = .ok (5 / 2) := by decide +kernel
    rw [this] at hx; cases hx; norm_num
  · have : (NodeEx.stO.links 3).link.supply = .ok 5 := by decide +kernel
    rw [this] at hx; cases hx; norm_num

/-! ## C27 -/

/-- C27, every destination node: when it finishes its interval, every vehicle that stood at the end
of its entrances is in its queue exactly once, entrance by entrance and in order, behind the
vehicles that were there; the entrances are empty; none of these vehicles was bound for a further
link; the outflow curves record exactly the vehicles taken; and nothing else has changed. -/
theorem C27_destination_absorbs (scalar : ℚ) (ts node : ℕ) (ins : List ℕ) (s s' : State)
    (h : destEvolve scalar ts node ins s = .ok s') (hins : ins.Nodup) :
    s'.queue node = s.queue node ++ ins.flatMap s.fin ∧
    (∀ l ∈ ins, s'.fin l = [] ∧ (∀ v ∈ s.fin l, (s.vehs v).next = none) ∧
      Recorded scalar ts (s.fin l).length (s.links l).nOut (s'.links l).nOut) ∧
    (∀ k, k ≠ node → s'.queue k = s.queue k) ∧ (∀ l, l ∉ ins → s'.fin l = s.fin l) ∧
    (∀ l, s'.inc l = s.inc l) ∧ (∀ l, (s'.links l).nIn = (s.links l).nIn) ∧ Frame s s' := by
  have S := dest_spec ins s s' h hins
  exact ⟨S.queue, fun l hl => ⟨(S.fin l hl).1, S.none l hl, (S.fin l hl).2⟩, S.queueOther, S.finOther,
    S.inc, S.nIn, S.frame⟩

example : ((destEvolve 1 4 9 [0, 1] { NodeEx.st with vehs := fun _ => NodeEx.veh none }).bind
    fun s => .ok (s.queue 9, s.fin 0 ++ s.fin 1, (s.links 0).nOut))
      = .ok ([1, 2, 3, 4, 5], [], some [(0, 0), (5, 3)]) := by decide +kernel

/-- C27, the destination itself: it finishes every vehicle in the queue of its node, once each, if
all of them are bound for it and known to the factory: each gets the current interval as finish
time and leaves the factory's register, the counters move by their number, and the queue is
empty. -/
theorem C27_receive (c : Cfg) (ts d : ℕ) (s s' : State) (h : receive c ts s d = .ok s')
    (hnd : (s.queue (c.destNode d)).Nodup) :
    (∀ v ∈ s.queue (c.destNode d), (s.vehs v).dest = d ∧ v ∈ s.vehMap ∧ (s'.vehs v).finish = ts) ∧
    (∀ v, v ∉ s.queue (c.destNode d) → s'.vehs v = s.vehs v) ∧
    (∀ v, s'.vehMap.count v = s.vehMap.count v - (s.queue (c.destNode d)).count v) ∧
    s'.finished = s.finished + (s.queue (c.destNode d)).length ∧
    s'.enroute = s.enroute - (s.queue (c.destNode d)).length ∧ s'.numVeh = s.numVeh ∧
    s'.totalTime = s.totalTime +
      ((s.queue (c.destNode d)).map fun v => (((ts : ℤ) - (s.vehs v).start : ℤ) : ℚ)).sum ∧
    s'.queue (c.destNode d) = [] ∧ (∀ k, k ≠ c.destNode d → s'.queue k = s.queue k) ∧
    s'.links = s.links := by
  obtain ⟨S, hq⟩ := receive_spec h hnd
  refine ⟨fun v hv => ⟨S.dest v hv, S.known v hv, S.finish v hv⟩, S.other, S.map, S.finished, S.enroute,
    S.num, S.time, ?_, ?_, ?_⟩
  · rw [hq]; simp
  · intro k hk; rw [hq]; simp [upd, hk]
  · exact S.links

/-- C27: a vehicle that reaches the node of a destination other than its own is not absorbed: the
call raises an exception. -/
theorem C27_wrong_destination (c : Cfg) (ts d : ℕ) (s : State)
    (h : ∃ v ∈ s.queue (c.destNode d), (s.vehs v).dest ≠ d)
    (hnd : (s.queue (c.destNode d)).Nodup)
    (hknown : ∀ v ∈ s.queue (c.destNode d), v ∈ s.vehMap) :
    receive c ts s d = .throw "invalid state" := by
  obtain ⟨v, hv, hne⟩ := h
  unfold receive
  rw [receive_wrong _ _ hnd hknown hv hne]
  rfl

example :
    let s : State := { State.init (fun _ => NodeEx.pq 5 [] []) with
      vehs := fun v => { NodeEx.veh none with dest := if v = 3 then 6 else 5, start := 2 }
      vehMap := [1, 2, 3, 4]
      queue := fun n => if n = 9 then [1, 2] else [3]
      enroute := 4 }
    let c : Cfg := ⟨1, 1, 1, [], [], fun _ => .dest [], fun _ => 0, fun _ => [], [], fun _ =>
      ⟨0, 1, [], fun _ => none, []⟩, [5, 6], fun d => if d = 5 then 9 else 10⟩
    ((receive c 7 s 5).bind fun s => .ok (s.queue 9, s.vehMap, s.finished, s.enroute, s.totalTime))
      = .ok ([], [3, 4], 2, 2, 10) ∧
    ((receive { c with destNode := fun _ => 8 } 7 s 5).bind fun s => .ok s.finished)
      = .throw "invalid state" := by
  constructor <;> decide +kernel

/-! ## C60 -/

/-- C60, in-out nodes: an exit whose entrance was empty accepts all the vehicles that the node sends
it in this interval, whatever its link model: it raises no exception and its entrance is empty
again.  (For a link transmission link its own curve must not be ahead of its clock.) -/
theorem C60_link_accepts_partial (scalar : ℚ) (ts : ℕ) (grj : Bool) (ins outs : List ℕ) (orc : NodeOracle)
    (s s' : State) (h : inoutEvolve scalar ts grj ins outs orc s = .ok s') (hins : ins.Nodup)
    (houts : outs.Nodup) (hord : ∀ k, (orc.order k).Perm (List.range ins.length))
    (o : ℕ) (ho : o ∈ outs) (hemp : s.inc o = []) (hsc : (s.links o).link.scalar = scalar)
    (hr : ∀ sup, (s.links o).link.supply = .ok sup → sup * scalar < 2147483648)
    (hc : ∀ x, (s.links o).link = .ltm x → ∃ b, x.nIn2.getLast? = some b ∧
      b.1 ≤ (x.now : ℚ) * x.unit) :
    ∃ l', (s'.links o).link.clear = .ok l' ∧ l'.incoming = [] := by
  obtain ⟨_, _, _, mv, _, _, _, _, _, hspec⟩ := inout_spec h hins houts hord
  obtain ⟨m, sup, f1, _, f3, f4, f5, f6, _⟩ := hspec.col _ o (idxOf_get? ho)
  have hl := hspec.moves.link o
  have hsup : (s'.links o).link.supply = .ok sup := by rw [hl, supply_moved, f3]
  have hscal : (s'.links o).link.scalar = scalar := by rw [hl, scalar_moved, hsc]
  refine clear_accepts hsup ?_ (by rw [hscal]; exact hr sup f3) ?_
  · rw [hscal]
    have e : (s'.links o).link.incoming = s'.inc o := rfl
    rw [e, f5, hemp, List.nil_append]
    have : ((blocks s ins o m (orc.order (outs.idxOf o))).length : ℚ) = (m.sum : ℚ) := by
      exact_mod_cast f6
    rw [this]; exact f4
  · intro x hx
    rw [hl] at hx
    cases hk : (s.links o).link with
    | ltm y =>
      rw [hk] at hx
      simp only [Link.setFinished, Link.setIncoming, Link.ltm.injEq] at hx
      obtain ⟨b, b1, b2⟩ := hc y hk
      subst hx
      exact ⟨b, b1, b2⟩
    | pq y => rw [hk] at hx; simp [Link.setFinished, Link.setIncoming] at hx
    | ctm y => rw [hk] at hx; simp [Link.setFinished, Link.setIncoming] at hx
    | lq y => rw [hk] at hx; simp [Link.setFinished, Link.setIncoming] at hx

example : ((inoutEvolve 1 7 false [0, 1] [2, 3] NodeEx.orc NodeEx.st).bind fun s =>
    (s.links 3).link.clear.bind fun l => .ok (l.incoming, l.travelling)) = .ok ([], [2]) := by
  decide +kernel

namespace NodeEx

/-- A cell transmission link with one cell whose supply is 5/2 vehicles, fed by an origin with
three queued vehicles. -/
def stC : State :=
  { State.init (fun _ => ⟨.ctm ⟨1, 1, 1, 10, 5 / 2, 1, 1,
      [⟨10, 5 / 2, 1, some 1, 0, [], 0⟩], [], []⟩, none, none⟩) with
    vehs := fun _ => veh (some 2)
    queue := fun n => if n = 7 then [1, 2, 3] else [] }

end NodeEx

/-- C60 is false of origin nodes: they round the supply up at random, and the link then raises an
exception that ends the run.  Three vehicles queue in front of a cell transmission link that can
take 5/2; with the draw 1/4 the origin sends all three, and the link rejects them. -/
theorem C60_false_for_origins :
    (NodeEx.stC.links 2).link.supply = .ok (5 / 2) ∧
    ((originEvolve 1 0 7 [2] (fun _ => 1 / 4) NodeEx.stC).bind fun s =>
      .ok (s.inc 2)) = .ok [1, 2, 3] ∧
    ((originEvolve 1 0 7 [2] (fun _ => 1 / 4) NodeEx.stC).bind fun s =>
      (s.links 2).link.clear.bind fun l => .ok l.incoming) = .throw "wrong incoming array size" := by
  refine ⟨?_, ?_, ?_⟩ <;> decide +kernel

end Verif

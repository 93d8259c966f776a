import Verif.Lemmas.PathGen
import Verif.Props.ShortestPath

/-!
# Paths and path sets (C32, C33, C35, C42)
-/

namespace Verif
open Verif.Path Sp Graph

/-! ## C32 -/

/-- **C32.**  Portions that are not negative, with a positive sum: after normalising, each is its share
of the sum; the new portions are not negative and sum to one. -/
theorem C32_normalized (ps : List ℚ) (h : ∀ p ∈ ps, 0 ≤ p) (hs : ps.sum ≠ 0) :
    normalizeP ps = .ok (ps.map (· / ps.sum)) ∧ (∀ q ∈ ps.map (· / ps.sum), 0 ≤ q) ∧
      (ps.map (· / ps.sum)).sum = 1 := by
  have hany : ps.any (fun p => decide (p < 0)) = false := by
    rw [List.any_eq_false]
    intro p hp
    simpa using h p hp
  refine ⟨?_, ?_, ?_⟩
  · unfold normalizeP
    simp only [hany, Bool.false_eq_true, if_false, foldl_min_nonneg ps h, sub_zero, List.map_id']
    rw [if_neg hs]
  · intro q hq
    obtain ⟨p, hp, rfl⟩ := List.mem_map.1 hq
    exact div_nonneg (h p hp) (List.sum_nonneg h)
  · simp only [div_eq_mul_inv]
    rw [List.sum_map_mul_right, List.map_id']
    exact mul_inv_cancel₀ hs

example : (∀ p ∈ [1, 0, (3 : ℚ)], 0 ≤ p) ∧ [1, 0, (3 : ℚ)].sum ≠ 0 ∧
    normalizeP [1, 0, 3] = .ok [1 / 4, 0, 3 / 4] := by decide +kernel

/-- **C32.**  All portions zero: every path of a non-empty set gets the same portion, and they sum to
one. -/
theorem C32_uniform (ps : List ℚ) (h : ∀ p ∈ ps, p = 0) (hne : ps ≠ []) :
    ∃ qs, normalizeP ps = .ok qs ∧ qs.length = ps.length ∧ (∀ q ∈ qs, q = 1 / (ps.length : ℚ)) ∧
      qs.sum = 1 := by
  have h0 : ∀ p ∈ ps, (0 : ℚ) ≤ p := fun p hp => (h p hp).ge
  have hany : ps.any (fun p => decide (p < 0)) = false := by
    rw [List.any_eq_false]
    intro p hp
    simpa using h0 p hp
  have hsum : ps.sum = 0 := List.sum_eq_zero h
  refine ⟨ps.map fun _ => 1 / (ps.length : ℚ), ?_, by simp, by simp, ?_⟩
  · unfold normalizeP
    simp only [hany, Bool.false_eq_true, if_false, foldl_min_nonneg ps h0, sub_zero, List.map_id']
    rw [if_pos hsum]
  · simp only [List.map_const', List.sum_replicate, nsmul_eq_mul]
    have : (ps.length : ℚ) ≠ 0 := by simpa using hne
    field_simp

example : (∀ p ∈ [0, 0, 0, (0 : ℚ)], p = 0) ∧ [0, 0, 0, (0 : ℚ)] ≠ [] := by decide +kernel

/-- **C32.**  A negative portion raises. -/
theorem C32_negative (ps : List ℚ) (p : ℚ) (hp : p ∈ ps) (hn : p < 0) :
    normalizeP ps = .throw "invalid probability" := by
  unfold normalizeP
  rw [if_pos]
  rw [List.any_eq_true]
  exact ⟨p, hp, by simpa using hn⟩

example : (-1 : ℚ) ∈ [2, (-1 : ℚ)] ∧ (-1 : ℚ) < 0 := by decide +kernel

/-! ## C33 -/

/-- **C33.**  Non-negative portions that sum to one and a draw between zero and one: the vehicle gets a
path `p` of the set.  The draw lies above the portions of the earlier paths together and, up to the
relative tolerance, not above that plus the portion of `p`.  A path of portion zero is only taken by
the draw zero. -/
theorem C33_draw_in_bracket (ps : List (ℕ × ℚ)) (h : ∀ q ∈ ps, 0 ≤ q.2) (hs : (ps.map (·.2)).sum = 1)
    (r : ℚ) (hr : 0 ≤ r) (hr1 : r ≤ 1) :
    ∃ a p w b, ps = a ++ (p, w) :: b ∧ Net.choosePath ps r = some p ∧
      (a ≠ [] → (a.map (·.2)).sum < r) ∧
      r - (a.map (·.2)).sum ≤ w + 1 / 10000 * max |w| |r - (a.map (·.2)).sum| ∧
      (w = 0 → a = [] ∧ r = 0) := by
  exact choose_spec ps r h hr (hs ▸ hr1) (by rintro rfl; simp at hs)

/-- The premises hold for a set with an unused first path; draws 0, 1/8, 1/2, 1. -/
example : (∀ q ∈ [(0, 0), (1, 1 / 4), (2, (3 / 4 : ℚ))], 0 ≤ q.2) ∧
    ([(0, 0), (1, 1 / 4), (2, (3 / 4 : ℚ))].map (·.2)).sum = 1 ∧
    [0, 1 / 8, 1 / 2, 1].map (Net.choosePath [(0, 0), (1, 1 / 4), (2, (3 / 4 : ℚ))]) =
      [some 0, some 1, some 2, some 2] := by decide +kernel

/-- **C33.**  Normalising any non-empty set of paths with non-negative portions and registering a
vehicle whose origin and destination have that set, with any draw between zero and one: the call
succeeds and the vehicle has a path of the set. -/
theorem C33_register_after_normalize (c : Net.Cfg) (pt : Net.PathTable) (v : ℕ) (track : Bool) (s : Net.State)
    (ids : List ℕ) (ps qs : List ℚ) (hlen : ids.length = ps.length) (hne : ps ≠ []) (h : ∀ p ∈ ps, 0 ≤ p)
    (hq : normalizeP ps = .ok qs)
    (hset : pt.pathset (c.origin (s.vehs v).origin).node (c.destNode (s.vehs v).dest) = some (ids.zip qs))
    (r : ℚ) (hr : 0 ≤ r) (hr1 : r ≤ 1) :
    ∃ s' p, Net.registerVeh c pt r v track s = .ok s' ∧ p ∈ ids ∧ (s'.vehs v).path = some p ∧
      (∀ u, u ≠ v → s'.vehs u = s.vehs u ∧ s'.tracker u = s.tracker u) ∧
      (track = true → s.tracker v = none → s'.tracker v = some (pt.links p)) := by
  have key : qs.length = ps.length ∧ (∀ q ∈ qs, 0 ≤ q) ∧ qs.sum = 1 := by
    by_cases hs : ps.sum = 0
    · have h0 : ∀ p ∈ ps, p = 0 := by
        intro p hp
        have := List.single_le_sum h p hp
        rw [hs] at this
        exact le_antisymm this (h p hp)
      obtain ⟨qs', a, b, c, d⟩ := C32_uniform ps h0 hne
      rw [hq] at a
      cases a
      refine ⟨b, ?_, d⟩
      intro q hq
      rw [c q hq]
      positivity
    · obtain ⟨a, b, d⟩ := C32_normalized ps h hs
      rw [hq] at a
      cases a
      exact ⟨by simp, b, d⟩
  obtain ⟨k1, k2, k3⟩ := key
  have hmap : (ids.zip qs).map (·.2) = qs := by
    rw [show (fun x : ℕ × ℚ => x.2) = Prod.snd from rfl, List.map_snd_zip (by omega)]
  obtain ⟨a, p, w, b, e1, e2, _⟩ := C33_draw_in_bracket (ids.zip qs)
    (fun q hq => k2 q.2 (List.of_mem_zip hq).2) (by rw [hmap, k3]) r hr hr1
  have hp : p ∈ ids := by
    have : (p, w) ∈ ids.zip qs := by rw [e1]; simp
    exact (List.of_mem_zip this).1
  simp only [Net.registerVeh, hset, e2]
  refine ⟨_, p, rfl, hp, by simp, ?_, ?_⟩
  · intro u hu
    refine ⟨by simp [upd, hu], ?_⟩
    cases track
    · simp
    · simp only [if_true]
      cases s.tracker v <;> simp [upd, hu]
  · rintro rfl ht
    simp [ht]

/-! ## C35 -/

/-- **C35.**  Cycle elimination on a path, that is a walk `ls` from `u` to `v` with its node sequence:
the result is again a walk from `u` to `v` with its node sequence, no node occurs twice in it, its
links are links of the original in the original order, and a path without repeated nodes does not
change. -/
theorem C35_eliminate_cycles (g : G) (ls : List ℤ) (u v : ℤ) (h : Walk g u ls v) :
    ∃ ls', eliminateCycles (walkNodes g u ls) ls = .ok (walkNodes g u ls', ls') ∧ Walk g u ls' v ∧
      (walkNodes g u ls').Nodup ∧ ls'.Sublist ls ∧ ((walkNodes g u ls).Nodup → ls' = ls) :=
  eliminate_spec g ls u v h

/-- A graph with cycles: 1 → 2 → 3 → 1 and 3 → 4. -/
def cycOps : List Op :=
  [.addNode 1, .addNode 2, .addNode 3, .addNode 4, .addLink 1 2 10, .addLink 2 3 11, .addLink 3 1 12,
    .addLink 3 4 13]

/-- The walk 1 2 3 1 2 3 4 meets the premise; what is left is 1 2 3 4, along the last round. -/
example : Walk (run empty cycOps) 1 [10, 11, 12, 10, 11, 13] 4 ∧
    eliminateCycles (walkNodes (run empty cycOps) 1 [10, 11, 12, 10, 11, 13]) [10, 11, 12, 10, 11, 13] =
      .ok ([1, 2, 3, 4], [10, 11, 13]) := by
  refine ⟨⟨2, by decide +kernel, 3, by decide +kernel, 1, by decide +kernel, 2, by decide +kernel, 3,
    by decide +kernel, 4, by decide +kernel, rfl⟩, by decide +kernel⟩

/-- Eliminating cycles twice is the same as once. -/
theorem C35_idempotent (g : G) (ls ls' : List ℤ) (u v : ℤ) (h : Walk g u ls v)
    (he : eliminateCycles (walkNodes g u ls) ls = .ok (walkNodes g u ls', ls')) :
    eliminateCycles (walkNodes g u ls') ls' = .ok (walkNodes g u ls', ls') := by
  obtain ⟨l1, a, b, c, _, _⟩ := eliminate_spec g ls u v h
  rw [a] at he
  have hl : l1 = ls' := (Prod.ext_iff.1 (Res.ok.inj he)).2
  subst hl
  obtain ⟨l2, a2, _, _, _, e2⟩ := eliminate_spec g l1 u v b
  rw [e2 c] at a2
  exact a2

example : Walk (run empty cycOps) 1 [10, 11, 13] 4 :=
  ⟨2, by decide +kernel, 3, by decide +kernel, 4, by decide +kernel, rfl⟩

/-! ## C42 -/

/-- **C42.**  For every network, demand and number of iterations (`GoodInst`: origins at different
nodes, destinations at different nodes, non-negative costs), given enough steps generation ends in the
same way: if some origin cannot reach a destination it has demand for, with an exception; otherwise
with a table.  The table has a set for exactly the pairs with demand; no set holds two paths with the
same links; every path is a walk from origin to destination with its node sequence, longer than the
minimum length; and the first path is a cheapest one at free flow, unless that one is too short. -/
theorem C42_path_sets (ops : List Op) (x : Inst) (hg : x.g = run empty ops) (hx : GoodInst x) (maxIter : ℕ) :
    ∃ N, ((∃ o d, HasDemand x o d ∧ ∀ ls, ¬ Walk x.g o ls d) →
        ∀ n, N ≤ n → buildPathset n x maxIter = .throw "no path between origin and destination") ∧
      ((∀ o d, HasDemand x o d → ∃ ls, Walk x.g o ls d) →
        ∃ t, (∀ n, N ≤ n → buildPathset n x maxIter = .ok t) ∧
          (∀ o d, ¬ HasDemand x o d → t o d = none) ∧
          ∀ o d, HasDemand x o d → ∃ ps, t o d = some ps ∧ GoodSet x o d ps ∧
            ∃ ls, Walk x.g o ls d ∧ Least x.g (freeW x) o d (walkCost (freeW x) ls) ∧
              (x.minLen < (ls.map x.len).sum → ps.head? = some (walkNodes x.g o ls, ls))) := by
  rcases buildPathset_ok ops hg hx maxIter with ⟨t, ⟨t0, h0, h1, h2⟩, N, hN⟩ | ⟨m, ⟨rfl, o, d, hd, hw⟩, N, hN⟩
  · refine ⟨N, ?_, fun _ => ⟨t, hN, ?_, ?_⟩⟩
    · rintro ⟨o, d, hd, hw⟩
      obtain ⟨ls, a, _⟩ := h0.done o d hd trivial
      exact absurd a (hw ls)
    · intro o d hn
      have := mt (h2.dom o d).1 hn
      simpa using this
    · intro o d hd
      obtain ⟨ls, a, b, c⟩ := h0.done o d hd trivial
      obtain ⟨qs, e⟩ := h1 o d _ c
      refine ⟨_, e, h2.set o d _ e, ls, a, b, fun hl => ?_⟩
      rw [if_pos hl]
      rfl
  · refine ⟨N, fun _ => hN, fun h => ?_⟩
    obtain ⟨ls, a⟩ := h o d hd
    exact absurd a (hw ls)

/-- A network with two routes from 1 to 3, one link dearer than the other two together. -/
def pgInst : Inst where
  g := run empty spOps
  origins := [(1, fun d => d == 0), (2, fun d => d == 0)]
  dests := [(0, 3), (1, 4)]
  tt l := if l = 12 then 5 else 1
  toll _ := 0
  len _ := 1
  vot := 1
  mid := 3
  heavy := 6
  minLen := 0

/-- The premises hold, and the second iteration finds the alternative route. -/
theorem pgGood : GoodInst pgInst :=
  ⟨⟨by decide +kernel, by decide +kernel⟩, ⟨by decide +kernel, by decide +kernel⟩, by decide +kernel,
    by decide +kernel, by decide +kernel, by decide +kernel⟩

example : (buildPathset 12 pgInst 1).bind (fun t => .ok [t 1 3, t 2 3, t 1 4]) =
    .ok [some [([1, 2, 3], [10, 11]), ([1, 3], [12])], some [([2, 3], [11])], none] := by decide +kernel

/-- Without the premise the claim fails: two destinations at the same node give the same path twice. -/
theorem C42_shared_node_duplicates :
    (buildPathset 12 { pgInst with
        origins := [(1, fun _ => true)]
        dests := [(0, 3), (1, 3)] } 0).bind (fun t => .ok (t 1 3)) =
      .ok (some [([1, 2, 3], [10, 11]), ([1, 2, 3], [10, 11])]) := by decide +kernel

/-- And two origins at the same node make the second one's sets missing: the generation follows a
dangling iterator. -/
theorem C42_shared_origin_undefined :
    (buildPathset 12 { pgInst with
        origins := [(1, fun d => d == 0), (1, fun d => d == 1)] } 0).bind (fun t => .ok (t 1 3)) = .ub := by
  decide +kernel

end Verif

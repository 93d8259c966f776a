import Verif.Lemmas.MmPaths
import Verif.Spec.MmRoutes

/-!
# Reading the files of bus paths and of bus routes
-/

namespace Verif.MmRt
open Text Graph Io MmPt

theorem readStops_none (E : Env) (o d : ℤ) (f : ℤ → Option Served) : ∀ ks : List ℤ, (∀ k ∈ ks, IntOk k) →
    readStops E o d none f (ks.map toStr) = .ok (ks, f)
  | [], _ => rfl
  | k :: ks, h => by
    rw [List.map_cons, readStops, stoi_toStr k (h k (by simp)), Res.bind_ok']
    simp only
    rw [readStops_none E o d f ks fun x hx => h x (by simp [hx])]
    rfl

theorem readStops_some (E : Env) (o d n : ℤ) : ∀ (ks : List ℤ) (f : ℤ → Option Served), (∀ k ∈ ks, IntOk k) →
    (∀ k ∈ ks, E.virtualStop k = some true) →
    ∃ f', readStops E o d (some n) f (ks.map toStr) = .ok (ks, f') ∧
      ∀ k, f' k = if k ∈ ks then some ⟨o, d, n⟩ else f k
  | [], f, _, _ => ⟨f, rfl, fun k => by simp⟩
  | k :: ks, f, h, hv => by
    obtain ⟨f', e1, e2⟩ := readStops_some E o d n ks (upd f k (some ⟨o, d, n⟩)) (fun x hx => h x (by simp [hx]))
      fun x hx => hv x (by simp [hx])
    refine ⟨f', ?_, fun k' => ?_⟩
    · rw [List.map_cons, readStops, stoi_toStr k (h k (by simp)), Res.bind_ok']
      simp only
      rw [hv k (by simp)]
      simp only
      rw [e1]
      rfl
    · rw [e2 k']
      by_cases hk : k' ∈ ks
      · simp [hk]
      · by_cases hkk : k' = k
        · subst hkk
          simp [hk]
        · rw [if_neg hk, if_neg (by simp [hk, hkk]), upd_other _ _ _ _ hkk]

/-- What a stop knows after a route has been read. -/
def told (r : Route) (tot : Option ℤ) (f : ℤ → Option Served) (k : ℤ) : Option Served :=
  match tot with
  | none => f k
  | some n => if k ∈ r.stops then some ⟨r.o, r.d, n⟩ else f k

theorem row_eq (ops : List Op) (fuel : ℕ) (hf : sizeLinks (run empty ops) < fuel) (E : Env) (hg : E.g = run empty ops)
    (r : Route) (h : RouteOk E r) (tot : Option ℤ) (ht : total E r.o r.d r.route = .ok tot)
    (hv : tot ≠ none → ∀ k ∈ r.stops, E.virtualStop k = some true) (s : St)
    (hnew : s.table r.o r.d r.route = none) :
    ∃ s', row fuel E s (lineOf r.pathRow) (lineOf r.stopRow) = .ok s' ∧ s'.counter = s.counter + 1 ∧
      (∀ o d k, s'.table o d k = if o = r.o ∧ d = r.d ∧ k = r.route then some ⟨s.counter, r.nodes, r.links, r.stops⟩
        else s.table o d k) ∧ ∀ k, s'.served k = told r tot s.served k := by
  obtain ⟨u, v, hp⟩ := h.walk
  rw [hg] at hp
  obtain ⟨last, hl⟩ := findLinks_eq ops fuel hf r.links u v s.last hp.walk hp.single
  have hfl : findLinks fuel E.g s.last r.nodes = .ok (r.links, last) := by
    rw [hg, show r.nodes = _ from hp.nodes]; exact hl
  obtain ⟨q, hq⟩ := walkNodes_head (run empty ops) u r.links
  have hne : r.nodes ≠ [] := by rw [show r.nodes = _ from hp.nodes, hq]; simp
  have hst : stois (r.nodes.map toStr) = .ok r.nodes := stois_toStr _ hp.range
  obtain ⟨f', e1, e2⟩ : ∃ f', readStops E r.o r.d tot s.served (r.stops.map toStr) = .ok (r.stops, f') ∧
      ∀ k, f' k = told r tot s.served k := by
    cases tot with
    | none => exact ⟨_, readStops_none E _ _ _ _ h.range.2.2.2, fun _ => rfl⟩
    | some n => exact readStops_some E _ _ n _ _ h.range.2.2.2 (hv (by simp))
  refine ⟨⟨fun o' d' r' => if o' = r.o ∧ d' = r.d ∧ r' = r.route then some ⟨s.counter, r.nodes, r.links, r.stops⟩
    else s.table o' d' r', s.counter + 1, last, f'⟩, ?_, rfl, fun o d k => rfl, e2⟩
  · unfold row Route.pathRow Route.stopRow
    rw [split_line (rowOk_ints _ _), split_line (rowOk_ints _ _)]
    simp only [List.map_cons]
    rw [stoi_toStr _ h.range.1, Res.bind_ok', stoi_toStr _ h.range.2.1, Res.bind_ok', stoi_toStr _ h.range.2.2.1, Res.bind_ok',
      ht, Res.bind_ok', hnew]
    simp only
    rw [hst, Res.bind_ok', e1, Res.bind_ok', if_neg hne, hfl, Res.bind_ok']

theorem loop_eq (ops : List Op) (fuel : ℕ) (hf : sizeLinks (run empty ops) < fuel) (E : Env) (hg : E.g = run empty ops)
    (T : Route → Option ℤ) : ∀ (rows : List Route) (i j : In) (s : St) (x y : List Str),
    (∀ r ∈ rows, RouteOk E r ∧ total E r.o r.d r.route = .ok (T r) ∧
      (T r ≠ none → ∀ k ∈ r.stops, E.virtualStop k = some true)) →
    (rows.map fun r => (r.o, r.d, r.route)).Nodup → (∀ r ∈ rows, s.table r.o r.d r.route = none) →
    Has i ((rows.map Route.pathRow).map lineOf ++ x) → Has j ((rows.map Route.stopRow).map lineOf ++ y) →
    ∃ s', loop fuel E rows.length i j s = .ok s' ∧
      (∀ n r, rows[n]? = some r → s'.table r.o r.d r.route = some ⟨s.counter + n, r.nodes, r.links, r.stops⟩) ∧
      (∀ o d k, (o, d, k) ∉ rows.map (fun r => (r.o, r.d, r.route)) → s'.table o d k = s.table o d k) ∧
      ∀ k, s'.served k = rows.foldl (fun f r => told r (T r) f) s.served k
  | [], _, _, s, _, _, _, _, _, _, _ => ⟨s, rfl, fun n r h => by simp at h, fun _ _ _ _ => rfl, fun _ => rfl⟩
  | r :: rows, i, j, s, x, y, h, hnd, hnew, hi, hj => by
    obtain ⟨h1, h2, h3⟩ := h r (by simp)
    obtain ⟨s1, e1, e2, e3, e4⟩ := row_eq ops fuel hf E hg r h1 (T r) h2 h3 s (hnew r (by simp))
    rw [List.map_cons, List.nodup_cons] at hnd
    rw [List.map_cons, List.map_cons, List.cons_append] at hi hj
    have li : trim (getline i).line = lineOf r.pathRow := by
      rw [(getline_spec hi []).1, trim_eq, show r.pathRow = (r.o :: r.d :: r.route :: r.nodes).map toStr from rfl,
        strip_line (rowOk_ints _ _).1]
    have lj : trim (getline j).line = lineOf r.stopRow := by
      rw [(getline_spec hj []).1, trim_eq, show r.stopRow = (r.o :: r.d :: r.route :: r.stops).map toStr from rfl,
        strip_line (rowOk_ints _ _).1]
    obtain ⟨s', g1, g2, g3, g4⟩ := loop_eq ops fuel hf E hg T rows _ _ s1 x y (fun q hq => h q (by simp [hq])) hnd.2
      (fun q hq => by
        rw [e3, if_neg]
        · exact hnew q (by simp [hq])
        · rintro ⟨a, b, c⟩
          exact hnd.1 (List.mem_map.2 ⟨q, hq, by rw [a, b, c]⟩))
      (getline_spec hi (trim (getline i).line)).2 (getline_spec hj (trim (getline j).line)).2
    refine ⟨s', ?_, ?_, ?_, ?_⟩
    · rw [List.length_cons, loop]
      rw [li, lj, e1, Res.bind_ok', ← li, ← lj]
      exact g1
    · intro n q hq
      cases n with
      | zero =>
        simp only [List.getElem?_cons_zero, Option.some.injEq] at hq
        subst hq
        rw [g3 _ _ _ hnd.1, e3]
        simp
      | succ n =>
        rw [List.getElem?_cons_succ] at hq
        rw [g2 n q hq, e2]
        simp only [Option.some.injEq, BusRec.mk.injEq, and_true]
        omega
    · intro o d k hk
      rw [List.map_cons, List.mem_cons, not_or] at hk
      rw [g3 o d k hk.2, e3, if_neg]
      rintro ⟨rfl, rfl, rfl⟩
      exact hk.1 rfl
    · intro k
      rw [g4 k, List.foldl_cons, show s1.served = told r (T r) s.served from funext e4]

/-- A stop that the rest of the routes does not serve. -/
theorem told_rest (T : Route → Option ℤ) (k : ℤ) : ∀ (rows : List Route) (f : ℤ → Option Served),
    (∀ r ∈ rows, k ∉ r.stops ∨ T r = none) → rows.foldl (fun f r => told r (T r) f) f k = f k
  | [], _, _ => rfl
  | r :: rows, f, h => by
    rw [List.foldl_cons, told_rest T k rows _ fun q hq => h q (by simp [hq])]
    unfold told
    rcases h r (by simp) with hk | hk
    · cases T r <;> simp [hk]
    · rw [hk]

theorem roundC_spec {x : ℚ} (h : 0 ≤ x) : (roundC x : ℚ) - 1 / 2 ≤ x ∧ x < roundC x + 1 / 2 := by
  unfold roundC
  rw [if_pos h]
  have h1 := Int.floor_le (x + 1 / 2)
  have h2 := Int.lt_floor_add_one (x + 1 / 2)
  constructor <;> linarith

theorem sumDemand_nonneg {scalar : ℚ} (h : 0 < scalar) : ∀ v : List ℚ, (∀ x ∈ v, 0 ≤ x) → 0 ≤ sumDemand scalar v
  | [], _ => by simp [sumDemand]
  | x :: v, hv => by
    have ih := sumDemand_nonneg h v fun y hy => hv y (by simp [hy])
    unfold sumDemand at ih ⊢
    rw [List.map_cons, List.sum_cons]
    have h1 : (0 : ℤ) ≤ ⌊x * scalar⌋ := Int.floor_nonneg.2 (mul_nonneg (hv x (by simp)) h.le)
    have h2 : (0 : ℚ) ≤ (⌊x * scalar⌋ : ℚ) / scalar := div_nonneg (by exact_mod_cast h1) h.le
    linarith

end Verif.MmRt

import Verif.Lemmas.MmRoutes

/-!
# C209: the files of bus paths and of bus routes
-/

namespace Verif
open Text Graph Io MmRt

private theorem total_none {E : Env} (h : E.num ≤ 0) (o d r : ℤ) : total E o d r = .ok none := by
  unfold total
  rw [if_pos h]

private theorem total_some {E : Env} (h : 0 < E.num) {r : Route} (hr : RouteOk E r) {v : List ℚ}
    (hv : E.demand r.o r.d r.route = some v) :
    total E r.o r.d r.route = .ok (some (roundC (sumDemand E.scalar (v.take E.num.toNat)))) := by
  obtain ⟨h1, h2, ⟨w, h3, h4, _⟩, _⟩ := hr.ends h
  rw [hv] at h3
  cases h3
  unfold total
  rw [if_neg (by omega), h1]
  simp only
  rw [if_neg (by simp), h2]
  simp only
  rw [if_neg (by simp), hv]
  simp only
  rw [if_neg (by omega)]

private def totOf (E : Env) (r : Route) : Option ℤ :=
  match total E r.o r.d r.route with
  | .ok t => t
  | _ => none

private theorem open_file (hd : Str) (h : '\n' ∉ hd) (rows : List (List Str)) (hr : ∀ ws ∈ rows, RowOk ws) :
    Has (getline (In.open (fileOf hd rows))) (rows.map lineOf ++ [[]]) := by
  have hh := has_open (fileOf hd rows)
  have e : linesOf (fileOf hd rows) = hd :: (rows.map lineOf ++ [[]]) := by
    unfold fileOf linesOf
    rw [List.splitOn_append_cons_self_of_not_mem h]
    have := linesOf_text hr
    unfold linesOf at this
    rw [this]
  rw [e] at hh
  exact (getline_spec hh (getline (In.open (fileOf hd rows))).line).2

/-- C209: from a file with the paths of routes and a file with the stops of the same routes in the same order, each route
(at most once in the files) gets the nodes, the links between them and the stops of its rows, and its position as
number; there are no other routes.  If it is asked for, every stop is told the ends of the last route that serves it and
its number of buses, rounded to the nearest whole number; other stops keep what they know. -/
theorem C209_bus_routes (ops : List Op) (E : Env) (hg : E.g = run empty ops) (hs : 0 < E.scalar) (served : ℤ → Option Served)
    (rows : List Route) (hne : rows ≠ []) (hok : ∀ r ∈ rows, RouteOk E r)
    (hnd : (rows.map fun r => (r.o, r.d, r.route)).Nodup) (h1 h2 : Str) (n1 : '\n' ∉ h1) (n2 : '\n' ∉ h2) (fuel : ℕ)
    (hf : sizeLinks (run empty ops) < fuel) :
    ∃ s, load fuel E served rows.length (some (fileOf h1 (rows.map Route.pathRow)))
        (some (fileOf h2 (rows.map Route.stopRow))) = .ok (some s) ∧
      (∀ n r, rows[n]? = some r → s.table r.o r.d r.route = some ⟨n, r.nodes, r.links, r.stops⟩) ∧
      (∀ o d k, (∀ r ∈ rows, ¬(r.o = o ∧ r.d = d ∧ r.route = k)) → s.table o d k = none) ∧
      (E.num ≤ 0 → s.served = served) ∧
      (0 < E.num → ∀ k, ((∀ r ∈ rows, k ∉ r.stops) → s.served k = served k) ∧
        ∀ pre r post, rows = pre ++ r :: post → k ∈ r.stops → (∀ q ∈ post, k ∉ q.stops) →
          ∀ v, E.demand r.o r.d r.route = some v → ∃ n : ℤ, s.served k = some ⟨r.o, r.d, n⟩ ∧
            (n : ℚ) - 1 / 2 ≤ buses E.scalar E.num.toNat v ∧ buses E.scalar E.num.toNat v < n + 1 / 2) := by
  have hT : ∀ r ∈ rows, RouteOk E r ∧ total E r.o r.d r.route = .ok (totOf E r) ∧
      (totOf E r ≠ none → ∀ k ∈ r.stops, E.virtualStop k = some true) := by
    intro r hr
    have hro := hok r hr
    rcases le_or_gt E.num 0 with hn | hn
    · have e := total_none hn r.o r.d r.route
      exact ⟨hro, by rw [totOf, e], fun h => absurd (by rw [totOf, e]) h⟩
    · obtain ⟨_, _, ⟨v, hv, _⟩, hst⟩ := hro.ends hn
      have e := total_some hn hro hv
      exact ⟨hro, by rw [totOf, e], fun _ => hst⟩
  obtain ⟨s, e1, e2, e3, e4⟩ := loop_eq ops fuel hf E hg (totOf E) rows (getline (In.open (fileOf h1 (rows.map Route.pathRow))))
    (getline (In.open (fileOf h2 (rows.map Route.stopRow)))) ⟨fun _ _ _ => none, 0, none, served⟩ [[]] [[]] hT hnd
    (fun _ _ => rfl) (open_file h1 n1 _ fun ws hws => by
      obtain ⟨r, _, rfl⟩ := List.mem_map.1 hws
      exact MmPt.rowOk_ints _ _)
    (open_file h2 n2 _ fun ws hws => by
      obtain ⟨r, _, rfl⟩ := List.mem_map.1 hws
      exact MmPt.rowOk_ints _ _)
  refine ⟨s, ?_, fun n r h => by rw [e2 n r h]; simp, fun o d k h => ?_, fun hn => ?_, fun hn k => ⟨fun h => ?_, ?_⟩⟩
  · have hpos : 0 < rows.length := List.length_pos_iff.2 hne
    unfold load
    rw [if_neg (by omega)]
    simp only [Int.toNat_natCast]
    rw [e1]
    rfl
  · rw [e3 o d k]
    intro hm
    obtain ⟨r, hr, e⟩ := List.mem_map.1 hm
    simp only [Prod.mk.injEq] at e
    exact h r hr e
  · funext k
    rw [e4 k]
    exact told_rest (totOf E) k rows served fun r _ => .inr (by rw [totOf, total_none hn])
  · rw [e4 k]
    exact told_rest (totOf E) k rows served fun r hr => .inl (h r hr)
  · intro pre r post hrows hk hpost v hv
    have hr : r ∈ rows := by rw [hrows]; simp
    refine ⟨roundC (sumDemand E.scalar (v.take E.num.toNat)), ?_, ?_⟩
    · rw [e4 k, hrows, List.foldl_append, List.foldl_cons, told_rest (totOf E) k post _ fun q hq => .inl (hpost q hq)]
      rw [totOf, total_some hn (hok r hr) hv]
      simp only [told]
      rw [if_pos hk]
    · obtain ⟨_, _, ⟨w, h3, _, h5⟩, _⟩ := (hok r hr).ends hn
      rw [hv] at h3
      cases h3
      exact roundC_spec (sumDemand_nonneg hs _ fun x hx => h5 x (List.mem_of_mem_take hx))

/-- Nodes 1, 2, 3; links 10 from 1 to 2 and 11 from 2 to 3. -/
def mrOps : List Op := [.addNode 1, .addNode 2, .addNode 3, .addLink 1 2 10, .addLink 2 3 11]

/-- Two routes from 1 to 3; of each there are 2 vehicles for a bus, and intervals with 1.5 and 1 buses. -/
def mrEnv : Env := ⟨run empty mrOps, [(1, .origin), (3, .dest)], 2, 2,
  fun o d r => if o = 1 ∧ d = 3 ∧ (r = 7 ∨ r = 8) then some [3 / 2, 1] else none, fun k => if 50 ≤ k then some true else none⟩

def mrRows : List Route := [⟨1, 3, 7, [1, 2, 3], [10, 11], [50, 51]⟩, ⟨1, 3, 8, [1, 2, 3], [10, 11], [52]⟩]

example : mrEnv.g = run empty mrOps ∧ 0 < mrEnv.scalar ∧ mrRows ≠ [] ∧ (∀ r ∈ mrRows, RouteOk mrEnv r) ∧
    (mrRows.map fun r => (r.o, r.d, r.route)).Nodup ∧ '\n' ∉ "#".toList := by
  have e10 : getEndpoints (run empty mrOps) 10 = .ok (1, 2) := by decide +kernel
  have e11 : getEndpoints (run empty mrOps) 11 = .ok (2, 3) := by decide +kernel
  have only : ∀ l, l ∈ linkIds (run empty mrOps) → l = 10 ∨ l = 11 := by
    have : linkIds (run empty mrOps) = [10, 11] := by decide +kernel
    rw [this]; simp
  have one : ∀ l ∈ ([10, 11] : List ℤ), ∀ l', getEndpoints (run empty mrOps) l' = getEndpoints (run empty mrOps) l → l' = l := by
    intro l hl l' h
    have hin : l' ∈ linkIds (run empty mrOps) := by
      by_contra hn
      rw [(C05_endpoints_unknown mrOps l').1 hn] at h
      simp only [List.mem_cons, List.not_mem_nil, or_false] at hl
      rcases hl with rfl | rfl
      · rw [e10] at h; simp at h
      · rw [e11] at h; simp at h
    simp only [List.mem_cons, List.not_mem_nil, or_false] at hl
    rcases only l' hin with rfl | rfl <;> rcases hl with rfl | rfl <;> first | rfl | (rw [e10, e11] at h; simp at h)
  have hp : PathOk (run empty mrOps) 1 3 ⟨0, [1, 2, 3], [10, 11]⟩ :=
    ⟨⟨2, e10, 3, e11, rfl⟩, by simp, by simp [Sp.walkNodes, e10, e11], fun l hl => one l (by simpa using hl), by simp [IntOk]⟩
  refine ⟨rfl, by decide +kernel, by decide, ?_, by decide +kernel, by decide⟩
  intro r hr
  simp only [mrRows, List.mem_cons, List.not_mem_nil, or_false] at hr
  rcases hr with rfl | rfl
  · exact ⟨⟨1, 3, hp⟩, by simp [IntOk], fun _ => ⟨by decide +kernel, by decide +kernel, ⟨[3 / 2, 1], by decide +kernel,
      by decide +kernel, by decide +kernel⟩, by decide +kernel⟩⟩
  · exact ⟨⟨1, 3, hp⟩, by simp [IntOk], fun _ => ⟨by decide +kernel, by decide +kernel, ⟨[3 / 2, 1], by decide +kernel,
      by decide +kernel, by decide +kernel⟩, by decide +kernel⟩⟩

/-- The two files. -/
example : fileOf "#".toList (mrRows.map Route.pathRow) = "#\n1 3 7 1 2 3\n1 3 8 1 2 3\n".toList ∧
    fileOf "#".toList (mrRows.map Route.stopRow) = "#\n1 3 7 50 51\n1 3 8 52\n".toList ∧
    ((load 9 mrEnv (fun _ => none) 2 (some "#\n1 3 7 1 2 3\n1 3 8 1 2 3\n".toList) (some "#\n1 3 7 50 51\n1 3 8 52\n".toList)).bind
      fun s => .ok (s.map fun s => (s.table 1 3 7, s.table 1 3 8, s.served 51, s.served 53))) =
      .ok (some (some ⟨0, [1, 2, 3], [10, 11], [50, 51]⟩, some ⟨1, [1, 2, 3], [10, 11], [52]⟩, some ⟨1, 3, 3⟩, none)) := by
  decide +kernel

/-- C209: the rows of the two files are matched by position only.  The ends and the number of the route in the file of
stops are never looked at: whatever they are, nothing changes. -/
theorem C209_numbers_of_stop_rows_ignored (fuel : ℕ) (E : Env) (s : MmRt.St) (pl rl rl' : Str) (a b c a' b' c' : Str)
    (vs : List Str) (h : wordsOf rl = a :: b :: c :: vs) (h' : wordsOf rl' = a' :: b' :: c' :: vs) :
    row fuel E s pl rl = row fuel E s pl rl' := by
  unfold row
  rw [split_eq rl, split_eq rl', h, h']
  rcases split pl ' ' with _ | ⟨x, _ | ⟨y, _ | ⟨z, ws⟩⟩⟩ <;> rfl

/-- So with the rows of the file of stops in the other order, route 7 gets the stop of route 8. -/
example : wordsOf "1 3 7 52".toList = ["1".toList, "3".toList, "7".toList, "52".toList] ∧
    ((load 9 mrEnv (fun _ => none) 2 (some "#\n1 3 7 1 2 3\n1 3 8 1 2 3\n".toList) (some "#\n1 3 8 52\n1 3 7 50 51\n".toList)).bind
      fun s => .ok (s.map fun s => (s.table 1 3 7).map fun p => p.stops)) = .ok (some (some [52])) := by
  decide +kernel

/-- C209: a route without nodes makes the reader read outside of a vector. -/
theorem C209_false_no_nodes (fuel : ℕ) (E : Env) (s : MmRt.St) (o d r : ℤ) (ks : List ℤ) (ho : IntOk o) (hd : IntOk d)
    (hr : IntOk r) (hk : ∀ k ∈ ks, IntOk k) (hn : E.num ≤ 0) (hnew : s.table o d r = none) :
    row fuel E s (lineOf ([o, d, r].map toStr)) (lineOf ((o :: d :: r :: ks).map toStr)) = .ub := by
  unfold row
  rw [split_line (MmPt.rowOk_ints _ _), split_line (MmPt.rowOk_ints _ _)]
  simp only [List.map_cons, List.map_nil]
  rw [stoi_toStr o ho, Res.bind_ok', stoi_toStr d hd, Res.bind_ok', stoi_toStr r hr, Res.bind_ok', total_none hn, Res.bind_ok',
    hnew]
  simp only
  rw [show stois [] = .ok [] from rfl, Res.bind_ok', readStops_none E o d _ ks hk, Res.bind_ok', if_pos rfl]

example : (load 9 { mrEnv with num := 0 } (fun _ => none) 1 (some "#\n1 3 7\n".toList) (some "#\n1 3 7 50 51\n".toList)).isOk = false := by
  decide +kernel

/-- C209: the first row of a route counts; later ones change nothing. -/
theorem C209_first_row_counts (fuel : ℕ) (E : Env) (s : MmRt.St) (o d r : ℤ) (ns ks : List ℤ) (ho : IntOk o) (hd : IntOk d)
    (hr : IntOk r) (t : Option ℤ) (ht : total E o d r = .ok t) (p : BusRec) (hold : s.table o d r = some p) :
    row fuel E s (lineOf ((o :: d :: r :: ns).map toStr)) (lineOf ((o :: d :: r :: ks).map toStr)) = .ok s := by
  unfold row
  rw [split_line (MmPt.rowOk_ints _ _), split_line (MmPt.rowOk_ints _ _)]
  simp only [List.map_cons]
  rw [stoi_toStr o ho, Res.bind_ok', stoi_toStr d hd, Res.bind_ok', stoi_toStr r hr, Res.bind_ok', ht, Res.bind_ok', hold]

example : total mrEnv 1 3 7 = .ok (some 3) ∧
    ((load 9 mrEnv (fun _ => none) 2 (some "#\n1 3 7 1 2 3\n1 3 7 1 2\n".toList) (some "#\n1 3 7 50 51\n1 3 7 52\n".toList)).bind
      fun s => .ok (s.map fun s => (s.table 1 3 7, s.served 52))) =
      .ok (some (some ⟨0, [1, 2, 3], [10, 11], [50, 51]⟩, none)) := by
  decide +kernel

end Verif

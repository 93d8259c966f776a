import Verif.Lemmas.Readers
import Verif.Lemmas.MmPaths
import Verif.Spec.TourFiles

/-!
# Files of tours
-/

namespace Verif.TourF
open Text Io Rd

/-- What is read in line `k` from now on. -/
def ahead (i : In) (ps : List Str) (k : ℕ) : Str := ps.getD k ((i.line :: ps).getLast (by simp))

theorem ahead_spec {i : In} {ps : List Str} (h : Has i ps) :
    ahead i ps 0 = (getline i).line ∧ Has (getline i) ps.tail ∧ ∀ k, ahead i ps (k + 1) = ahead (getline i) ps.tail k := by
  cases ps with
  | nil =>
    have e := getline_done h
    rw [e]
    exact ⟨rfl, h, fun _ => rfl⟩
  | cons p ps =>
    obtain ⟨h1, h2⟩ := getline_spec h (getline i).line
    refine ⟨h1.symm, h2, fun k => ?_⟩
    unfold ahead
    simp only [List.getD_cons_succ, List.tail_cons, h1]
    congr 1

theorem loop2_eq {σ : Type} {body : σ → Str → Str → Res σ} : ∀ (n : ℕ) (ps qs : List Str) (i j : In) (s : σ), Has i ps → Has j qs →
    loop2 body n i j s = Res.foldlM (fun s p => body s p.1 p.2) s ((List.range n).map fun k => (ahead i ps k, ahead j qs k)) := by
  intro n
  induction n with
  | zero => intro ps qs i j s _ _; rfl
  | succ n ih =>
    intro ps qs i j s hi hj
    obtain ⟨a1, a2, a3⟩ := ahead_spec hi
    obtain ⟨b1, b2, b3⟩ := ahead_spec hj
    rw [loop2, List.range_succ_eq_map, List.map_cons, Res.foldlM_cons]
    simp only [a1, b1, List.map_map]
    cases body s (getline i).line (getline j).line with
    | ok s' =>
      rw [Res.bind_ok', Res.ok_bind, ih _ _ _ _ s' a2 b2]
      congr 1
      apply List.map_congr_left
      intro k _
      simp only [Function.comp_apply, a3, b3]
    | throw m => rfl
    | ub => rfl
    | diverge => rfl

theorem ahead_file (content : Str) : ∃ ps, Has (getline (In.open content)) ps ∧
    ∀ k, ahead (getline (In.open content)) ps k = lineAt content (k + 1) := by
  obtain ⟨p, ps, hp⟩ : ∃ p ps, linesOf content = p :: ps :=
    List.exists_cons_of_ne_nil (List.splitOn_ne_nil '\n' content)
  have h := has_open content
  rw [hp] at h
  obtain ⟨h1, h2⟩ := getline_spec h (getline (In.open content)).line
  refine ⟨ps, h2, fun k => ?_⟩
  unfold ahead lineAt
  rw [hp, List.getD_cons_succ]
  have h1' : (getline (In.open content)).line = p := h1
  simp only [h1']
  cases ps <;> simp [List.getLastD]

/-- Two files read in step. -/
theorem loop2_file {σ : Type} {body : σ → Str → Str → Res σ} (n : ℕ) (a b : Str) (s : σ) :
    loop2 body n (getline (In.open a)) (getline (In.open b)) s =
      Res.foldlM (fun s k => body s (lineAt a (k + 1)) (lineAt b (k + 1))) s (List.range n) := by
  obtain ⟨ps, h1, h2⟩ := ahead_file a
  obtain ⟨qs, h3, h4⟩ := ahead_file b
  rw [loop2_eq n ps qs _ _ s h1 h3, foldlM_map]
  simp only [h2, h4]

theorem readTrips_eq {os ds : List ℤ} : ∀ (ts : List (ℤ × ℤ)),
    (∀ t ∈ ts, IntOk t.1 ∧ IntOk t.2 ∧ t.1 ∈ os ∧ t.2 ∈ ds) →
    readTrips os ds ((ts.flatMap fun t => [t.1, t.2]).map toStr) = .ok ts := by
  intro ts
  induction ts with
  | nil => intro _; rfl
  | cons t ts ih =>
    intro h
    obtain ⟨h1, h2, h3, h4⟩ := h t (by simp)
    simp only [List.flatMap_cons, List.cons_append, List.nil_append, List.map_cons, readTrips]
    rw [stoi_toStr _ h1, Res.bind_ok', stoi_toStr _ h2, Res.bind_ok', if_neg (by simpa using h3), if_neg (by simpa using h4),
      ih fun t ht => h t (by simp [ht]), Res.bind_ok']

theorem trips_rowOk (r : Line) : RowOk r.trips := MmPt.rowOk_ints _ _

theorem demand_rowOk {q : Str → ℚ} {m : ℕ} {os ds : List ℤ} {r : Line} (h : r.Ok q m os ds) (hm : 0 < m) : RowOk r.demand := by
  obtain ⟨h1, h2⟩ := h.demand
  obtain ⟨w, ws, e⟩ := List.exists_cons_of_ne_nil (List.length_pos_iff.1 (h1 ▸ hm))
  exact ⟨fun w hw => (h2 w hw).1, w, ws, e, (h2 w (by rw [e]; simp)).2.1⟩

theorem row_eq {q : Str → ℚ} {m : ℕ} (hm : 0 < m) {os ds : List ℤ} {r : Line} (h : r.Ok q m os ds) (s : List Rec) :
    row m os ds s (lineOf r.trips) (lineOf r.demand) = .ok (s ++ [⟨r.first.1, r.first :: r.rest, r.demand.map q⟩]) := by
  unfold row
  rw [split_line (trips_rowOk r), split_line (demand_rowOk h hm)]
  unfold Line.trips
  rw [readTrips_eq _ h.trips, Res.bind_ok']
  simp only
  rw [if_pos (by exact_mod_cast h.demand.1), stods_eq fun w hw => (h.demand.2 w hw).2.2, Res.bind_ok']

theorem stods_length {ws : List Str} {v : List ℚ} (h : stods ws = .ok v) : v.length = ws.length := by
  have key : ∀ (ws : List Str) (acc v : List ℚ),
      Res.foldlM (fun acc w => (stod w).bind fun x => .ok (acc ++ [x])) acc ws = .ok v → v.length = acc.length + ws.length := by
    intro ws
    induction ws with
    | nil => intro acc v h; simp at h; subst h; simp
    | cons w ws ih =>
      intro acc v h
      rw [Res.foldlM_cons] at h
      obtain ⟨acc', h1, h2⟩ := Res.bind_eq_ok.1 h
      obtain ⟨x, _, h3⟩ := Res.bind_eq_ok'.1 h1
      simp only [Res.ok.injEq] at h3
      subst h3
      rw [ih _ _ h2]
      simp only [List.length_append, List.length_cons, List.length_nil]
      omega
  simpa using key ws [] v h

/-- Reading a good row. -/
theorem readTrips_ok {os ds : List ℤ} : ∀ (ws : List Str) (ts : List (ℤ × ℤ)), readTrips os ds ws = .ok ts →
    ws.length = 2 * ts.length ∧ ∀ t ∈ ts, t.1 ∈ os ∧ t.2 ∈ ds
  | [], ts, h => by
    simp only [readTrips, Res.ok.injEq] at h
    subst h
    simp
  | [w], ts, h => by
    simp only [readTrips] at h
    obtain ⟨_, _, h⟩ := Res.bind_eq_ok'.1 h
    simp at h
  | w0 :: w1 :: ws, ts, h => by
    simp only [readTrips] at h
    obtain ⟨o, _, h⟩ := Res.bind_eq_ok'.1 h
    obtain ⟨d, _, h⟩ := Res.bind_eq_ok'.1 h
    split at h
    · simp at h
    split at h
    · simp at h
    rename_i h1 h2
    obtain ⟨r, h3, h4⟩ := Res.bind_eq_ok'.1 h
    simp only [Res.ok.injEq] at h4
    subst h4
    obtain ⟨e1, e2⟩ := readTrips_ok ws r h3
    refine ⟨by simp only [List.length_cons]; omega, ?_⟩
    intro t ht
    rcases List.mem_cons.1 ht with rfl | ht
    · exact ⟨not_not.1 h1, not_not.1 h2⟩
    · exact e2 t ht

end Verif.TourF

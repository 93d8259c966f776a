import Verif.Lemmas.MmStats
import Verif.Props.Transit

/-!
# C207: the queries about passengers underway, and about queues on links
-/

namespace Verif
open Tr MmStats

private theorem rows_ok (scalar : ℚ) (e : List ℤ) (q : List ℕ) (f : ℕ → ℤ) (g : ℕ → ℕ) : ∀ is : List ℕ,
    (∀ i ∈ is, e[i]? = some (f i) ∧ q[i]? = some (g i)) →
    rows scalar e q is = .ok (is.map fun i => ((f i : ℚ) / scalar, (g i : ℚ) / scalar, ((f i : ℚ) - g i) / scalar))
  | [], _ => rfl
  | i :: is, h => by
    obtain ⟨h1, h2⟩ := h i List.mem_cons_self
    rw [rows, h1, h2]
    simp only
    rw [rows_ok scalar e q f g is fun j hj => h j (List.mem_cons_of_mem _ hj), Res.bind_ok']
    simp

/-- C207: after any number of intervals the query about passengers has a row for each interval: the passengers who
have set out by its end and not arrived by then, those who wait at the end of a walking link when its buses begin to
move, and the difference, all divided by the number of vehicles per unit of demand.
What is missing is the queue on each link: see `C207_false_queue_each_link`. -/
theorem C207_passenger_stats_partial (c : Cfg) (hc : c.Wf) (R : Routes) (orcs : List Orc) (hok : ∀ o ∈ orcs, o.Ok R)
    (r : State × ℕ × ℕ) (h : loadMany c orcs 0 0 (State.init c) = .ok r) :
    ∃ rws, passengerStats c r.2.1 r.1 = .ok rws ∧ rws.length = orcs.length ∧
      ∀ i, i < orcs.length → ∃ w, BeforeBuses c orcs i w ∧
        rws[i]? = some ((underway r.1 i : ℚ) / c.scalar, (atEnds c w : ℚ) / c.scalar,
          ((underway r.1 i : ℚ) - atEnds c w) / c.scalar) := by
  have hy : Hyp c R False := ⟨hc, by simp⟩
  have T := load_tally hy hok h
  have hts : r.2.1 = orcs.length := by simpa using loadMany_ts orcs 0 0 _ r h
  have hen : r.1.enrouteNum = (List.range orcs.length).map fun i => (underway r.1 i : ℤ) := T.records.record
  obtain ⟨L, q1, q2, q3⟩ := loadMany_queueNum hy orcs 0 0 _ r hok (Inv.init c R False) h
  have q1 : r.1.queueNum = L := by rw [q1]; rfl
  have key : ∀ i, i < orcs.length → ∃ w, BeforeBuses c orcs i w ∧ L[i]? = some (atEnds c w) := by
    intro i hi
    obtain ⟨si, ai, w, g1, g2, g3⟩ := q3 i orcs[i] (by simp [hi])
    rw [Nat.zero_add] at g1 g2
    exact ⟨w, ⟨orcs[i], si, ai, by simp [hi], g1, g2⟩, g3⟩
  have hrows := rows_ok c.scalar r.1.enrouteNum r.1.queueNum (fun i => (underway r.1 i : ℤ))
    (fun i => (L[i]?).getD 0) (List.range orcs.length) (fun i hi => by
      have hi := List.mem_range.1 hi
      rw [hen, q1]
      exact ⟨by simp [hi], by simp [q2, hi]⟩)
  refine ⟨(List.range orcs.length).map fun i => ((underway r.1 i : ℚ) / c.scalar, ((L[i]?).getD 0 : ℚ) / c.scalar,
      ((underway r.1 i : ℚ) - ((L[i]?).getD 0 : ℚ)) / c.scalar), ?_, ?_, fun i hi => ?_⟩
  · unfold passengerStats
    rw [if_neg (by rw [hen, hts]; simp), if_neg (by rw [hen, hts]; simp), hts, hrows]
    simp
  · simp
  · obtain ⟨w, hw, e⟩ := key i hi
    refine ⟨w, hw, ?_⟩
    simp [hi, e]

example : (Ex.cfg true).Wf ∧ (∀ o ∈ Ex.days.take 11, o.Ok Ex.routes) ∧
    ((loadMany (Ex.cfg true) (Ex.days.take 11) 0 0 (State.init (Ex.cfg true))).bind fun r =>
      (passengerStats (Ex.cfg true) r.2.1 r.1).bind fun x => .ok (x.map fun y => (y.1, y.2.1)))
      = .ok [(3, 0), (3, 3), (3, 3), (3, 3), (3, 1), (3, 0), (3, 0), (3, 0), (3, 1), (2, 1), (1, 1)] :=
  ⟨Ex.wf true, fun o ho => Ex.days_ok o (List.mem_of_mem_take ho), by decide +kernel⟩

private theorem columns_not_ok (decode : ℤ → ℤ → ℚ) (scalar : ℚ) (record : ℤ → Option (List ℕ)) (now : ℕ)
    (links intervals : List ℤ) : ∀ (ts : List ℕ) (r : List (List ℚ)),
      columns decode scalar record now links intervals ts = .ok r →
      ∀ t ∈ ts, (readDouble decode intervals t).isOk = true
  | [], _, _, t, ht => by cases ht
  | u :: ts, r, h, t, ht => by
    rw [columns] at h
    obtain ⟨x, h1, h⟩ := Res.bind_eq_ok'.1 h
    rcases List.mem_cons.1 ht with rfl | ht
    · rw [h1]; rfl
    · split at h
      · cases h
      · obtain ⟨col, _, h⟩ := Res.bind_eq_ok'.1 h
        obtain ⟨r', h2, _⟩ := Res.bind_eq_ok'.1 h
        exact columns_not_ok decode scalar record now links intervals ts r' h2 t ht

private theorem read_last (decode : ℤ → ℤ → ℚ) (a : List ℤ) (h : a ≠ []) :
    readDouble decode a (a.length - 1) = .ub := by
  have : 0 < a.length := List.length_pos_iff.2 h
  unfold readDouble
  rw [show a[2 * (a.length - 1) + 1]? = none from List.getElem?_eq_none (by omega)]
  split
  · next h2 => cases h2
  · rfl

/-- C207: the queries about the vehicles and passengers that queue on links never answer: they read the intervals as
if they were stored as floating point numbers.  Whatever that makes of two neighbouring integers, no call that asks
for an interval succeeds, and a call that asks for a single one always reads outside of the array. -/
theorem C207_false_queue_each_link (decode : ℤ → ℤ → ℚ) (scalar : ℚ) (record : ℤ → Option (List ℕ)) (now : ℕ)
    (links intervals : List ℤ) (h : intervals ≠ []) :
    (∀ r, MmStats.queueEach decode scalar record now links intervals ≠ .ok r) ∧
    (intervals.length = 1 → MmStats.queueEach decode scalar record now links intervals = .ub) := by
  have hpos : 0 < intervals.length := List.length_pos_iff.2 h
  refine ⟨fun r hr => ?_, fun h1 => ?_⟩
  · have := columns_not_ok decode scalar record now links intervals _ r hr (intervals.length - 1)
      (List.mem_range.2 (by omega))
    rw [read_last decode intervals h] at this
    cases this
  · have := read_last decode intervals h
    rw [h1] at this
    unfold MmStats.queueEach
    rw [h1, show List.range 1 = [0] from rfl, columns, show (0 : ℕ) = 1 - 1 from rfl, this]
    rfl

/-- Five intervals have been loaded, nobody queues on link 7, and the query about interval 2 should say 0. -/
example : ([2] : List ℤ) ≠ [] ∧ ([2] : List ℤ).length = 1 ∧
    MmStats.queueEach (fun _ _ => 0) 1 (fun l => if l = 7 then some [0, 0, 0, 0, 0] else none) 5 [7] [2] = .ub ∧
    MmStats.queueEach (fun _ _ => 0) 1 (fun l => if l = 7 then some [0, 0, 0, 0, 0] else none) 5 [7, 0] [2, 0]
      = .throw "can't find link ID" := by
  decide +kernel

end Verif

import Verif.Lemmas.MStats
import Verif.Props.Stats

/-! # C203: recorded volumes and travel times of cars and trucks -/

namespace Verif
open Stat MStat

/-- A loading file: one row with the values of all links for every call. -/
def loadSheet (links : List ℤ) (val : ℤ → ℤ → ℚ) (T : ℕ) : Option Sheet :=
  some ⟨links, (times T).map fun t => (t, links.map (val t))⟩

/-- A record file: one row of means for every period. -/
def meanSheet (n : ℕ) (links : List ℤ) (val : ℤ → ℤ → ℚ) (T : ℕ) : Option Sheet :=
  some ⟨links, meanRows n links val T⟩

private theorem sheets {n : ℕ} (hn : 0 < n) {links : List ℤ} (hl : links.Nodup) (val : ℤ → ℤ → ℚ) (T : ℕ) :
    ((Track.mk (zeros true) (some ⟨links, []⟩) (some ⟨links, []⟩)).run n links links val (times T)).load =
      loadSheet links val T ∧
    ((Track.mk (zeros true) (some ⟨links, []⟩) (some ⟨links, []⟩)).run n links links val (times T)).record =
      meanSheet n links val T := by
  obtain ⟨_, _, a1, a2⟩ := track_run hn hl val (some ⟨links, []⟩) (some ⟨links, []⟩)
    (by intro x hx; cases hx; rfl) (by intro x hx; cases hx; rfl) T
  refine ⟨a1, a2.trans ?_⟩
  unfold meanSheet recRows meanRows lastSum meanUpTo
  push_cast
  rfl

/-- C203.  A loading of two classes over the intervals `0 … T` with records every `n ≥ 1` intervals, all
switches on, whatever the links answer: of volumes and of travel times there are files for the link, for
its cars and for its trucks; the loading files have the value of every link for every call and the record
files the means over the periods.  The travel time of a class is the one that the links give for the
volume of that class. -/
theorem C203_records (n : ℕ) (hn : 0 < n) (links : List ℤ) (hl : links.Nodup) (a : ℤ → Answers) (T : ℕ) :
    ∃ s, MStat.run links a (MStat.init ⟨true, true, true, true, true, true⟩ n links) (times T) = .ok s ∧
      s.volume.load = ⟨loadSheet links (fun t => (a t).flow) T, loadSheet links (fun t => (a t).car) T,
        loadSheet links (fun t => (a t).truck) T⟩ ∧
      s.volume.record = ⟨meanSheet n links (fun t => (a t).flow) T, meanSheet n links (fun t => (a t).car) T,
        meanSheet n links (fun t => (a t).truck) T⟩ ∧
      s.tt.load = ⟨loadSheet links (fun t => (a t).tt) T, loadSheet links (fun t l => (a t).ttOfCar l ((a t).car l)) T,
        loadSheet links (fun t l => (a t).ttOfTruck l ((a t).truck l)) T⟩ ∧
      s.tt.record = ⟨meanSheet n links (fun t => (a t).tt) T,
        meanSheet n links (fun t l => (a t).ttOfCar l ((a t).car l)) T,
        meanSheet n links (fun t l => (a t).ttOfTruck l ((a t).truck l)) T⟩ := by
  obtain ⟨o1, o2⟩ := init_ok ⟨true, true, true, true, true, true⟩ n links
  obtain ⟨s, h1, h2, h3⟩ := run_three links a (times T) (MStat.init ⟨true, true, true, true, true, true⟩ n links)
    (by show ((n : ℤ)) ≠ 0; exact_mod_cast hn.ne') o1 o2
  refine ⟨s, h1, ?_, ?_, ?_, ?_⟩
  · have e : s.volume.load = ⟨s.volume.tracks.all.load, s.volume.tracks.car.load, s.volume.tracks.truck.load⟩ := rfl
    rw [e, h2, Three.mk.injEq]
    exact ⟨(sheets hn hl _ T).1, (sheets hn hl _ T).1, (sheets hn hl _ T).1⟩
  · have e : s.volume.record = ⟨s.volume.tracks.all.record, s.volume.tracks.car.record, s.volume.tracks.truck.record⟩ := rfl
    rw [e, h2, Three.mk.injEq]
    exact ⟨(sheets hn hl _ T).2, (sheets hn hl _ T).2, (sheets hn hl _ T).2⟩
  · have e : s.tt.load = ⟨s.tt.tracks.all.load, s.tt.tracks.car.load, s.tt.tracks.truck.load⟩ := rfl
    rw [e, h3, Three.mk.injEq]
    exact ⟨(sheets hn hl _ T).1, (sheets hn hl _ T).1, (sheets hn hl _ T).1⟩
  · have e : s.tt.record = ⟨s.tt.tracks.all.record, s.tt.tracks.car.record, s.tt.tracks.truck.record⟩ := rfl
    rw [e, h3, Three.mk.injEq]
    exact ⟨(sheets hn hl _ T).2, (sheets hn hl _ T).2, (sheets hn hl _ T).2⟩

private theorem openSheet_rows (a b : Bool) (links : List ℤ) : ∀ x ∈ openSheet a b links, x.rows = [] := by
  intro x hx
  unfold openSheet at hx
  split at hx
  · cases hx; rfl
  · simp at hx

/-- C203, the values that adaptive routing reads: right after a full period the record maps hold the
means over the period, for the link and for both classes, whatever files are written. -/
theorem C203_record_map (n : ℕ) (hn : 0 < n) (links : List ℤ) (hl : links.Nodup) (a : ℤ → Answers)
    (sw : Switches) (hv : sw.volume = true) (ht : sw.tt = true) (k : ℕ) :
    ∃ s, MStat.run links a (MStat.init sw n links) (times ((k + 1) * n)) = .ok s ∧
      ∀ l ∈ links,
        s.volume.q.all.record l = meanUpTo n (fun t => (a t).flow) (((k + 1) * n : ℕ) : ℤ) l ∧
        s.volume.q.car.record l = meanUpTo n (fun t => (a t).car) (((k + 1) * n : ℕ) : ℤ) l ∧
        s.volume.q.truck.record l = meanUpTo n (fun t => (a t).truck) (((k + 1) * n : ℕ) : ℤ) l ∧
        s.tt.q.all.record l = meanUpTo n (fun t => (a t).tt) (((k + 1) * n : ℕ) : ℤ) l ∧
        s.tt.q.car.record l = meanUpTo n (fun t l => (a t).ttOfCar l ((a t).car l)) (((k + 1) * n : ℕ) : ℤ) l ∧
        s.tt.q.truck.record l = meanUpTo n (fun t l => (a t).ttOfTruck l ((a t).truck l)) (((k + 1) * n : ℕ) : ℤ) l := by
  obtain ⟨o1, o2⟩ := init_ok sw n links
  obtain ⟨s, h1, h2, h3⟩ := run_three links a (times ((k + 1) * n)) (MStat.init sw n links)
    (by show ((n : ℤ)) ≠ 0; exact_mod_cast hn.ne') o1 o2
  have e : ∀ g : Group, g.q.all = g.tracks.all.q ∧ g.q.car = g.tracks.car.q ∧ g.q.truck = g.tracks.truck.q :=
    fun _ => ⟨rfl, rfl, rfl⟩
  refine ⟨s, h1, fun l hl' => ?_⟩
  obtain ⟨v0, v1, v2⟩ := e s.volume
  obtain ⟨w0, w1, w2⟩ := e s.tt
  rw [v0, v1, v2, w0, w1, w2, h2, h3]
  have key := fun (a b : Bool) (c : Bool) (d : Bool) (hx : d = true) (val : ℤ → ℤ → ℚ) =>
    (hx ▸ track_mean hn hl k val (openSheet a b links) (openSheet a c links) (openSheet_rows _ _ _) (openSheet_rows _ _ _) l hl' :
      ((Track.mk (zeros d) (openSheet a b links) (openSheet a c links)).run n links links val
        (times ((k + 1) * n))).q.record l = meanUpTo n val (((k + 1) * n : ℕ) : ℤ) l)
  exact ⟨key _ _ _ _ hv _, key _ _ _ _ hv _, key _ _ _ _ hv _, key _ _ _ _ ht _, key _ _ _ _ ht _, key _ _ _ _ ht _⟩

/-- C203.  When the links count as many vehicles as cars and trucks together (which they do: C69), the
recorded volume of a link is the sum of the recorded volumes of its classes. -/
theorem C203_classes_add (n : ℕ) (hn : 0 < n) (links : List ℤ) (hl : links.Nodup) (a : ℤ → Answers)
    (sw : Switches) (hv : sw.volume = true) (ht : sw.tt = true) (k : ℕ)
    (hsum : ∀ t l, (a t).flow l = (a t).car l + (a t).truck l) :
    ∃ s, MStat.run links a (MStat.init sw n links) (times ((k + 1) * n)) = .ok s ∧
      ∀ l ∈ links, s.volume.q.all.record l = s.volume.q.car.record l + s.volume.q.truck.record l := by
  obtain ⟨s, h1, h2⟩ := C203_record_map n hn links hl a sw hv ht k
  refine ⟨s, h1, fun l hl' => ?_⟩
  obtain ⟨e0, e1, e2, _⟩ := h2 l hl'
  rw [e0, e1, e2]
  unfold meanUpTo
  rw [← add_div, ← List.sum_map_add]
  simp only [hsum]

/-- C203, finding.  The recorded travel time of cars does not depend on the trucks: two loadings with the
same cars have the same files for cars, however many trucks fill the links of one of them. -/
theorem C203_false_car_times_ignore_trucks (n : ℕ) (hn : 0 < n) (links : List ℤ) (hl : links.Nodup) (a b : ℤ → Answers)
    (T : ℕ) (hc : ∀ t, (a t).car = (b t).car) (ht : ∀ t, (a t).ttOfCar = (b t).ttOfCar) :
    ∃ s s', MStat.run links a (MStat.init ⟨true, true, true, true, true, true⟩ n links) (times T) = .ok s ∧
      MStat.run links b (MStat.init ⟨true, true, true, true, true, true⟩ n links) (times T) = .ok s' ∧
      s.tt.load.car = s'.tt.load.car ∧ s.tt.record.car = s'.tt.record.car := by
  obtain ⟨s, h1, _, _, h2, h3⟩ := C203_records n hn links hl a T
  obtain ⟨s', h1', _, _, h2', h3'⟩ := C203_records n hn links hl b T
  refine ⟨s, s', h1, h1', ?_, ?_⟩
  · rw [h2, h2']; simp only [hc, ht]
  · rw [h3, h3']; simp only [hc, ht]

/-- C203.  A record interval of zero loading intervals is undefined behaviour even when nothing is
recorded. -/
theorem C203_zero_interval (links : List ℤ) (t : ℤ) (a : Answers) (sw : Switches) :
    MStat.update links t a (MStat.init sw 0 links) = .ub := rfl

/-- What two links answer: link 7 has `10 + t` cars and `t` trucks, link 3 no cars and `t * t` trucks;
the time of a class is ten seconds and one for each of its vehicles. -/
def recordAnswers (t : ℤ) : Answers where
  flow l := if l = 7 then 10 + 2 * t else t * t
  car l := if l = 7 then 10 + t else 0
  truck l := if l = 7 then t else t * t
  tt l := if l = 7 then 20 + 2 * t else 10 + t * t
  ttOfCar _ f := 10 + f
  ttOfTruck _ f := 10 + f

example : [7, 3].Nodup ∧ ∀ t l, (recordAnswers t).flow l = (recordAnswers t).car l + (recordAnswers t).truck l := by
  refine ⟨by decide, fun t l => ?_⟩
  unfold recordAnswers
  dsimp only
  split <;> ring

/-- Link 3 fills with trucks, and the recorded time of its cars stays ten seconds. -/
example : ((MStat.run [7, 3] recordAnswers (MStat.init ⟨true, true, true, true, true, true⟩ 2 [7, 3]) (times 4)).bind
      fun s => .ok [s.volume.record.all, s.volume.record.car, s.volume.record.truck, s.tt.record.car]) =
    .ok [some ⟨[7, 3], [(0, [10, 0]), (2, [13, 5 / 2]), (4, [17, 25 / 2])]⟩,
      some ⟨[7, 3], [(0, [10, 0]), (2, [23 / 2, 0]), (4, [27 / 2, 0])]⟩,
      some ⟨[7, 3], [(0, [0, 0]), (2, [3 / 2, 5 / 2]), (4, [7 / 2, 25 / 2])]⟩,
      some ⟨[7, 3], [(0, [20, 10]), (2, [43 / 2, 10]), (4, [47 / 2, 10])]⟩] := by decide +kernel

end Verif

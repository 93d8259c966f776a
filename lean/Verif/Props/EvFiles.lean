import Verif.Lemmas.EvFiles

/-!
# C210 and C211: files of charging stations and of candidates
-/

namespace Verif
open Text Io Rd EvF

/-! ## C210 -/

private theorem addStations_eq (scalar : ℚ) (unit : ℤ) {num : ℕ} (hn : 0 < num) (m : Nodes) (content : Str) :
    addStations scalar unit num m (some content) =
      Res.foldlM (stationRow scalar unit) m ((List.range num).map fun k => lineAt content (k + 1)) := by
  rw [← countLoop_file]
  unfold addStations
  simp only
  rw [if_neg (by omega), Int.toNat_natCast]

/-- C210: from a file with a first line and one row per station, with as many rows as the configuration says and numbers
that are different from each other and from those of the nodes, every row makes one new node: a station with its number,
slots and price, whose charging and waiting times are the whole intervals in the times of the row.  There are no other
new nodes and the old ones stay as they are. -/
theorem C210_station_file (scalar : ℚ) (unit : ℤ) (hu : 0 < unit) (q : Str → ℚ) (m : Nodes) (hm : m ≠ []) (head : Str)
    (rows : List StationLine) (hh : '\n' ∉ head) (hok : ∀ r ∈ rows, r.Ok q unit) (hnd : (rows.map (·.id)).Nodup)
    (hnew : ∀ r ∈ rows, Nodes.get m r.id = none) :
    ∃ cs : List Cs, addStations scalar unit rows.length m (some (fileOf head (rows.map StationLine.words))) =
        .ok (m ++ (rows.map (·.id)).zip (cs.map some)) ∧ cs.length = rows.length ∧
      ∀ (n : ℕ) (r : StationLine) (c : Cs), rows[n]? = some r → cs[n]? = some c → c.scalar = scalar ∧ c.unit = unit ∧ c.slots = r.slots ∧ c.price = q r.price ∧
        (c.charge * unit ≤ q r.charge ∧ q r.charge < (c.charge + 1) * unit) ∧
        (c.wait * unit ≤ q r.wait ∧ q r.wait < (c.wait + 1) * unit) := by
  have hu' : (0 : ℚ) < unit := by exact_mod_cast hu
  refine ⟨rows.map fun r => ⟨scalar, unit, r.slots, ⌊q r.charge / unit⌋, ⌊q r.wait / unit⌋, q r.price⟩, ?_, by simp, ?_⟩
  · rcases Nat.eq_zero_or_pos rows.length with h0 | hpos
    · have : rows = [] := List.length_eq_zero_iff.1 h0
      subst this
      simp [addStations]
    · have e := lineAt_fileOf (rows := rows.map StationLine.words) hh (by
        intro ws hw
        obtain ⟨r, hr, rfl⟩ := List.mem_map.1 hw
        exact words_ok (hok r hr))
      rw [List.length_map] at e
      rw [addStations_eq scalar unit hpos, e, List.map_map]
      refine (stations_fold hu scalar rows m hm hok hnd hnew).trans ?_
      congr 2
      apply List.ext_getElem
      · simp
      · intro i h1 h2; simp
  · intro n r c hr hc
    rw [List.getElem?_map, hr, Option.map_some, Option.some.injEq] at hc
    subst hc
    refine ⟨rfl, rfl, rfl, rfl, ⟨?_, ?_⟩, ?_, ?_⟩
    · rw [← le_div_iff₀ hu']; exact Int.floor_le _
    · rw [← div_lt_iff₀ hu']; exact Int.lt_floor_add_one _
    · rw [← le_div_iff₀ hu']; exact Int.floor_le _
    · rw [← div_lt_iff₀ hu']; exact Int.lt_floor_add_one _

/-- Nodes 1 and 2. -/
def efNodes : Nodes := [(1, none), (2, none)]

/-- Two stations, with intervals of 5 seconds. -/
example : addStations 1 5 2 efNodes (some "#\n7 3 1801 12.5 0.5\n8 1 60 0 2\n".toList) =
      .ok (efNodes ++ [(7, some ⟨1, 5, 3, 360, 2, 1 / 2⟩), (8, some ⟨1, 5, 1, 12, 0, 2⟩)]) ∧
    "#\n7 3 1801 12.5 0.5\n8 1 60 0 2\n".toList = fileOf "#".toList
      (([⟨7, 3, "1801".toList, "12.5".toList, "0.5".toList⟩, ⟨8, 1, "60".toList, "0".toList, "2".toList⟩] : List StationLine).map
        StationLine.words) := by
  decide +kernel

example : (⟨7, 3, "1801".toList, "12.5".toList, "0.5".toList⟩ : StationLine).Ok
    (fun w => if w = "1801".toList then 1801 else if w = "12.5".toList then 25 / 2 else 1 / 2) 5 :=
  ⟨by simp [IntOk], ⟨⟨by decide +kernel, by decide +kernel⟩, by decide +kernel, by decide +kernel, by decide +kernel⟩,
    ⟨⟨by decide +kernel, by decide +kernel⟩, by decide +kernel, by decide +kernel, by decide +kernel⟩,
    ⟨by decide +kernel, by decide +kernel⟩, by decide +kernel⟩

/-- C210, whatever the file: a line among those that are to be read that has not five words, or whose number is that of a
node, is an error. -/
theorem C210_error (scalar : ℚ) (unit : ℤ) (num : ℕ) (m : Nodes) (content : Str) (k : ℕ) (hk : k < num)
    (hbad : (wordsOf (lineAt content (k + 1))).length ≠ 5 ∨
      ∃ w ws id, wordsOf (lineAt content (k + 1)) = w :: ws ∧ stoi (trim w) = .ok id ∧ m.get id ≠ none) :
    ∀ m', addStations scalar unit num m (some content) ≠ .ok m' := by
  intro m'
  rw [addStations_eq scalar unit (by omega)]
  have key : ∀ (as : List Str) (a : Nodes), lineAt content (k + 1) ∈ as → (∀ id, m.get id ≠ none → a.get id ≠ none) →
      Res.foldlM (stationRow scalar unit) a as ≠ .ok m' := by
    intro as
    induction as with
    | nil => intro a h; simp at h
    | cons x as ih =>
      intro a hx ha e
      rw [Res.foldlM_cons] at e
      obtain ⟨b, h1, h2⟩ := Res.bind_eq_ok.1 e
      have hstep : (wordsOf x).length = 5 ∧ (∀ w ws id, wordsOf x = w :: ws → stoi (trim w) = .ok id → a.get id = none) ∧
          ∀ id, a.get id ≠ none → b.get id ≠ none := by
        unfold stationRow at h1
        rw [split_eq] at h1
        rcases hw : wordsOf x with _ | ⟨w0, _ | ⟨w1, _ | ⟨w2, _ | ⟨w3, _ | ⟨w4, _ | ⟨w5, ws⟩⟩⟩⟩⟩⟩ <;> rw [hw] at h1 <;>
          simp only [reduceCtorEq] at h1
        obtain ⟨id, e0, h1⟩ := Res.bind_eq_ok'.1 h1
        obtain ⟨_, _, h1⟩ := Res.bind_eq_ok'.1 h1
        obtain ⟨_, _, h1⟩ := Res.bind_eq_ok'.1 h1
        obtain ⟨_, _, h1⟩ := Res.bind_eq_ok'.1 h1
        obtain ⟨_, _, h1⟩ := Res.bind_eq_ok'.1 h1
        obtain ⟨_, _, h1⟩ := Res.bind_eq_ok'.1 h1
        obtain ⟨_, _, h1⟩ := Res.bind_eq_ok'.1 h1
        unfold makeStation at h1
        split at h1
        · simp at h1
        split at h1
        · simp at h1
        rename_i hn
        simp only [Res.ok.injEq] at h1
        subst h1
        refine ⟨rfl, ?_, ?_⟩
        · intro w ws i hws hi
          simp only [List.cons.injEq] at hws
          rw [← hws.1, e0, Res.ok.injEq] at hi
          subst hi
          simpa using hn
        · intro i hi
          rw [get_append]
          cases h : Nodes.get a i with
          | none => exact absurd h hi
          | some y => simp
      rcases List.mem_cons.1 hx with rfl | hx
      · rcases hbad with hb | ⟨w, ws, id, h3, h4, h5⟩
        · exact hb hstep.1
        · exact ha id h5 (hstep.2.1 w ws id h3 h4)
      · exact ih b hx (fun id h => hstep.2.2 id (ha id h)) h2
  exact key _ m (List.mem_map.2 ⟨k, List.mem_range.2 hk, rfl⟩) fun _ h => h

example : (wordsOf (lineAt "#\n7 3 1801 0\n".toList 1)).length ≠ 5 ∧
    (addStations 1 5 1 efNodes (some "#\n2 3 1801 0 1\n".toList)).isOk = false := by
  decide +kernel

/-- C210: without the file, or when the configuration says that there are none, nothing changes. -/
theorem C210_no_stations (scalar : ℚ) (unit num : ℤ) (m : Nodes) (file : Option Str) (h : file = none ∨ num ≤ 0) :
    addStations scalar unit num m file = .ok m := by
  rcases h with rfl | h
  · rfl
  · cases file with
    | none => rfl
    | some c => simp only [addStations]; rw [if_pos h]

/-! ## C211 -/

/-- C211: from a file of candidates with at least one row, the candidates of a pair are the stations that its rows say,
each once, in the order in which they come first; a pair without row has no entry. -/
theorem C211_candidate_file (os ds : List ℤ) (m : Nodes) (head : Str) (rows : List CandLine) (hne : rows ≠ [])
    (hh : '\n' ∉ head) (hok : ∀ r ∈ rows, r.Ok os ds m) (fuel : ℕ) (hf : rows.length + 2 ≤ fuel) :
    ∃ t, candidates fuel os ds m (some (fileOf head (rows.map CandLine.words))) = .ok t ∧
      ∀ o d, t.table o d = if ∃ r ∈ rows, r.o = o ∧ r.d = d then some ((firsts (said rows o d)).map some) else none := by
  refine ⟨rows.foldl step ⟨fun _ _ => none, true⟩, ?_, ?_⟩
  · unfold candidates loadCands
    rw [all_rows (g := step) head CandLine.words rows _ hh (fun r _ => MmPt.rowOk_ints _ _) (fun r hr t => candRow_eq (hok r hr) t)
      fuel hf, Res.bind_ok', fold_empty]
    have : rows.isEmpty = false := by cases rows <;> simp_all
    simp [this]
  · intro o d
    rw [fold_step]
    simp only [Option.getD_none, addNew_nil]

/-- Nodes 1 and 2 and stations 7 and 8. -/
def efAll : Nodes := efNodes ++ [(7, some ⟨1, 5, 3, 360, 2, 1 / 2⟩), (8, some ⟨1, 5, 1, 12, 0, 2⟩)]

def efRows : List CandLine := [⟨1, 3, [8, 7]⟩, ⟨1, 4, []⟩, ⟨1, 3, [7]⟩]

example : efRows ≠ [] ∧ (∀ r ∈ efRows, r.Ok [1] [3, 4] efAll) := by
  refine ⟨by decide, ?_⟩
  intro r hr
  simp only [efRows, List.mem_cons, List.not_mem_nil, or_false] at hr
  rcases hr with rfl | rfl | rfl
  · refine ⟨by simp [IntOk], by simp, fun k hk => ?_⟩
    simp only [List.mem_cons, List.not_mem_nil, or_false] at hk
    rcases hk with rfl | rfl <;> exact ⟨_, rfl⟩
  · exact ⟨by simp [IntOk], by simp, by simp⟩
  · refine ⟨by simp [IntOk], by simp, fun k hk => ?_⟩
    simp only [List.mem_cons, List.not_mem_nil, or_false] at hk
    rcases hk with rfl
    exact ⟨_, rfl⟩

example : fileOf "#".toList (efRows.map CandLine.words) = "#\n1 3 8 7\n1 4\n1 3 7\n".toList ∧
    ((candidates 9 [1] [3, 4] efAll (some "#\n1 3 8 7\n1 4\n1 3 7\n".toList)).bind fun t => .ok [t.table 1 3, t.table 1 4, t.table 2 3]) =
      .ok [some [some 8, some 7], some [], none] ∧ firsts [8, 7, 7] = [8, 7] := by
  decide +kernel

/-- C211: without the file, or with a file that has no rows, every pair has every station, and there are no other pairs. -/
theorem C211_all_stations (os ds : List ℤ) (ho : os.Nodup) (hd : ds.Nodup) (m : Nodes) (head : Str) (hh : '\n' ∉ head) (fuel : ℕ)
    (hf : 2 ≤ fuel) (file : Option Str) (hfile : file = none ∨ file = some (fileOf head [])) :
    ∃ t, candidates fuel os ds m file = .ok t ∧ ∀ o d, t.table o d =
      if o ∈ os ∧ d ∈ ds then some (((m.filter fun n => n.2.isSome).map (·.1)).map some) else none := by
  have hl : loadCands fuel os ds m file = .ok ⟨fun _ _ => none, true⟩ := by
    unfold loadCands
    rcases hfile with rfl | rfl
    · rfl
    · exact all_rows (g := step) (body := candRow os ds m) head CandLine.words [] _ hh (by simp) (by simp) fuel (by simpa using hf)
  refine ⟨fullCands os ds m ⟨fun _ _ => none, true⟩, ?_, fun o d => ?_⟩
  · unfold candidates
    rw [hl, Res.bind_ok']
    rfl
  · rw [full_outer m ds hd os _ ho fun _ _ _ _ => rfl]
    rfl

example : ([1, 2] : List ℤ).Nodup ∧
    ((candidates 9 [1, 2] [3] efAll none).bind fun t => .ok [t.table 1 3, t.table 2 3, t.table 3 3]) =
      .ok [some [some 7, some 8], some [some 7, some 8], none] := by
  decide +kernel

/-- C211: a table that has been saved is read as it was (with at least one pair, and without repetitions in the lists of
candidates). -/
theorem C211_round_trip (os ds : List ℤ) (m : Nodes) (t : List (ℤ × List (ℤ × List ℤ))) (ho : (t.map (·.1)).Nodup)
    (hd : ∀ e ∈ t, (e.2.map (·.1)).Nodup) (hne : ∃ e ∈ t, e.2 ≠ [])
    (hok : ∀ e ∈ t, ∀ f ∈ e.2, (⟨e.1, f.1, f.2⟩ : CandLine).Ok os ds m ∧ f.2.Nodup) (fuel : ℕ) (hf : (saveCands t).length + 2 ≤ fuel) :
    ∃ s, candidates fuel os ds m (some (saveCands t)) = .ok s ∧
      (∀ e ∈ t, ∀ f ∈ e.2, s.table e.1 f.1 = some (f.2.map some)) ∧
      ∀ o d, (∀ e ∈ t, ∀ f ∈ e.2, ¬(e.1 = o ∧ f.1 = d)) → s.table o d = none := by
  have hmem : ∀ r, r ∈ candRows t ↔ ∃ e ∈ t, ∃ f ∈ e.2, r = ⟨e.1, f.1, f.2⟩ := by
    intro r
    simp only [candRows, List.mem_flatMap, List.mem_map, eq_comm]
  have hlen : ∀ rows : List CandLine, rows.length ≤ (textOf (rows.map CandLine.words)).length := by
    intro rows
    induction rows with
    | nil => simp
    | cons r rows ih => simp only [textOf, List.map_cons, List.flatMap_cons, List.length_append, List.length_cons,
        List.length_nil] at ih ⊢; omega
  have hfuel : (candRows t).length + 2 ≤ fuel := by
    have := hlen (candRows t)
    rw [saveCands_eq] at hf
    simp only [fileOf, List.length_append, List.length_cons] at hf
    omega
  have hne' : candRows t ≠ [] := by
    obtain ⟨e, he, h⟩ := hne
    obtain ⟨f, fs, h⟩ := List.exists_cons_of_ne_nil h
    intro h0
    have : (⟨e.1, f.1, f.2⟩ : CandLine) ∈ candRows t := (hmem _).2 ⟨e, he, f, by simp [h], rfl⟩
    rw [h0] at this
    simp at this
  obtain ⟨s, e1, e2⟩ := C211_candidate_file os ds m "# (O_ID, D_ID): cs1, cs2, ...".toList (candRows t) hne' (by decide) (by
    intro r hr
    obtain ⟨e, he, f, hf, rfl⟩ := (hmem r).1 hr
    exact (hok e he f hf).1) fuel hfuel
  rw [← saveCands_eq] at e1
  refine ⟨s, e1, ?_, ?_⟩
  · intro e he f hf
    have hin := (hmem ⟨e.1, f.1, f.2⟩).2 ⟨e, he, f, hf, rfl⟩
    rw [e2, if_pos ⟨_, hin, rfl, rfl⟩]
    have huniq : ∀ e' ∈ t, ∀ f' ∈ e'.2, e'.1 = e.1 → f'.1 = f.1 → e' = e ∧ f' = f := by
      intro e' he' f' hf' h1 h2
      have : e' = e := List.inj_on_of_nodup_map ho he' he h1
      subst this
      exact ⟨rfl, List.inj_on_of_nodup_map (hd _ he) hf' hf h2⟩
    have hsaid : said (candRows t) e.1 f.1 = f.2 := by
      have hnd : (candRows t).Nodup := by
        unfold candRows
        rw [List.nodup_flatMap]
        refine ⟨fun x hx => ?_, ?_⟩
        · refine (List.Nodup.of_map (·.1) (hd x hx)).map_on ?_
          intro a ha b hb h
          simp only [CandLine.mk.injEq] at h
          exact Prod.ext h.2.1 h.2.2
        · have hp : t.Pairwise fun a b => a.1 ≠ b.1 := List.pairwise_map.1 ho
          refine hp.imp ?_
          intro a b hab x hx hy
          obtain ⟨f1, _, rfl⟩ := List.mem_map.1 hx
          obtain ⟨f2, _, h⟩ := List.mem_map.1 hy
          simp only [CandLine.mk.injEq] at h
          exact hab h.1.symm
      have hfil : (candRows t).filter (fun r => decide (r.o = e.1 ∧ r.d = f.1)) = [⟨e.1, f.1, f.2⟩] := by
        have hn := hnd.filter fun r => decide (r.o = e.1 ∧ r.d = f.1)
        have h1 : (⟨e.1, f.1, f.2⟩ : CandLine) ∈ (candRows t).filter fun r => decide (r.o = e.1 ∧ r.d = f.1) :=
          List.mem_filter.2 ⟨hin, by simp⟩
        have h2 : ∀ r ∈ (candRows t).filter (fun r => decide (r.o = e.1 ∧ r.d = f.1)), r = ⟨e.1, f.1, f.2⟩ := by
          intro r hr
          obtain ⟨h3, h4⟩ := List.mem_filter.1 hr
          obtain ⟨e', he', f', hf', rfl⟩ := (hmem r).1 h3
          simp only [decide_eq_true_eq] at h4
          obtain ⟨rfl, rfl⟩ := huniq e' he' f' hf' h4.1 h4.2
          rfl
        rcases hl : (candRows t).filter (fun r => decide (r.o = e.1 ∧ r.d = f.1)) with _ | ⟨a, _ | ⟨b, l⟩⟩
        · rw [hl] at h1; simp at h1
        · rw [hl] at h2; rw [hl, h2 a (by simp)]
        · rw [hl] at h2 hn
          have ha := h2 a (by simp)
          have hb := h2 b (by simp)
          subst ha
          rw [hb] at hn
          simp at hn
      unfold said
      rw [hfil]
      simp
    rw [hsaid, firsts_eq (hok e he f hf).2]
  · intro o d h
    rw [e2, if_neg]
    rintro ⟨r, hr, h1, h2⟩
    obtain ⟨e, he, f, hf, rfl⟩ := (hmem r).1 hr
    exact h e he f hf ⟨h1, h2⟩

example : saveCands [(1, [(3, [8, 7]), (4, [])])] = "# (O_ID, D_ID): cs1, cs2, ...\n1 3 8 7\n1 4\n".toList ∧
    ((candidates 99 [1] [3, 4] efAll (some (saveCands [(1, [(3, [8, 7]), (4, [])])]))).bind fun t =>
      .ok [t.table 1 3, t.table 1 4, t.table 2 3]) = .ok [some [some 8, some 7], some [], none] := by
  decide +kernel

/-- C211, whatever the file: a line after the first that has less than two words, or whose numbers are not those of an
origin and a destination, or that names a node that does not exist, is an error. -/
theorem C211_error (os ds : List ℤ) (m : Nodes) (fuel : ℕ) (content : Str) (line : Str) (hline : line ∈ (fileLines content).tail)
    (hf : (linesOf content).length ≤ fuel)
    (hbad : (wordsOf line).length < 2 ∨ (∃ w0 ws o, wordsOf line = w0 :: ws ∧ stoi (trim w0) = .ok o ∧ o ∉ os) ∨
      (∃ w0 w1 ws d, wordsOf line = w0 :: w1 :: ws ∧ stoi (trim w1) = .ok d ∧ d ∉ ds) ∨
      ∃ w0 w1 ws w k, wordsOf line = w0 :: w1 :: ws ∧ w ∈ ws ∧ stoi (trim w) = .ok k ∧ m.get k = none) :
    ∀ t, candidates fuel os ds m (some content) ≠ .ok t := by
  intro t e
  unfold candidates loadCands at e
  obtain ⟨t0, e1, _⟩ := Res.bind_eq_ok'.1 e
  rw [readAll_file fuel content _ hf] at e1
  refine foldlM_notOk _ _ line hline ?_ t0 e1
  intro c c' h
  unfold candRow at h
  rw [split_eq] at h
  rcases hw : wordsOf line with _ | ⟨w0, _ | ⟨w1, ws⟩⟩
  · rw [hw] at h; simp at h
  · rw [hw] at h; simp at h
  rw [hw] at h hbad
  simp only at h
  obtain ⟨o, h0, h⟩ := Res.bind_eq_ok'.1 h
  obtain ⟨d, h1, h⟩ := Res.bind_eq_ok'.1 h
  split at h
  · simp at h
  split at h
  · simp at h
  rename_i ho hd
  obtain ⟨v, h2, _⟩ := Res.bind_eq_ok'.1 h
  rcases hbad with hb | ⟨_, _, o', hb, hb1, hb2⟩ | ⟨_, _, _, d', hb, hb1, hb2⟩ | ⟨_, _, _, w, k, hb, hb1, hb2, hb3⟩
  · simp only [List.length_cons] at hb; omega
  · simp only [List.cons.injEq] at hb
    rw [← hb.1, h0, Res.ok.injEq] at hb1
    exact ho (hb1 ▸ hb2)
  · simp only [List.cons.injEq] at hb
    rw [← hb.2.1, h1, Res.ok.injEq] at hb1
    exact hd (hb1 ▸ hb2)
  · simp only [List.cons.injEq] at hb
    rw [← hb.2.2] at hb1
    refine foldlM_notOk _ _ w hb1 ?_ v h2
    intro a a' h
    rw [hb2, Res.bind_ok'] at h
    unfold station at h
    rw [hb3] at h
    simp [Res.bind] at h

example : (wordsOf "1".toList).length < 2 ∧ "1".toList ∈ (fileLines "#\n1\n".toList).tail ∧ efAll.get 9 = none ∧
    (candidates 9 [1] [3] efAll (some "#\n1 3 9\n".toList)).isOk = false := by
  decide +kernel

/-- C211: a node that is no charging station is not refused: the null pointer becomes a candidate of the pair. -/
theorem C211_false_not_a_station (os ds : List ℤ) (m : Nodes) (o d k : ℤ) (ho : IntOk o) (hd : IntOk d) (hk : IntOk k)
    (h1 : o ∈ os) (h2 : d ∈ ds) (h3 : m.get k = some none) (head : Str) (hh : '\n' ∉ head) (fuel : ℕ) (hf : 3 ≤ fuel) :
    ∃ t, candidates fuel os ds m (some (fileOf head [[toStr o, toStr d, toStr k]])) = .ok t ∧ t.table o d = some [none] := by
  have e : candRow os ds m ⟨fun _ _ => none, true⟩ (lineOf ([o, d, k].map toStr)) =
      .ok ⟨fun o' d' => if o' = o ∧ d' = d then some [none] else none, false⟩ := by
    unfold candRow
    rw [split_line (MmPt.rowOk_ints _ _)]
    simp only [List.map_cons, List.map_nil]
    rw [trim_word (toStr_word _).1, stoi_toStr _ ho, Res.bind_ok', trim_word (toStr_word _).1, stoi_toStr _ hd,
      Res.bind_ok', if_neg (by simpa using h1), if_neg (by simpa using h2)]
    have : addCands m ((((⟨fun _ _ => none, true⟩ : Tab).enter o d).table o d).getD []) [toStr k] = .ok [none] := by
      unfold addCands
      rw [Res.foldlM_cons, trim_word (toStr_word _).1, stoi_toStr _ hk, Res.bind_ok']
      unfold station
      rw [h3]
      simp [Tab.enter, Res.bind_ok', Res.ok_bind]
    rw [this, Res.bind_ok']
  refine ⟨⟨fun o' d' => if o' = o ∧ d' = d then some [none] else none, false⟩, ?_, by simp⟩
  have hrow : ∀ ws ∈ [[toStr o, toStr d, toStr k]], RowOk ws := by
    intro ws hw
    rw [List.mem_singleton.1 hw]
    exact MmPt.rowOk_ints o [d, k]
  unfold candidates loadCands
  rw [readAll_file fuel _ _ (by rw [linesOf_fileOf hh hrow]; simpa using hf), fileLines_fileOf hh hrow, List.map_cons, List.map_nil,
    Res.foldlM_cons]
  have e' : candRow os ds m ⟨fun _ _ => none, true⟩ (lineOf [toStr o, toStr d, toStr k]) = _ := e
  rw [e']
  rfl

example : efAll.get 2 = some none ∧
    ((candidates 9 [1] [3] efAll (some "#\n1 3 2\n".toList)).bind fun t => .ok (t.table 1 3)) = .ok (some [none]) := by
  decide +kernel

end Verif

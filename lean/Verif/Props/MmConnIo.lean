import Verif.Lemmas.MmConnIo
import Verif.Props.MmConn

/-!
# C192–C194: the file, the table and the demand made of the connectivity by mode

`rows` is the map in the order in which it is gone through (`Goes`); `pairs rows` are its pairs.
-/

namespace Verif
open Graph Sp Path Text Io MmConn

/-! ## C192: the file -/

/-- C192, for all three modes: the file that is written for a map gives, read with the number of its pairs, the same
map.  Missing: two modes or one (`C192_false_fewer_modes`), and a number of pairs that differs. -/
theorem C192_round_trip_partial {c : Conn} {rows : Rows} {modes : List Mode} (hall : ∀ m, m ∈ modes) (hg : Goes rows c)
    (hf : ∀ o d f, c o d = some f → Full f ∧ IntOk o ∧ IntOk d) :
    ∃ t, save rows = .ok t ∧ load modes (pairs rows).length t = .ok c := by
  have hf' : ∀ p ∈ pairs rows, Full p.2.2 ∧ IntOk p.1 ∧ IntOk p.2.1 := fun p hp => hf _ _ _ ((hg.entry _ _ _).1 hp)
  refine ⟨_, save_eq' fun p hp => (hf' p hp).1, ?_⟩
  obtain ⟨c', h1, h2⟩ := load_eq hall hf' hg.once _ le_rfl
  rw [h1]
  rw [List.take_length] at h2
  exact congrArg Res.ok (h2.eq hg.entry)

/-- C192 is false if the number of pairs in the configuration is smaller than that in the file: the other pairs get no
entry. -/
theorem C192_false_fewer_pairs {c : Conn} {rows : Rows} {modes : List Mode} (hall : ∀ m, m ∈ modes) (hg : Goes rows c)
    (hf : ∀ o d f, c o d = some f → Full f ∧ IntOk o ∧ IntOk d) {n : ℕ} (hn : n < (pairs rows).length) :
    ∃ t c', save rows = .ok t ∧ load modes n t = .ok c' ∧ c' ≠ c := by
  have hf' : ∀ p ∈ pairs rows, Full p.2.2 ∧ IntOk p.1 ∧ IntOk p.2.1 := fun p hp => hf _ _ _ ((hg.entry _ _ _).1 hp)
  obtain ⟨c', h1, h2⟩ := load_eq hall hf' hg.once n hn.le
  refine ⟨_, c', save_eq' fun p hp => (hf' p hp).1, h1, ?_⟩
  rintro rfl
  have hmem : (pairs rows)[n] ∈ (pairs rows).take n := (h2 _ _ _).2 ((hg.entry _ _ _).1 (List.getElem_mem hn))
  obtain ⟨i, hi, e⟩ := List.mem_iff_getElem.1 hmem
  rw [List.getElem_take] at e
  rw [List.length_take] at hi
  have hnd := hg.once
  rw [List.nodup_iff_injective_getElem] at hnd
  have hin : i < (pairs rows).length := by omega
  have := @hnd ⟨i, by simpa using hin⟩ ⟨n, by simpa using hn⟩ (by simp [e])
  simp only [Fin.mk.injEq] at this
  omega

/-- C192: if the number of pairs in the configuration is larger than that in the file, an exception is raised. -/
theorem C192_more_pairs {c : Conn} {rows : Rows} {modes : List Mode} (hall : ∀ m, m ∈ modes) (hg : Goes rows c)
    (hf : ∀ o d f, c o d = some f → Full f ∧ IntOk o ∧ IntOk d) {n : ℕ} (hn : (pairs rows).length < n) :
    ∃ t, save rows = .ok t ∧ load modes n t = .throw "number of modes is not correct" := by
  have hf' : ∀ p ∈ pairs rows, Full p.2.2 ∧ IntOk p.1 ∧ IntOk p.2.1 := fun p hp => hf _ _ _ ((hg.entry _ _ _).1 hp)
  exact ⟨_, save_eq' fun p hp => (hf' p hp).1, load_more hall hf' hg.once n hn⟩

/-- C192 is false if not all three modes are configured: when the network is looked at and every pair can be served, the
file cannot be written; the end of a map is read. -/
theorem C192_false_fewer_modes {x : Net} {ops1 ops2 : List Op} (h : Good x ops1 ops2) (hn : x.dests.Nodup)
    (modes : List Mode) {m : Mode} (hm : m ∉ modes) (demand : ℤ → ℤ → Bool)
    (hall : ∀ o ∈ x.origins, ∀ d ∈ x.dests, demand o d = true → ∃ m ∈ modes, Possible x m o d)
    {o d : ℤ} (ho : o ∈ x.origins) (hd : d ∈ x.dests) (hod : demand o d = true) (order : Conn → Rows)
    (h0 : order (fun _ _ => none) = []) (hgo : ∀ c, Right x modes demand c → Goes (order c) c) (k : ℕ) :
    ∃ N, ∀ n ≥ N, ((findLots n x fun _ => []).bind fun lots => checkConn n x modes demand lots k none order) = .ub := by
  obtain ⟨c, ⟨N, hN⟩, hr⟩ := C191_right h hn modes demand hall
  refine ⟨N, fun n hnN => ?_⟩
  have e := hN n hnN
  unfold connectivity at e
  obtain ⟨lots, e1, e2⟩ := Res.bind_eq_ok'.1 e
  rw [e1, Res.bind_ok']
  unfold checkConn
  simp only [Res.bind_ok', h0, ne_eq, not_true_eq_false, if_false]
  rw [e2, Res.bind_ok']
  obtain ⟨f, hf, hfm⟩ := (hr o d).1 ⟨ho, hd, hod⟩
  rw [save_ub (((hgo c hr).entry o d f).2 hf) ((hfm m).2 hm)]
  rfl

/-- C192: a file that is there is believed, whatever the network and the demand are: what it says is what was written,
also for pairs that can no longer be served. -/
theorem C192_false_stale_file {c : Conn} {rows : Rows} {modes : List Mode} (hall : ∀ m, m ∈ modes) (hg : Goes rows c)
    (hf : ∀ o d f, c o d = some f → Full f ∧ IntOk o ∧ IntOk d) (order : Conn → Rows) (hne : order c ≠ []) :
    ∃ t, save rows = .ok t ∧ ∀ (n : ℕ) (x : Net) (demand : ℤ → ℤ → Bool) (lots : ℤ → List ℤ),
      checkConn n x modes demand lots (pairs rows).length (some t) order = .ok (c, some t) := by
  obtain ⟨t, h1, h2⟩ := C192_round_trip_partial hall hg hf
  refine ⟨t, h1, fun n x demand lots => ?_⟩
  unfold checkConn
  simp only [h2, Res.bind_ok', hne, ne_eq, not_false_eq_true, if_true]

/-! ## C193: the table -/

/-- C193, what holds of the table: with no more pairs than configured, the rows are those of the pairs in the order of
the map, with destination and flags; the rows that are left are not written.  Missing: the origin, which is written into
the first row of each origin only (see `C193_false_origin`). -/
theorem C193_rows_partial {n : ℕ} {rows : Rows} (hne : ∀ r ∈ rows, r.2 ≠ []) (hn : (pairs rows).length ≤ n) :
    ∃ (os : List (Option ℤ)), os.length = (pairs rows).length ∧
      table n rows = .ok (((os.zip (pairs rows)).flatMap fun q =>
        [q.1, some q.2.2.1] ++ [Mode.driving, .transit, .pnr].map fun m => (q.2.2.2 m).map fun b => if b then 1 else 0) ++
        List.replicate ((n - (pairs rows).length) * 5) none) ∧
      os = rows.flatMap fun r => some r.1 :: List.replicate (r.2.length - 1) none := by
  rw [table_eq hne hn]
  refine ⟨rows.flatMap fun r => some r.1 :: List.replicate (r.2.length - 1) none, ?_, ?_, rfl⟩
  · have : ∀ rows : Rows, (∀ r ∈ rows, r.2 ≠ []) →
        (rows.flatMap fun r => some r.1 :: List.replicate (r.2.length - 1) none).length = (pairs rows).length := by
      intro rows
      induction rows with
      | nil => intro _; rfl
      | cons r rows ih =>
        intro h
        have := List.length_pos_iff.2 (h r (by simp))
        rw [List.flatMap_cons, List.length_append, ih fun q hq => h q (by simp [hq]), pairs_length_cons]
        simp
        omega
    exact this rows hne
  · congr 2
    clear hn
    induction rows with
    | nil => rfl
    | cons r rows ih =>
      obtain ⟨o, es⟩ := r
      cases es with
      | nil => exact absurd rfl (hne (o, []) (by simp))
      | cons e es =>
        rw [List.flatMap_cons, List.flatMap_cons, pairs_cons, ih fun q hq => hne q (by simp [hq]),
          List.zip_append (by simp), List.flatMap_append]
        congr 1
        simp only [block, List.map_cons, List.length_cons, Nat.add_sub_cancel, List.zip_cons_cons, List.flatMap_cons]
        congr 1
        induction es with
        | nil => rfl
        | cons e es ih =>
          rw [List.length_cons, List.replicate_succ, List.map_cons, List.zip_cons_cons, List.flatMap_cons,
            List.flatMap_cons, ih fun q hq => by
              rcases List.mem_cons.1 hq with rfl | hq
              · simp
              · exact hne q (by simp [hq])]
          rfl

/-- C193: if every origin has one destination and the number of pairs is that of the configuration, the table is what it
should be. -/
theorem C193_table_partial {rows : Rows} (h1 : ∀ r ∈ rows, r.2.length = 1) :
    table (pairs rows).length rows = .ok ((pairs rows).flatMap fun p =>
      [some p.1, some p.2.1] ++ [Mode.driving, .transit, .pnr].map fun m => (p.2.2 m).map fun b => if b then 1 else 0) := by
  rw [table_eq (fun r hr h => by have := h1 r hr; rw [h] at this; cases this) le_rfl, Nat.sub_self, Nat.zero_mul,
    List.replicate_zero, List.append_nil]
  congr 1
  induction rows with
  | nil => rfl
  | cons r rows ih =>
    obtain ⟨o, es⟩ := r
    have := h1 _ (List.mem_cons_self)
    obtain ⟨e, rfl⟩ := List.length_eq_one_iff.1 this
    rw [List.flatMap_cons, pairs_cons, ih fun q hq => h1 q (by simp [hq]), List.flatMap_append]
    rfl

/-- C193 is false as soon as an origin has two destinations: the first column of the row of the second one is never
written. -/
theorem C193_false_origin {n : ℕ} {pre post : Rows} {o : ℤ} {e1 e2 : ℤ × Flags} {es : List (ℤ × Flags)}
    (hne : ∀ r ∈ pre ++ post, r.2 ≠ []) (hn : (pairs (pre ++ (o, e1 :: e2 :: es) :: post)).length ≤ n) :
    ∃ a, table n (pre ++ (o, e1 :: e2 :: es) :: post) = .ok a ∧ a.length = n * 5 ∧
      (pairs (pre ++ (o, e1 :: e2 :: es) :: post))[(pairs pre).length + 1]? = some (o, e2) ∧
      a[((pairs pre).length + 1) * 5]? = some none := by
  have hne' : ∀ r ∈ pre ++ (o, e1 :: e2 :: es) :: post, r.2 ≠ [] := by
    intro r hr
    rcases List.mem_append.1 hr with h | h
    · exact hne r (by simp [h])
    · rcases List.mem_cons.1 h with rfl | h
      · simp
      · exact hne r (by simp [h])
  have hlen : ∀ rows : Rows, (rows.flatMap block).length = (pairs rows).length * 5 := by
    intro rows
    induction rows with
    | nil => rfl
    | cons r rows ih =>
      rw [List.flatMap_cons, List.length_append, ih, block_length, pairs_length_cons, Nat.add_mul]
  refine ⟨_, table_eq hne' hn, ?_, ?_, ?_⟩
  · rw [List.length_append, hlen, List.length_replicate, ← Nat.add_mul]
    congr 1
    omega
  · have : pairs (pre ++ (o, e1 :: e2 :: es) :: post) = pairs pre ++ (o, e1) :: (o, e2) ::
        ((es.map fun e => (o, e.1, e.2)) ++ pairs post) := by simp [pairs]
    rw [this, List.getElem?_append_right (by omega)]
    simp
  · rw [List.flatMap_append, List.flatMap_cons, List.append_assoc, List.getElem?_append_right (by rw [hlen]; omega), hlen]
    have : ((pairs pre).length + 1) * 5 - (pairs pre).length * 5 = 5 := by omega
    rw [this]
    simp [block, cells]

/-- C193 is false if there are more pairs than configured (rows with one destination per origin): elements behind the
end of the table are written. -/
theorem C193_false_too_few_rows {n : ℕ} {pre post : Rows} {r : ℤ × List (ℤ × Flags)} (hne : ∀ q ∈ pre, q.2 ≠ [])
    (hn : (pairs pre).length = n) : table n (pre ++ r :: post) = .ub := by
  have h := tableFold_eq pre [] 0 n hne rfl hn.le
  rw [List.nil_append] at h
  unfold table
  rw [Res.foldlM_append, h, Res.ok_bind, Res.foldlM_cons]
  have : put ([] ++ pre.flatMap block ++ List.replicate ((n - (pairs pre).length) * 5) none)
      ((0 + (pairs pre).length) * 5) r.1 = .ub := by
    have hl : (pre.flatMap block).length = (pairs pre).length * 5 := by
      clear h hn
      induction pre with
      | nil => rfl
      | cons r rows ih =>
        rw [List.flatMap_cons, List.length_append, ih fun q hq => hne q (by simp [hq]), block_length, pairs_length_cons,
          Nat.add_mul]
    unfold put
    rw [if_neg]
    rw [hn, Nat.sub_self]
    simp [hl, hn]
  simp only [this]
  rfl

/-! ## C194: files of demand -/

/-- The first line of the file of a mode. -/
def demandHead : Mode → Str
  | .driving => "#Origin_ID Destination_ID <car demand by interval> <truck demand by interval>\n".toList
  | .transit => "#Origin_ID Destination_ID <passenger demand by interval>\n".toList
  | .pnr => "#OriginID DestID <passenger demand by interval>\n".toList

/-- C194: of the map that was made for the network, the file of demand of a configured mode has a head line and, for each
pair with demand for which the mode is possible, one line, with a `1` for each interval (for driving, for each interval
and class). -/
theorem C194_files {x : Net} {modes : List Mode} {demand : ℤ → ℤ → Bool} {c : Conn} (hr : Right x modes demand c)
    {rows : Rows} (hg : Goes rows c) (oid did : ℤ → ℤ) (n : ℕ) {m : Mode} (hm : m ∈ modes) :
    ∃ l : List (ℤ × ℤ), l.Nodup ∧
      (∀ o d, (o, d) ∈ l ↔ o ∈ x.origins ∧ d ∈ x.dests ∧ demand o d = true ∧ Possible x m o d) ∧
      demandFile modes oid did n rows m = some (demandHead m ++ textOf (l.map fun p =>
        toStr (oid p.1) :: toStr (did p.2) :: List.replicate (if m = .driving then 2 * n else n) ['1'])) := by
  refine ⟨((pairs rows).filter fun p => p.2.2 m = some true).map fun p => (p.1, p.2.1), ?_, fun o d => ?_, ?_⟩
  · exact hg.once.sublist ((List.filter_sublist).map _)
  · rw [List.mem_map]
    constructor
    · rintro ⟨⟨o', d', f⟩, hp, e⟩
      rw [List.mem_filter] at hp
      simp only [Prod.mk.injEq] at e
      obtain ⟨rfl, rfl⟩ := e
      have hc := (hg.entry _ _ _).1 hp.1
      have hpos : o' ∈ x.origins ∧ d' ∈ x.dests ∧ demand o' d' = true := by
        by_contra hno
        have := (hr o' d').2 hno
        rw [hc] at this
        cases this
      obtain ⟨f', hf', hfm⟩ := (hr o' d').1 hpos
      rw [hc, Option.some.injEq] at hf'
      subst hf'
      obtain ⟨b, hb, hbp⟩ := (hfm m).1 hm
      have ht := hp.2
      simp only [decide_eq_true_eq] at ht
      rw [hb, Option.some.injEq] at ht
      exact ⟨hpos.1, hpos.2.1, hpos.2.2, hbp.1 ht⟩
    · rintro ⟨h1, h2, h3, h4⟩
      obtain ⟨f, hf, hfm⟩ := (hr o d).1 ⟨h1, h2, h3⟩
      obtain ⟨b, hb, hbp⟩ := (hfm m).1 hm
      refine ⟨(o, d, f), List.mem_filter.2 ⟨(hg.entry _ _ _).2 hf, ?_⟩, rfl⟩
      simp [hb, hbp.2 h4]
  · unfold demandFile
    rw [if_pos hm]
    congr 1
    refine congrArg₂ (· ++ ·) (by cases m <;> rfl) ?_
    have hk : (if m = Mode.driving then n * 2 else n) = if m = .driving then 2 * n else n := by
      rw [Nat.mul_comm]
    rw [hk]
    generalize (if m = .driving then 2 * n else n) = k
    clear hg
    induction rows with
    | nil => rfl
    | cons r rows ih =>
      rw [List.flatMap_cons, pairs_cons, List.filter_append, List.map_append, List.map_append, textOf_append, ih]
      congr 1
      obtain ⟨o, es⟩ := r
      simp only
      induction es with
      | nil => rfl
      | cons e es ih2 =>
        rw [List.flatMap_cons, List.map_cons, List.filter_cons]
        by_cases he : e.2 m = some true
        · rw [if_pos he, if_pos (by simpa using he), List.map_cons, List.map_cons, ih2, demandText_eq]
          simp [textOf]
        · rw [if_neg he, if_neg (by simpa using he), ih2, List.nil_append]

/-- C194: no file is written for a mode that is not configured. -/
theorem C194_other_modes {modes : List Mode} (oid did : ℤ → ℤ) (n : ℕ) (rows : Rows) {m : Mode} (hm : m ∉ modes) :
    demandFile modes oid did n rows m = none := by
  unfold demandFile
  rw [if_neg hm]

/-! ## An instance -/

namespace MmConnEx

def f1 : Flags := fun m => some (m ≠ .transit)
def f2 : Flags := fun m => some (m = .transit)

/-- Two origins, the second with two destinations. -/
def rows : Rows := [(1, [(5, f1)]), (2, [(5, f2), (6, f1)])]

/-- The map. -/
def conn : Conn := fun o d =>
  if o = 1 ∧ d = 5 then some f1 else if o = 2 ∧ d = 5 then some f2 else if o = 2 ∧ d = 6 then some f1 else none

theorem goes : Goes rows conn where
  entry o d f := by
    have : pairs rows = [(1, 5, f1), (2, 5, f2), (2, 6, f1)] := rfl
    rw [this]
    unfold conn
    simp only [List.mem_cons, Prod.mk.injEq, List.not_mem_nil, or_false]
    by_cases h1 : o = 1 ∧ d = 5
    · simp [h1, eq_comm]
    · by_cases h2 : o = 2 ∧ d = 5
      · simp [h2, eq_comm]
      · by_cases h3 : o = 2 ∧ d = 6
        · simp [h3, eq_comm]
        · simp only [h1, h2, h3, if_false, reduceCtorEq, iff_false]
          rintro (⟨a, b, -⟩ | ⟨a, b, -⟩ | ⟨a, b, -⟩)
          · exact h1 ⟨a, b⟩
          · exact h2 ⟨a, b⟩
          · exact h3 ⟨a, b⟩
  once := by decide +kernel

theorem full : ∀ o d f, conn o d = some f → Full f ∧ IntOk o ∧ IntOk d := by
  intro o d f h
  have hm := (goes.entry o d f).2 h
  have : pairs rows = [(1, 5, f1), (2, 5, f2), (2, 6, f1)] := rfl
  rw [this] at hm
  simp only [List.mem_cons, Prod.mk.injEq, List.not_mem_nil, or_false] at hm
  rcases hm with ⟨rfl, rfl, rfl⟩ | ⟨rfl, rfl, rfl⟩ | ⟨rfl, rfl, rfl⟩
  · exact ⟨fun m => ⟨_, rfl⟩, by unfold IntOk; decide, by unfold IntOk; decide⟩
  · exact ⟨fun m => ⟨_, rfl⟩, by unfold IntOk; decide, by unfold IntOk; decide⟩
  · exact ⟨fun m => ⟨_, rfl⟩, by unfold IntOk; decide, by unfold IntOk; decide⟩

example : save rows = .ok ("#OriginNodeID DestNodeID Driving BusTransit PnR\n1 5 1 0 1\n2 5 0 1 0\n2 6 1 0 1\n".toList) := by
  decide +kernel

example : ∃ t, save rows = .ok t ∧ load all (pairs rows).length t = .ok conn :=
  C192_round_trip_partial (by intro m; cases m <;> decide) goes full

example : table 3 rows = .ok [some 1, some 5, some 1, some 0, some 1, some 2, some 5, some 0, some 1, some 0,
    none, some 6, some 1, some 0, some 1] := by decide +kernel

example : table 2 rows = .ub := by decide +kernel

example : table 2 [(1, [(5, f1)]), (2, [(5, f2)])] = .ok [some 1, some 5, some 1, some 0, some 1, some 2, some 5, some 0,
    some 1, some 0] := by decide +kernel

example : demandFile all id id 2 rows .driving = some (("#Origin_ID Destination_ID <car demand by interval> " ++
    "<truck demand by interval>\n1 5 1 1 1 1\n2 6 1 1 1 1\n").toList) := by decide +kernel

/-- The hypotheses of `C192_false_fewer_modes` are met without park-and-ride. -/
example : ((findLots 20 net fun _ => []).bind fun lots => checkConn 20 net [.driving, .transit] (fun _ _ => true) lots 2 none
    fun c => if (c 1 5).isSome then [(1, ((c 1 5).map fun f => (5, f)).toList), (2, ((c 2 5).map fun f => (5, f)).toList)]
      else []).isOk = false := by decide +kernel

end MmConnEx

end Verif

import Verif.Lemmas.Readers
import Verif.Lemmas.MmPaths
import Verif.Lemmas.Ults
import Verif.Spec.EvFiles

/-!
# Files of charging stations
-/

namespace Verif.EvF
open Text Io Rd

/-! ### Stations -/

theorem get_append (m : Nodes) (i : ℤ) (c : Option Cs) (k : ℤ) :
    Nodes.get (m ++ [(i, c)]) k = (Nodes.get m k).or (if i = k then some c else none) := by
  unfold Nodes.get
  rw [List.find?_append]
  cases m.find? fun n => n.1 == k with
  | some x => rfl
  | none =>
    simp only [Option.none_or, Option.map_none]
    by_cases h : i = k <;> simp [h]

theorem intervals_eq {x : ℚ} {unit : ℤ} (hu : 0 < unit) (h0 : 0 ≤ x) (h1 : x / unit < 2147483648) :
    intervals x unit = .ok ⌊x / unit⌋ := by
  unfold intervals
  rw [if_neg (by omega)]
  exact Ults.toInt_ok_of (div_nonneg h0 (by exact_mod_cast hu.le)) h1

theorem words_ok {q : Str → ℚ} {unit : ℤ} {r : StationLine} (h : r.Ok q unit) : RowOk r.words := by
  refine rowOk_cons ?_
  intro w hw
  simp only [List.mem_cons, List.not_mem_nil, or_false] at hw
  rcases hw with rfl | rfl | rfl | rfl
  · exact (toStr_word _).1
  · exact h.charge.1
  · exact h.wait.1
  · exact h.price.1

theorem stationRow_eq {q : Str → ℚ} {unit : ℤ} (hu : 0 < unit) (scalar : ℚ) (m : Nodes) {r : StationLine} (h : r.Ok q unit) :
    stationRow scalar unit m (lineOf r.words) =
      makeStation m r.id ⟨scalar, unit, r.slots, ⌊q r.charge / unit⌋, ⌊q r.wait / unit⌋, q r.price⟩ := by
  unfold stationRow
  rw [split_line (words_ok h)]
  simp only [StationLine.words]
  rw [trim_word (toStr_word _).1, stoi_toStr _ h.range.1, Res.bind_ok', trim_word (toStr_word _).1, stoi_toStr _ h.range.2,
    Res.bind_ok', trim_word h.charge.1, h.charge.2.1, Res.bind_ok', intervals_eq hu h.charge.2.2.1 h.charge.2.2.2, Res.bind_ok',
    trim_word h.wait.1, h.wait.2.1, Res.bind_ok', intervals_eq hu h.wait.2.2.1 h.wait.2.2.2, Res.bind_ok',
    trim_word h.price.1, h.price.2, Res.bind_ok']

theorem stations_fold {q : Str → ℚ} {unit : ℤ} (hu : 0 < unit) (scalar : ℚ) : ∀ (rows : List StationLine) (m : Nodes),
    m ≠ [] → (∀ r ∈ rows, r.Ok q unit) → (rows.map (·.id)).Nodup → (∀ r ∈ rows, Nodes.get m r.id = none) →
    Res.foldlM (stationRow scalar unit) m (rows.map fun r => lineOf r.words) =
      .ok (m ++ rows.map fun r => (r.id, some ⟨scalar, unit, r.slots, ⌊q r.charge / unit⌋, ⌊q r.wait / unit⌋, q r.price⟩)) := by
  intro rows
  induction rows with
  | nil => intro m _ _ _ _; simp
  | cons r rows ih =>
    intro m hm hok hnd hnew
    rw [List.map_cons, Res.foldlM_cons, stationRow_eq hu scalar m (hok r (by simp))]
    unfold makeStation
    rw [if_neg hm, if_neg (by simp [hnew r (by simp)]), Res.ok_bind]
    rw [List.map_cons, List.nodup_cons] at hnd
    rw [ih _ (by simp) (fun s hs => hok s (by simp [hs])) hnd.2 ?_]
    · simp
    · intro s hs
      rw [get_append, hnew s (by simp [hs])]
      have : r.id ≠ s.id := fun e => hnd.1 (e ▸ List.mem_map.2 ⟨s, hs, rfl⟩)
      simp [this]

/-! ### Candidates -/

/-- What a row does to the candidates of its pair. -/
def addNew (v : List (Option ℤ)) (l : List ℤ) : List (Option ℤ) := l.foldl (fun v k => if some k ∈ v then v else v ++ [some k]) v

theorem mem_firsts {l : List ℤ} {k : ℤ} : k ∈ firsts l ↔ k ∈ l := by
  induction l with
  | nil => simp [firsts]
  | cons a l ih =>
    simp only [firsts, List.mem_cons, List.mem_filter, ih, decide_eq_true_eq]
    by_cases h : k = a <;> simp [h]

theorem firsts_eq {l : List ℤ} (h : l.Nodup) : firsts l = l := by
  induction l with
  | nil => rfl
  | cons a l ih =>
    rw [List.nodup_cons] at h
    rw [firsts, ih h.2, List.filter_eq_self.2]
    intro k hk
    simp only [decide_eq_true_eq]
    rintro rfl
    exact h.1 hk

theorem addNew_eq : ∀ (l : List ℤ) (v : List (Option ℤ)),
    addNew v l = v ++ ((firsts l).filter fun k => decide (some k ∉ v)).map some := by
  intro l
  induction l with
  | nil => intro v; simp [addNew, firsts]
  | cons a l ih =>
    intro v
    unfold addNew at ih ⊢
    rw [List.foldl_cons, ih, firsts]
    by_cases h : some a ∈ v
    · rw [if_pos h, List.filter_cons_of_neg (by simpa using h), List.filter_filter]
      congr 2
      apply List.filter_congr
      intro k _
      by_cases hk : k = a
      · subst hk; simp [h]
      · simp [hk]
    · rw [if_neg h, List.filter_cons_of_pos (by simpa using h), List.filter_filter, List.map_cons, List.append_assoc]
      congr 2
      simp only [List.nil_append, List.cons_append, List.cons.injEq, true_and]
      congr 1
      apply List.filter_congr
      intro k _
      by_cases hk : k = a <;> simp [hk]

theorem addCands_eq {m : Nodes} : ∀ (l : List ℤ) (v : List (Option ℤ)), (∀ k ∈ l, IntOk k ∧ ∃ c, m.get k = some (some c)) →
    addCands m v (l.map toStr) = .ok (addNew v l) := by
  intro l
  induction l with
  | nil => intro v _; rfl
  | cons a l ih =>
    intro v h
    obtain ⟨h1, c, h2⟩ := h a (by simp)
    have e : ((stoi (trim (toStr a))).bind fun id => (station m id).bind fun c => Res.ok (if c ∈ v then v else v ++ [c])) =
        .ok (if some a ∈ v then v else v ++ [some a]) := by
      rw [trim_word (toStr_word _).1, stoi_toStr _ h1, Res.bind_ok']
      unfold station
      rw [h2]
      rfl
    have := ih (if some a ∈ v then v else v ++ [some a]) fun k hk => h k (by simp [hk])
    unfold addCands at this ⊢
    rw [List.map_cons, Res.foldlM_cons, e, Res.ok_bind, this]
    rfl

/-- What a row does to the table. -/
def step (t : Tab) (r : CandLine) : Tab :=
  ⟨fun o d => if o = r.o ∧ d = r.d then some (addNew ((t.table r.o r.d).getD []) r.stations) else t.table o d, false⟩

theorem candRow_eq {os ds : List ℤ} {m : Nodes} {r : CandLine} (h : r.Ok os ds m) (t : Tab) :
    candRow os ds m t (lineOf r.words) = .ok (step t r) := by
  unfold candRow
  rw [show r.words = (r.o :: r.d :: r.stations).map toStr from rfl, split_line (MmPt.rowOk_ints _ _)]
  simp only [List.map_cons]
  rw [trim_word (toStr_word _).1, stoi_toStr _ h.range.1, Res.bind_ok', trim_word (toStr_word _).1, stoi_toStr _ h.range.2.1,
    Res.bind_ok', if_neg (by simpa using h.ends.1), if_neg (by simpa using h.ends.2),
    addCands_eq _ _ fun k hk => ⟨h.range.2.2 k hk, h.stations k hk⟩, Res.bind_ok']
  simp [Tab.enter, step]

theorem addNew_append (v : List (Option ℤ)) (a b : List ℤ) : addNew (addNew v a) b = addNew v (a ++ b) := by
  unfold addNew
  rw [List.foldl_append]

theorem fold_step (o d : ℤ) : ∀ (rows : List CandLine) (t : Tab),
    (rows.foldl step t).table o d =
      if ∃ r ∈ rows, r.o = o ∧ r.d = d then some (addNew ((t.table o d).getD []) (said rows o d)) else t.table o d := by
  intro rows
  induction rows with
  | nil => intro t; simp
  | cons r rows ih =>
    intro t
    rw [List.foldl_cons, ih]
    by_cases h : r.o = o ∧ r.d = d
    · obtain ⟨rfl, rfl⟩ := h
      rw [if_pos (⟨r, by simp, rfl, rfl⟩ : ∃ q ∈ r :: rows, q.o = r.o ∧ q.d = r.d)]
      have e1 : (step t r).table r.o r.d = some (addNew ((t.table r.o r.d).getD []) r.stations) := by simp [step]
      have e2 : said (r :: rows) r.o r.d = r.stations ++ said rows r.o r.d := by simp [said]
      rw [e1, e2, Option.getD_some, addNew_append]
      split
      · rfl
      · rename_i hn
        have : said rows r.o r.d = [] := by
          unfold said
          rw [List.filter_eq_nil_iff.2 fun q hq => by
            simp only [decide_eq_true_eq]; exact fun e => hn ⟨q, hq, e⟩]
          rfl
        rw [this, List.append_nil]
    · have e1 : (step t r).table o d = t.table o d := by
        simp only [step]
        rw [if_neg]
        rintro ⟨rfl, rfl⟩
        exact h ⟨rfl, rfl⟩
      have e2 : said (r :: rows) o d = said rows o d := by
        unfold said
        rw [List.filter_cons_of_neg (by simpa using h)]
      have e3 : (∃ q ∈ r :: rows, q.o = o ∧ q.d = d) ↔ ∃ q ∈ rows, q.o = o ∧ q.d = d := by
        simp [h]
      rw [e1, e2]
      simp only [e3]

theorem fold_empty : ∀ (rows : List CandLine) (t : Tab), (rows.foldl step t).empty = (t.empty && rows.isEmpty) := by
  intro rows
  induction rows with
  | nil => intro t; simp
  | cons r rows ih => intro t; rw [List.foldl_cons, ih]; simp [step]

theorem addNew_nil (l : List ℤ) : addNew [] l = (firsts l).map some := by
  rw [addNew_eq]
  simp

/-! ### All stations -/

theorem full_inner (m : Nodes) (o : ℤ) : ∀ (ds : List ℤ) (t : Tab), ds.Nodup → (∀ d ∈ ds, t.table o d = none) → ∀ o' d',
    (ds.foldl (fun t d => (⟨fun o' d' => if o' = o ∧ d' = d then some (((t.enter o d).table o d).getD [] ++ (pois m).map some)
      else t.table o' d', false⟩ : Tab)) t).table o' d' =
      if o' = o ∧ d' ∈ ds then some ((pois m).map some) else t.table o' d' := by
  intro ds
  induction ds with
  | nil => intro t _ _ o' d'; simp
  | cons d ds ih =>
    intro t hnd hnew o' d'
    rw [List.nodup_cons] at hnd
    rw [List.foldl_cons, ih _ hnd.2 ?_]
    · simp only [Tab.enter, and_self, if_true, Option.getD_some, hnew d (by simp), Option.getD_none, List.nil_append, List.mem_cons]
      by_cases h1 : o' = o <;> by_cases h2 : d' = d <;> by_cases h3 : d' ∈ ds <;> simp [h1, h2, h3]
    · intro e he
      have : e ≠ d := fun h => hnd.1 (h ▸ he)
      simp only [this, and_false, if_false]
      exact hnew e (by simp [he])

theorem full_outer (m : Nodes) (ds : List ℤ) (hd : ds.Nodup) : ∀ (os : List ℤ) (t : Tab), os.Nodup →
    (∀ o ∈ os, ∀ d ∈ ds, t.table o d = none) → ∀ o d,
    (fullCands os ds m t).table o d = if o ∈ os ∧ d ∈ ds then some ((pois m).map some) else t.table o d := by
  intro os
  induction os with
  | nil => intro t _ _ o d; simp [fullCands]
  | cons a os ih =>
    intro t hnd hnew o d
    rw [List.nodup_cons] at hnd
    unfold fullCands at ih ⊢
    rw [List.foldl_cons, ih _ hnd.2 ?_, full_inner m a ds t hd fun d hd => hnew a (by simp) d hd]
    · by_cases h1 : o = a <;> by_cases h2 : d ∈ ds <;> by_cases h3 : o ∈ os <;> simp [h1, h2, h3]
    · intro o ho d hd'
      have : o ≠ a := fun h => hnd.1 (h ▸ ho)
      rw [full_inner m a ds t hd fun d hd => hnew a (by simp) d hd, if_neg (by simp [this])]
      exact hnew o (by simp [ho]) d hd'

/-! ### Saving -/

theorem flat_ints : ∀ ns : List ℤ, ns ≠ [] → ns.flatMap (fun n => toStr n ++ [' ']) = lineOf (ns.map toStr) ++ [' '] := by
  intro ns
  induction ns with
  | nil => intro h; exact absurd rfl h
  | cons n ns ih =>
    intro _
    by_cases hn : ns = []
    · subst hn; simp [lineOf_single]
    · rw [List.flatMap_cons, ih hn, List.map_cons, lineOf_cons _ _ (by simpa using hn)]
      simp

theorem candLine_eq (o d : ℤ) (v : List ℤ) : candLine o d v = lineOf ((o :: d :: v).map toStr) ++ ['\n'] := by
  have := flat_ints (o :: d :: v) (by simp)
  unfold candLine
  rw [show toStr o ++ [' '] ++ toStr d ++ [' '] ++ v.flatMap (fun n => toStr n ++ [' ']) =
    (o :: d :: v).flatMap (fun n => toStr n ++ [' ']) by simp, this, List.dropLast_concat]

/-- The rows of a table. -/
def candRows (t : List (ℤ × List (ℤ × List ℤ))) : List CandLine := t.flatMap fun o => o.2.map fun d => ⟨o.1, d.1, d.2⟩

theorem saveCands_eq (t : List (ℤ × List (ℤ × List ℤ))) :
    saveCands t = fileOf "# (O_ID, D_ID): cs1, cs2, ...".toList ((candRows t).map CandLine.words) := by
  unfold saveCands fileOf textOf
  rw [show candHeader = "# (O_ID, D_ID): cs1, cs2, ...".toList ++ ['\n'] by decide +kernel, List.append_assoc,
    List.singleton_append]
  congr 2
  unfold candRows
  rw [List.flatMap_map, List.flatMap_assoc]
  apply List.flatMap_congr
  intro o _
  rw [List.flatMap_map]
  apply List.flatMap_congr
  intro d _
  exact candLine_eq _ _ _

end Verif.EvF

import Verif.Lemmas.Dar
import Mathlib.Algebra.BigOperators.Ring.List
import Mathlib.Algebra.Order.BigOperators.Group.List

/-! # C48 and C51: tables of the Python interface -/

namespace Verif
open Tab Curve Ults

/-! ## C51 -/

/-- C51.  For every history of recorded flows at whole intervals up to the current one: the column of the
table holds, at every tick, the value of the last record of the curve up to this tick. -/
theorem C51_table (T : ℕ) (rs : List (ℚ × ℚ)) (h : ∀ r ∈ rs, (∃ n : ℕ, n ≤ T ∧ r.1 = n) ∧ 0 ≤ r.2) :
    ∃ col, ccColumn T (rs.foldl Curve.step install) = .ok col ∧ col.length = T + 1 ∧
      ∀ t : ℕ, t ≤ T → ∃ r, ((rs.foldl Curve.step install).filter fun r => decide (r.1 ≤ (t : ℚ))).getLast? = some r ∧
        col[t]? = some (some r.2) := by
  have hok : OK (rs.foldl Curve.step install) := reachable_ok rs fun r hr => by
    obtain ⟨⟨n, _, hn⟩, h2⟩ := h r hr
    exact ⟨by rw [hn]; positivity, h2⟩
  have hticks : ∀ (rs : List (ℚ × ℚ)) (c : Curve), (∀ r ∈ rs, ∃ n : ℕ, n ≤ T ∧ r.1 = n) → Ticks T c →
      (∃ v rest, c = (0, v) :: rest) →
      Ticks T (rs.foldl Curve.step c) ∧ ∃ v rest, rs.foldl Curve.step c = (0, v) :: rest := by
    intro rs
    induction rs with
    | nil => intro c _ hc h0; exact ⟨hc, h0⟩
    | cons r rs ih =>
      intro c hr hc h0
      rw [List.foldl_cons]
      have key : Ticks T (Curve.step c r) ∧ ∃ v rest, Curve.step c r = (0, v) :: rest := by
        unfold Curve.step
        cases he : addIncrement c r with
        | ok c' =>
          obtain ⟨v, rest, hv⟩ := h0
          obtain ⟨d, b, hdb⟩ := exists_last (c := c) (by rw [hv]; simp)
          have hs := addIncrement_snoc d b r
          rw [← hdb, he] at hs
          split at hs
          · cases hs
          · split at hs
            · cases hs
              constructor
              · intro x hx
                simp only [Res.stateOr, List.mem_append, List.mem_singleton] at hx
                rcases hx with hx | rfl
                · exact hc x (by rw [hdb]; simp [hx])
                · exact hc b (by rw [hdb]; simp)
              · show ∃ v rest, d ++ [(b.1, b.2 + r.2)] = (0, v) :: rest
                rw [hdb] at hv
                cases d with
                | nil =>
                  simp only [List.nil_append, List.cons.injEq] at hv
                  exact ⟨b.2 + r.2, [], by simp [hv.1]⟩
                | cons a d =>
                  simp only [List.cons_append, List.cons.injEq] at hv
                  exact ⟨v, _, by rw [hv.1]; rfl⟩
            · cases hs
              constructor
              · intro x hx
                simp only [Res.stateOr, List.mem_append, List.mem_singleton] at hx
                rcases hx with hx | rfl
                · exact hc x hx
                · exact hr r (by simp)
              · exact ⟨v, rest ++ [(r.1, r.2 + b.2)], by rw [hv]; rfl⟩
        | throw m => exact ⟨hc, h0⟩
        | ub => exact ⟨hc, h0⟩
        | diverge => exact ⟨hc, h0⟩
      exact ih _ (fun x hx => hr x (by simp [hx])) key.1 key.2
  obtain ⟨ht, v, rest, h0⟩ := hticks rs install (fun r hr => (h r hr).1)
    (by intro r hr; simp [install, addRecord] at hr; subst hr; exact ⟨0, Nat.zero_le _, by simp⟩)
    ⟨0, [], rfl⟩
  obtain ⟨col, h1, h2, h3⟩ := ccColumn_spec T _ ht (hok.lt.imp fun h => h.1)
  refine ⟨col, h1, h2, fun t htT => ?_⟩
  have hne : (rs.foldl Curve.step install).filter (fun r => decide (r.1 ≤ (t : ℚ))) ≠ [] := by
    rw [h0, List.filter_cons, if_pos (by simp)]
    simp
  refine ⟨_, List.getLast?_eq_getLast_of_ne_nil hne, ?_⟩
  rw [h3 t htT, List.getLast?_eq_getLast_of_ne_nil hne]
  rfl

/-- C51, in terms of the flows: for flows recorded in order at whole intervals up to the current one (and
below 10000), the column is the running total of the flows. -/
theorem C51_table_counts (T : ℕ) (rs : List (ℚ × ℚ)) (h : Legal rs) (hT : ∀ r ∈ rs, r.1 ≤ (T : ℚ)) :
    ∃ c, Res.foldlM addIncrement install rs = .ok c ∧
      ccColumn T c = .ok ((List.range (T + 1)).map fun (t : ℕ) =>
        some ((rs.filter fun r => decide (r.1 ≤ (t : ℚ))).map (·.2)).sum) := by
  obtain ⟨c, he, hok, hint, ⟨d, b, hcd, _, hb1, _⟩, ⟨r0, h0, h00⟩, hl⟩ := run_legal rs h
  refine ⟨c, he, ?_⟩
  have hlast : b.1 ≤ (T : ℚ) := by
    rcases hb1 with hb | ⟨r, hr, hb⟩
    · rw [hb]; positivity
    · rw [hb]; exact hT r hr
  have hticks : Ticks T c := by
    intro r hr
    obtain ⟨n, _, hn⟩ := hint r hr
    refine ⟨n, ?_, hn⟩
    have : r.1 ≤ b.1 := by
      have hb : c.getLast? = some b := by rw [hcd]; simp
      exact (le_last hok hb hr).2
    have h2 : (n : ℚ) ≤ T := by rw [← hn]; linarith
    exact_mod_cast h2
  have hsort := hok.lt.imp fun h => h.1
  obtain ⟨col, h1, h2, h3⟩ := ccColumn_spec T c hticks hsort
  rw [h1]
  congr 1
  apply List.ext_getElem?
  intro t
  by_cases ht : t < T + 1
  · rw [h3 t (by omega), List.getElem?_map, List.getElem?_range ht, Option.map_some]
    congr 1
    show _ = some (flowUpTo rs t)
    rw [← hl _ (by positivity)]
    -- the last record up to `t`
    have key : ∀ c : Curve, c.Pairwise (fun a b => a.1 < b.1) → c.filter (fun r => decide (r.1 ≤ (t : ℚ))) ≠ [] →
        ((c.filter fun r => decide (r.1 ≤ (t : ℚ))).getLast?).map Prod.snd = some (lookupLe c t) := by
      intro c hs
      induction c using List.reverseRecOn with
      | nil => intro h; simp at h
      | append_singleton c x ih =>
        intro hne
        rw [lookupLe_snoc, List.filter_append]
        by_cases hx : x.1 ≤ (t : ℚ)
        · simp [hx]
        · simp only [hx, decide_false, Bool.false_eq_true, not_false_eq_true, List.filter_cons_of_neg,
            List.filter_nil, List.append_nil, if_false]
          apply ih (List.pairwise_append.1 hs).1
          simpa [List.filter_append, hx] using hne
    apply key c hsort
    intro hnil
    rw [List.filter_eq_nil_iff] at hnil
    have hm : r0 ∈ c := by
      cases c with
      | nil => simp at h0
      | cons a c => simp at h0; simp [h0]
    have := hnil r0 hm
    rw [h00] at this
    simp at this
  · rw [List.getElem?_eq_none (by omega), List.getElem?_eq_none (by simp; omega)]

example : ccColumn 6 ([(1, 2), (2, 0), (4, 3)].foldl Curve.step install) =
    .ok [some 0, some 2, some 2, some 2, some 5, some 5, some 5] := by decide +kernel

/-- C51: asking before the interval of a record raises. -/
example : ccColumn 3 ([(1, 2), (2, 0), (4, 3)].foldl Curve.step install) = .throw "IndexError" := by decide +kernel

/-! ## C48 -/

theorem registerPaths_spec (known : ℤ → Bool) (ids : List ℤ) (hk : ∀ i ∈ ids, known i = true) (hn : ids.Nodup) :
    ∃ reg, registerPaths known ids = .ok (ids, reg) ∧ reg.length = ids.length ∧
      ∀ (p : ℤ) (i : ℕ), reg.get p = some i ↔ ids[i]? = some p := by
  induction ids using List.reverseRecOn with
  | nil => exact ⟨[], rfl, rfl, fun p i => by simp⟩
  | append_singleton ids a ih =>
    rw [List.nodup_append] at hn
    obtain ⟨reg, h1, h2, h3⟩ := ih (fun i hi => hk i (by simp [hi])) hn.1
    have hnot : reg.has a = false := by
      cases hg : reg.get a with
      | none => unfold Store.has; rw [hg]; rfl
      | some i =>
        have := (h3 a i).1 hg
        exact absurd rfl (hn.2.2 a (List.mem_of_getElem? this) a (by simp))
    refine ⟨reg ++ [(a, ids.length)], ?_, by simp [h2], ?_⟩
    · unfold registerPaths at h1 ⊢
      rw [Res.foldlM_append, h1]
      simp only [Res.ok_bind, Res.foldlM_cons, Res.foldlM_nil, hk a (by simp), Bool.not_true, Bool.false_eq_true,
        if_false]
      unfold Store.insert
      rw [hnot]
      rfl
    · intro p i
      rw [Store.get_append, Store.get_cons, Store.get_nil]
      rcases Nat.lt_trichotomy i ids.length with hi | hi | hi
      · rw [List.getElem?_append_left hi, ← h3]
        constructor
        · intro h
          cases hg : reg.get p with
          | some j => rw [hg] at h; simpa using h
          | none =>
            rw [hg] at h
            simp at h
            omega
        · intro h; rw [h]; rfl
      · subst hi
        rw [List.getElem?_append_right (Nat.le_refl _)]
        simp only [Nat.sub_self, List.getElem?_cons_zero, Option.some.injEq]
        constructor
        · intro h
          cases hg : reg.get p with
          | some j =>
            rw [hg] at h
            simp at h
            subst h
            have := (h3 p _).1 hg
            rw [List.getElem?_eq_none (Nat.le_refl _)] at this
            simp at this
          | none =>
            rw [hg] at h
            simp at h
            exact h
        · intro h
          subst h
          have : reg.get a = none := by
            cases hg : reg.get a with
            | none => rfl
            | some j => unfold Store.has at hnot; rw [hg] at hnot; simp at hnot
          rw [this]; simp
      · have hlen : (ids ++ [a]).length ≤ i := by simp; omega
        rw [List.getElem?_eq_none hlen]
        constructor
        · intro h
          cases hg : reg.get p with
          | some j =>
            rw [hg] at h
            simp at h
            subst h
            have := (h3 p _).1 hg
            rw [List.getElem?_eq_none (by omega)] at this
            simp at this
          | none =>
            rw [hg] at h
            simp at h
            omega
        · intro h; simp at h

/-- C48: registering distinct known paths and links keeps them in order; path `j` of the list has
index `j`. -/
theorem C48_registered (known : ℤ → Bool) (ids : List ℤ) (hk : ∀ i ∈ ids, known i = true) (hn : ids.Nodup) :
    registerLinks known ids = .ok ids ∧
    ∃ reg, registerPaths known ids = .ok (ids, reg) ∧ ∀ (p : ℤ) (i : ℕ), reg.get p = some i ↔ ids[i]? = some p := by
  refine ⟨?_, ?_⟩
  · induction ids using List.reverseRecOn with
    | nil => rfl
    | append_singleton ids a ih =>
      rw [List.nodup_append] at hn
      have h1 := ih (fun i hi => hk i (by simp [hi])) hn.1
      unfold registerLinks at h1 ⊢
      rw [Res.foldlM_append, h1]
      have : a ∉ ids := fun h => hn.2.2 a h a (by simp) rfl
      simp [Res.foldlM_cons, hk a (by simp), this]
  · obtain ⟨reg, h1, _, h3⟩ := registerPaths_spec known ids hk hn
    exact ⟨reg, h1, h3⟩

/-- What `get_complete_dar_matrix` is asked: registered paths, loading up to `cur`, the movements onto
every registered link, the periods, the number `D` of departure intervals and the path flows. -/
structure DarQuery where
  ids : List ℤ
  cur : ℕ
  hist : List (List Item)
  periods : List (ℕ × ℕ)
  D : ℕ
  f : List ℚ

/-- A sensible question: distinct paths, legal movements with departures below `D`, non-empty periods
within the loading, which has at most 9999 intervals, and a flow for every path and departure. -/
structure DarQuery.Ok (q : DarQuery) : Prop where
  nodup : q.ids.Nodup
  cur : q.cur < 10000
  legal : ∀ h ∈ q.hist, LegalItems h ∧ ∀ x ∈ h, 0 ≤ x.dep ∧ x.dep < q.D
  periods : ∀ p ∈ q.periods, p.1 < p.2 ∧ p.2 ≤ q.cur
  flows : q.ids.length * q.D ≤ q.f.length

/-- The answer of the code: register the paths, record the movements, make the matrix. -/
def DarQuery.run (q : DarQuery) : Res (List Cell) :=
  (registerPaths (fun _ => true) q.ids).bind fun r =>
    (Res.foldlM (fun acc h => (record h).bind fun t => .ok (acc ++ [t])) [] q.hist).bind fun trees =>
      darMatrix q.cur trees (q.periods.map fun p => ((p.1 : ℤ), (p.2 : ℤ))) r.2 q.f

/-- The flow of path number `j` and departure `d` that enters link number `i` in period number `t`. -/
def DarQuery.enter (q : DarQuery) (i t j d : ℕ) : ℚ :=
  match q.hist[i]?, q.periods[t]?, q.ids[j]? with
  | some h, some p, some path => entering h path d p.1 p.2
  | _, _, _ => 0

/-- All cells, in terms of the movements. -/
theorem run_cells (q : DarQuery) (hq : q.Ok) : ∃ reg, (∀ (p : ℤ) (i : ℕ), reg.get p = some i ↔ q.ids[i]? = some p) ∧
    ∃ trees : List Tree, trees.length = q.hist.length ∧ (∀ i (h : i < trees.length) (h' : i < q.hist.length),
      record q.hist[i] = .ok trees[i]) ∧
    q.run = .ok (trees.zipIdx.flatMap fun tr => q.periods.zipIdx.flatMap fun p => tr.1.flatMap fun e =>
      cellsOf (q.hist[tr.2]?.getD []) reg (p.1.1 : ℚ) (p.1.2 : ℚ) tr.2 p.2 q.hist.length q.ids.length q.f e.1) := by
  obtain ⟨reg, h1, h2, h3⟩ := registerPaths_spec (fun _ => true) q.ids (fun _ _ => rfl) hq.nodup
  have htrees : ∀ hs : List (List Item), (∀ h ∈ hs, LegalItems h) → ∃ trees : List Tree,
      Res.foldlM (fun acc h => (record h).bind fun t => .ok (acc ++ [t])) [] hs = .ok trees ∧
      trees.length = hs.length ∧
      ∀ i (h : i < trees.length) (h' : i < hs.length), record hs[i] = .ok trees[i] := by
    intro hs
    induction hs using List.reverseRecOn with
    | nil => intro _; exact ⟨[], rfl, rfl, fun i h _ => by simp at h⟩
    | append_singleton hs a ih =>
      intro hl
      obtain ⟨trees, t1, t2, t3⟩ := ih fun h hh => hl h (by simp [hh])
      obtain ⟨tr, r1, _⟩ := record_spec a (hl a (by simp))
      refine ⟨trees ++ [tr], ?_, by simp [t2], ?_⟩
      · rw [Res.foldlM_append, t1]
        simp [Res.foldlM_cons, r1]
      · intro i h h'
        by_cases hi : i < hs.length
        · rw [List.getElem_append_left hi, List.getElem_append_left (by omega)]
          exact t3 i (by omega) hi
        · have : i = hs.length := by simp at h'; omega
          subst this
          rw [List.getElem_append_right (Nat.le_refl _), List.getElem_append_right (by omega)]
          simp [r1, t2]
  obtain ⟨trees, t1, t2, t3⟩ := htrees q.hist fun h hh => (hq.legal h hh).1
  refine ⟨reg, h3, trees, t2, t3, ?_⟩
  unfold DarQuery.run
  rw [h1]
  simp only [Res.bind_ok', t1]
  unfold darMatrix
  rw [foldlM_collect (g := fun tr => q.periods.zipIdx.flatMap fun p => tr.1.flatMap fun e =>
      cellsOf (q.hist[tr.2]?.getD []) reg (p.1.1 : ℚ) (p.1.2 : ℚ) tr.2 p.2 q.hist.length q.ids.length q.f e.1)]
  · simp
  · intro tr htr acc
    rw [List.mem_zipIdx_iff_getElem?] at htr
    obtain ⟨hlt, htr'⟩ := List.getElem?_eq_some_iff.1 htr
    have hrec := t3 tr.2 hlt (by omega)
    rw [htr'] at hrec
    have hlt' : tr.2 < q.hist.length := by omega
    have hget : q.hist[tr.2]?.getD [] = q.hist[tr.2] := by rw [List.getElem?_eq_getElem hlt']; rfl
    have hmem : q.hist[tr.2] ∈ q.hist := List.getElem_mem hlt'
    unfold darLink
    rw [t2, h2]
    have hp := foldlM_collect (f := fun acc (p : (ℤ × ℤ) × ℕ) =>
        (checkPeriod q.cur p.1).bind fun _ =>
          (darCells tr.1 reg p.1.1 p.1.2 tr.2 p.2 q.hist.length q.ids.length q.f).bind fun cs => .ok (acc ++ cs))
      (g := fun p => tr.1.flatMap fun e =>
        cellsOf (q.hist[tr.2]?.getD []) reg (p.1.1 : ℚ) (p.1.2 : ℚ) tr.2 p.2 q.hist.length q.ids.length q.f e.1)
      (q.periods.map fun p => ((p.1 : ℤ), (p.2 : ℤ))).zipIdx (by
        intro p hp acc
        rw [List.mem_zipIdx_iff_getElem?, List.getElem?_map] at hp
        cases hpp : q.periods[p.2]? with
        | none => rw [hpp] at hp; simp at hp
        | some pp =>
          rw [hpp] at hp
          simp only [Option.map_some, Option.some.injEq] at hp
          have hm := hq.periods pp (List.mem_of_getElem? hpp)
          have hc := hq.cur
          have hck : checkPeriod q.cur p.1 = .ok () := by
            unfold checkPeriod
            rw [← hp]
            rw [if_neg (by simp; omega), if_neg (by simp; omega), if_neg (by simp; omega)]
          rw [hck, hget]
          have hd := darCells_eq (reg := reg) (np := q.ids.length) (D := q.D) (f := q.f)
            (hq.legal _ hmem).1 hrec
            (fun x i hx => by
              have := (h3 x i).1 hx
              exact (List.getElem?_eq_some_iff.1 this).1)
            hq.flows (hq.legal _ hmem).2 (s := pp.1) (t := pp.2) (by omega) (by omega) tr.2 p.2 q.hist.length
          rw [← hp]
          simp only [Res.bind_ok']
          push_cast
          rw [hd]
          rfl) []
    rw [hp]
    simp only [Res.bind_ok', List.nil_append]
    congr 2
    rw [List.zipIdx_map, List.flatMap_map]
    rfl

/-- C48, every sensible question is answered; every entry lies inside the matrix, no two entries are at
the same place, and the entry for a link, period, path and departure is there exactly when flow enters
(more than the machine epsilon), with the share that it is of the path flow. -/
theorem C48_matrix (q : DarQuery) (hq : q.Ok) : ∃ ts, q.run = .ok ts ∧
    (∀ c ∈ ts, 0 ≤ c.row ∧ c.row < q.hist.length * q.periods.length ∧ 0 ≤ c.col ∧ c.col < q.ids.length * q.D) ∧
    (ts.map fun c => (c.row, c.col)).Nodup ∧
    ∀ i t j d : ℕ, i < q.hist.length → t < q.periods.length → j < q.ids.length → d < q.D →
      ∀ v, (⟨i + q.hist.length * t, j + q.ids.length * d, v⟩ : Cell) ∈ ts ↔
        q.enter i t j d > dblEps ∧ ∃ y, q.f[j + q.ids.length * d]? = some y ∧
          v = if y = 0 then none else some (q.enter i t j d / y) := by
  obtain ⟨reg, hreg, trees, ht1, ht2, hrun⟩ := run_cells q hq
  have hregi : ∀ {p i}, reg.get p = some i → i < q.ids.length := fun h =>
    (List.getElem?_eq_some_iff.1 ((hreg _ _).1 h)).1
  -- the movements and the tree of a link
  have hlink : ∀ tr ∈ trees.zipIdx, tr.2 < q.hist.length ∧ q.hist[tr.2]?.getD [] ∈ q.hist ∧
      record (q.hist[tr.2]?.getD []) = .ok tr.1 := by
    intro tr htr
    rw [List.mem_zipIdx_iff_getElem?] at htr
    obtain ⟨hlt, htr'⟩ := List.getElem?_eq_some_iff.1 htr
    have hlt' : tr.2 < q.hist.length := by omega
    have hget : q.hist[tr.2]?.getD [] = q.hist[tr.2] := by rw [List.getElem?_eq_getElem hlt']; rfl
    have hrec := ht2 tr.2 hlt hlt'
    rw [htr'] at hrec
    rw [hget]
    exact ⟨hlt', List.getElem_mem _, hrec⟩
  have hkey : ∀ tr ∈ trees.zipIdx, tr.1.keys.Nodup ∧ ∀ k, k ∈ tr.1.keys ↔
      ∃ x ∈ q.hist[tr.2]?.getD [], (x.path, x.dep) = k := by
    intro tr htr
    obtain ⟨_, h2, h3⟩ := hlink tr htr
    obtain ⟨tr', r1, r2, r3, _⟩ := record_spec _ (hq.legal _ h2).1
    rw [h3] at r1
    cases r1
    exact ⟨r2, r3⟩
  have hdep : ∀ tr ∈ trees.zipIdx, ∀ e ∈ tr.1, 0 ≤ e.1.2 ∧ e.1.2 < q.D := by
    intro tr htr e he
    obtain ⟨x, hx, hxe⟩ := ((hkey tr htr).2 e.1).1 (List.mem_map_of_mem (f := Prod.fst) he)
    have := (hq.legal _ (hlink tr htr).2.1).2 x hx
    rw [← hxe]
    exact this
  have hper : ∀ p ∈ q.periods.zipIdx, p.2 < q.periods.length := by
    intro p hp
    rw [List.mem_zipIdx_iff_getElem?] at hp
    exact (List.getElem?_eq_some_iff.1 hp).1
  refine ⟨_, hrun, ?_, ?_, ?_⟩
  · intro c hc
    simp only [List.mem_flatMap] at hc
    obtain ⟨tr, htr, p, hp, e, he, hc⟩ := hc
    obtain ⟨idx, hi, _, rfl⟩ := mem_cellsOf.1 hc
    have h1 := (hlink tr htr).1
    have h2 := hper p hp
    have h3 := hregi hi
    obtain ⟨h4, h5⟩ := hdep tr htr e he
    refine ⟨by positivity, ?_, by positivity, ?_⟩
    · have : q.hist.length * (p.2 + 1) ≤ q.hist.length * q.periods.length := Nat.mul_le_mul_left _ h2
      rw [Nat.mul_add, Nat.mul_one] at this
      show (tr.2 : ℤ) + q.hist.length * p.2 < _
      exact_mod_cast (by omega : tr.2 + q.hist.length * p.2 < q.hist.length * q.periods.length)
    · obtain ⟨d, hd⟩ : ∃ d : ℕ, e.1.2 = d := ⟨e.1.2.toNat, by omega⟩
      have hdD : d < q.D := by omega
      have : q.ids.length * (d + 1) ≤ q.ids.length * q.D := Nat.mul_le_mul_left _ hdD
      rw [Nat.mul_add, Nat.mul_one] at this
      show (idx : ℤ) + q.ids.length * e.1.2 < _
      rw [hd]
      exact_mod_cast (by omega : idx + q.ids.length * d < q.ids.length * q.D)
  · rw [List.map_flatMap, List.nodup_flatMap]
    refine ⟨?_, ?_⟩
    · intro tr htr
      rw [List.map_flatMap, List.nodup_flatMap]
      refine ⟨?_, ?_⟩
      · intro p hp
        rw [List.map_flatMap, List.nodup_flatMap]
        refine ⟨?_, ?_⟩
        · intro e _
          unfold cellsOf
          split
          · simp
          · split <;> simp
        · have hn : tr.1.Pairwise fun a b => a.1 ≠ b.1 := by
            have := (hkey tr htr).1
            unfold Store.keys at this
            rwa [List.Nodup, List.pairwise_map] at this
          refine List.Pairwise.imp_of_mem ?_ hn
          intro a b ha hb hab
          show List.Disjoint _ _
          intro x hxa hxb
          rw [List.mem_map] at hxa hxb
          obtain ⟨ca, hca, rfl⟩ := hxa
          obtain ⟨cb, hcb, hxb⟩ := hxb
          obtain ⟨ia, hia, _, rfl⟩ := mem_cellsOf.1 hca
          obtain ⟨ib, hib, _, rfl⟩ := mem_cellsOf.1 hcb
          have h1 := (Prod.ext_iff.1 hxb).2
          obtain ⟨h2, h3⟩ := place_inj (hregi hib) (hregi hia) h1
          apply hab
          refine Prod.ext ?_ h3.symm
          have e1 := (hreg _ _).1 hia
          have e2 := (hreg _ _).1 hib
          rw [h2, e1] at e2
          exact Option.some.inj e2
      · have hn : q.periods.zipIdx.Pairwise fun a b => a.2 ≠ b.2 := by
          have := List.nodup_range' (s := 0) (n := q.periods.length)
          rw [← List.zipIdx_map_snd] at this
          rwa [List.Nodup, List.pairwise_map] at this
        refine hn.imp ?_
        intro a b hab
        show List.Disjoint _ _
        intro x hxa hxb
        simp only [List.map_flatMap, List.mem_flatMap, List.mem_map] at hxa hxb
        obtain ⟨ea, _, ca, hca, rfl⟩ := hxa
        obtain ⟨eb, _, cb, hcb, hxb⟩ := hxb
        obtain ⟨ia, hia, _, rfl⟩ := mem_cellsOf.1 hca
        obtain ⟨ib, hib, _, rfl⟩ := mem_cellsOf.1 hcb
        have h1 := (Prod.ext_iff.1 hxb).1
        obtain ⟨_, h3⟩ := place_inj (hlink tr htr).1 (hlink tr htr).1 h1
        exact hab (by exact_mod_cast h3.symm)
    · have hn : trees.zipIdx.Pairwise fun a b => a.2 ≠ b.2 := by
        have := List.nodup_range' (s := 0) (n := trees.length)
        rw [← List.zipIdx_map_snd] at this
        rwa [List.Nodup, List.pairwise_map] at this
      refine List.Pairwise.imp_of_mem ?_ hn
      intro a b ha hb hab
      show List.Disjoint _ _
      intro x hxa hxb
      simp only [List.map_flatMap, List.mem_flatMap, List.mem_map] at hxa hxb
      obtain ⟨pa, _, ea, _, ca, hca, rfl⟩ := hxa
      obtain ⟨pb, _, eb, _, cb, hcb, hxb⟩ := hxb
      obtain ⟨ia, hia, _, rfl⟩ := mem_cellsOf.1 hca
      obtain ⟨ib, hib, _, rfl⟩ := mem_cellsOf.1 hcb
      have h1 := (Prod.ext_iff.1 hxb).1
      obtain ⟨h2, _⟩ := place_inj (hlink b hb).1 (hlink a ha).1 h1
      exact hab h2.symm
  · intro i t j d hi ht hj hd v
    have hflen : j + q.ids.length * d < q.f.length := by
      have h0 := hq.flows
      have : q.ids.length * (d + 1) ≤ q.ids.length * q.D := Nat.mul_le_mul_left _ hd
      rw [Nat.mul_add, Nat.mul_one] at this
      omega
    have hit : i < trees.length := by omega
    have henter : q.enter i t j d = entering q.hist[i] q.ids[j] d (q.periods[t]).1 (q.periods[t]).2 := by
      unfold DarQuery.enter
      rw [List.getElem?_eq_getElem hi, List.getElem?_eq_getElem ht, List.getElem?_eq_getElem hj]
    have hcast : ((j : ℤ) + q.ids.length * (d : ℤ)) = ((j + q.ids.length * d : ℕ) : ℤ) := by push_cast; rfl
    constructor
    · intro hm
      simp only [List.mem_flatMap] at hm
      obtain ⟨tr, htr, p, hp, e, he, hc⟩ := hm
      obtain ⟨idx, hidx, hgt, heq⟩ := mem_cellsOf.1 hc
      rw [Cell.mk.injEq] at heq
      obtain ⟨e1, e2, e3⟩ := heq
      obtain ⟨a1, a2⟩ := place_inj hi (hlink tr htr).1 e1
      obtain ⟨b1, b2⟩ := place_inj hj (hregi hidx) e2
      have a3 : t = p.2 := by exact_mod_cast a2
      have hpath : e.1.1 = q.ids[j] := by
        have := (hreg _ _).1 hidx
        rw [← b1, List.getElem?_eq_getElem hj] at this
        exact (Option.some.inj this).symm
      have hpp : p.1 = q.periods[t] := by
        rw [List.mem_zipIdx_iff_getElem?] at hp
        rw [← a3, List.getElem?_eq_getElem ht] at hp
        exact (Option.some.inj hp).symm
      have hh : q.hist[tr.2]?.getD [] = q.hist[i] := by
        rw [← a1, List.getElem?_eq_getElem hi]; rfl
      rw [hh, hpath, ← b2, hpp] at hgt e3
      rw [henter]
      refine ⟨hgt, q.f[j + q.ids.length * d], List.getElem?_eq_getElem hflen, ?_⟩
      rw [e3, ← b1, hcast, Int.toNat_natCast]
      unfold share
      rw [List.getElem?_eq_getElem hflen]
    · rintro ⟨hgt, y, hy, rfl⟩
      rw [henter] at hgt ⊢
      simp only [List.mem_flatMap]
      have htr : (trees[i], i) ∈ trees.zipIdx := by
        rw [List.mem_zipIdx_iff_getElem?]; exact List.getElem?_eq_getElem hit
      have hh : q.hist[i]?.getD [] = q.hist[i] := by rw [List.getElem?_eq_getElem hi]; rfl
      have hk : (q.ids[j], (d : ℤ)) ∈ (trees[i]).keys := by
        rw [(hkey _ htr).2]
        show ∃ x ∈ q.hist[i]?.getD [], _
        rw [hh]
        by_contra hno
        have : entering q.hist[i] q.ids[j] d (q.periods[t]).1 (q.periods[t]).2 = 0 := by
          unfold entering
          rw [List.filter_eq_nil_iff.2]
          · rfl
          · intro x hx hxx
            simp only [decide_eq_true_eq] at hxx
            exact hno ⟨x, hx, by rw [hxx.1, hxx.2.1]⟩
        rw [this] at hgt
        exact absurd hgt (by unfold dblEps; norm_num)
      obtain ⟨e, he, hek⟩ := List.mem_map.1 hk
      refine ⟨(trees[i], i), htr, (q.periods[t], t), ?_, e, he, ?_⟩
      · rw [List.mem_zipIdx_iff_getElem?]; exact List.getElem?_eq_getElem ht
      · rw [mem_cellsOf]
        refine ⟨j, (hreg _ _).2 (by rw [hek]; exact List.getElem?_eq_getElem hj), ?_, ?_⟩
        · show entering (q.hist[i]?.getD []) e.1.1 e.1.2 _ _ > _
          rw [hh, hek]; exact hgt
        · show _ = Cell.mk _ _ (share q.f _ (entering (q.hist[i]?.getD []) e.1.1 e.1.2 _ _))
          rw [hh, hek]
          congr 1
          show _ = share q.f ((j : ℤ) + q.ids.length * (d : ℤ)).toNat _
          rw [hcast, Int.toNat_natCast]
          unfold share
          rw [hy]


/-- A movement lies in at most one of several periods in order. -/
theorem one_period (τ : ℚ) : ∀ ps : List (ℕ × ℕ), ps.Pairwise (fun a b => a.2 ≤ b.1) →
    (∀ p ∈ ps, p.1 < p.2) →
    (ps.map fun p => if (p.1 : ℚ) < τ ∧ τ ≤ (p.2 : ℚ) then (1 : ℚ) else 0).sum ≤ 1 := by
  intro ps
  induction ps with
  | nil => intro _ _; simp
  | cons p ps ih =>
    intro hs hp
    rw [List.pairwise_cons] at hs
    rw [List.map_cons, List.sum_cons]
    by_cases hin : (p.1 : ℚ) < τ ∧ τ ≤ (p.2 : ℚ)
    · rw [if_pos hin]
      have : (ps.map fun p => if (p.1 : ℚ) < τ ∧ τ ≤ (p.2 : ℚ) then (1 : ℚ) else 0).sum = 0 := by
        apply List.sum_eq_zero
        intro x hx
        rw [List.mem_map] at hx
        obtain ⟨b, hb, rfl⟩ := hx
        have h1 : (p.2 : ℚ) ≤ b.1 := by exact_mod_cast hs.1 b hb
        rw [if_neg]
        rintro ⟨h2, _⟩
        linarith [hin.2]
      rw [this]; norm_num
    · rw [if_neg hin, zero_add]
      exact ih hs.2 fun b hb => hp b (by simp [hb])

/-- Flow entering in periods in order is at most the total flow. -/
theorem sum_entering_le (h : List Item) (hh : ∀ x ∈ h, 0 ≤ x.flow) (path dep : ℤ) (ps : List (ℕ × ℕ))
    (hs : ps.Pairwise fun a b => a.2 ≤ b.1) (hp : ∀ p ∈ ps, p.1 < p.2) :
    (ps.map fun p => entering h path dep p.1 p.2).sum ≤ total h path dep := by
  induction h with
  | nil => simp [entering, total]
  | cons x h ih =>
    have ih := ih fun y hy => hh y (by simp [hy])
    have e1 : ∀ p : ℕ × ℕ, entering (x :: h) path dep p.1 p.2 =
        (if x.path = path ∧ x.dep = dep then x.flow else 0) *
          (if (p.1 : ℚ) < x.time ∧ x.time ≤ (p.2 : ℚ) then 1 else 0) + entering h path dep p.1 p.2 := by
      intro p
      unfold entering
      rw [List.filter_cons]
      by_cases ha : x.path = path ∧ x.dep = dep
      · by_cases hb : (p.1 : ℚ) < x.time ∧ x.time ≤ (p.2 : ℚ)
        · simp [ha.1, ha.2, hb.1, hb.2]
        · have : ¬ (x.path = path ∧ x.dep = dep ∧ (p.1 : ℚ) < x.time ∧ x.time ≤ (p.2 : ℚ)) :=
            fun h => hb ⟨h.2.2.1, h.2.2.2⟩
          rw [if_neg (by simpa using this), if_neg hb]; simp
      · have : ¬ (x.path = path ∧ x.dep = dep ∧ (p.1 : ℚ) < x.time ∧ x.time ≤ (p.2 : ℚ)) :=
          fun h => ha ⟨h.1, h.2.1⟩
        rw [if_neg (by simpa using this), if_neg ha]; simp
    have e2 : total (x :: h) path dep = (if x.path = path ∧ x.dep = dep then x.flow else 0) + total h path dep := by
      unfold total
      rw [List.filter_cons]
      by_cases ha : x.path = path ∧ x.dep = dep
      · simp [ha.1, ha.2]
      · rw [if_neg (by simpa using ha), if_neg ha]; simp
    rw [e2, List.map_congr_left (fun p _ => e1 p), List.sum_map_add, List.sum_map_mul_left]
    have hx := hh x (by simp)
    have h1 := one_period x.time ps hs hp
    have h0 : 0 ≤ (if x.path = path ∧ x.dep = dep then x.flow else 0) := by split <;> [exact hx; exact le_rfl]
    have := mul_le_mul_of_nonneg_left h1 h0
    linarith

theorem coeff_mem {ts : List Cell} (hn : (ts.map fun c => (c.row, c.col)).Nodup) {c : Cell} (hc : c ∈ ts) :
    coeff ts c.row c.col = c.value.getD 0 := by
  unfold coeff
  induction ts with
  | nil => simp at hc
  | cons x ts ih =>
    rw [List.map_cons, List.nodup_cons] at hn
    rw [List.filter_cons]
    rcases List.mem_cons.1 hc with rfl | hc
    · rw [if_pos (by simp), List.map_cons, List.sum_cons]
      rw [List.filter_eq_nil_iff.2]
      · simp
      · intro y hy hyy
        simp only [decide_eq_true_eq] at hyy
        exact hn.1 (List.mem_map.2 ⟨y, hy, by rw [hyy.1, hyy.2]⟩)
    · rw [if_neg]
      · exact ih hn.2 hc
      · intro hyy
        simp only [decide_eq_true_eq] at hyy
        exact hn.1 (List.mem_map.2 ⟨c, hc, by rw [hyy.1, hyy.2]⟩)

theorem coeff_absent {ts : List Cell} {r c : ℤ} (h : ∀ v, (⟨r, c, v⟩ : Cell) ∉ ts) : coeff ts r c = 0 := by
  unfold coeff
  rw [List.filter_eq_nil_iff.2]
  · rfl
  · rintro ⟨a, b, v⟩ hy hyy
    simp only [decide_eq_true_eq] at hyy
    obtain ⟨rfl, rfl⟩ := hyy
    exact h v hy

/-- C48, the entries of the matrix: the flow that enters, divided by the path flow, or zero where at most
the machine epsilon enters. -/
theorem C48_entries (q : DarQuery) (hq : q.Ok) (i t j d : ℕ) (hi : i < q.hist.length)
    (ht : t < q.periods.length) (hj : j < q.ids.length) (hd : d < q.D) (y : ℚ)
    (hy : q.f[j + q.ids.length * d]? = some y) (hy0 : y ≠ 0) : ∃ ts, q.run = .ok ts ∧
    coeff ts (i + q.hist.length * t) (j + q.ids.length * d) =
      if q.enter i t j d > dblEps then q.enter i t j d / y else 0 := by
  obtain ⟨ts, h1, _, h3, h4⟩ := C48_matrix q hq
  refine ⟨ts, h1, ?_⟩
  by_cases hg : q.enter i t j d > dblEps
  · rw [if_pos hg]
    have hm := (h4 i t j d hi ht hj hd (some (q.enter i t j d / y))).2 ⟨hg, y, hy, by rw [if_neg hy0]⟩
    exact coeff_mem h3 hm
  · rw [if_neg hg]
    apply coeff_absent
    intro v hv
    exact hg ((h4 i t j d hi ht hj hd v).1 hv).1

/-- C48, the portions add up: for observation periods in order, the entries for one link, path and
departure sum over the periods to at most the flow of this path and departure that ever entered the link
over the path flow; so to at most one unless more flow enters than has departed. -/
theorem C48_portions (q : DarQuery) (hq : q.Ok) (hs : q.periods.Pairwise fun a b => a.2 ≤ b.1)
    (i j d : ℕ) (hi : i < q.hist.length) (hj : j < q.ids.length) (hd : d < q.D) (y : ℚ)
    (hy : q.f[j + q.ids.length * d]? = some y) (hy0 : 0 < y) : ∃ ts, q.run = .ok ts ∧
    ((List.range q.periods.length).map fun (t : ℕ) => coeff ts (i + q.hist.length * t) (j + q.ids.length * d)).sum
      ≤ total q.hist[i] q.ids[j] d / y ∧
    (total q.hist[i] q.ids[j] d ≤ y →
      ((List.range q.periods.length).map fun (t : ℕ) => coeff ts (i + q.hist.length * t) (j + q.ids.length * d)).sum ≤ 1) := by
  obtain ⟨ts, h1, _⟩ := C48_matrix q hq
  have hle : ((List.range q.periods.length).map fun (t : ℕ) =>
      coeff ts (i + q.hist.length * t) (j + q.ids.length * d)).sum ≤ total q.hist[i] q.ids[j] d / y := by
    have hnn : ∀ x ∈ q.hist[i], 0 ≤ x.flow := fun x hx => ((hq.legal _ (List.getElem_mem hi)).1.1 x hx).2
    have step1 : ((List.range q.periods.length).map fun (t : ℕ) =>
        coeff ts (i + q.hist.length * t) (j + q.ids.length * d)).sum ≤
        ((List.range q.periods.length).map fun (t : ℕ) => q.enter i t j d / y).sum := by
      apply List.sum_le_sum
      intro t ht
      rw [List.mem_range] at ht
      obtain ⟨ts', e1, e2⟩ := C48_entries q hq i t j d hi ht hj hd y hy hy0.ne'
      rw [h1] at e1
      cases e1
      rw [e2]
      split
      · exact le_rfl
      · apply div_nonneg _ hy0.le
        unfold DarQuery.enter
        rw [List.getElem?_eq_getElem hi, List.getElem?_eq_getElem ht, List.getElem?_eq_getElem hj]
        apply List.sum_nonneg
        intro x hx
        rw [List.mem_map] at hx
        obtain ⟨a, ha, rfl⟩ := hx
        exact hnn a (List.mem_filter.1 ha).1
    have step2 : ((List.range q.periods.length).map fun (t : ℕ) => q.enter i t j d / y).sum
        = (q.periods.map fun p => entering q.hist[i] q.ids[j] d p.1 p.2).sum / y := by
      rw [div_eq_mul_inv, ← List.sum_map_mul_right]
      congr 1
      apply List.ext_getElem?
      intro t
      by_cases ht : t < q.periods.length
      · rw [List.getElem?_map, List.getElem?_range ht, List.getElem?_map, List.getElem?_eq_getElem ht]
        simp only [Option.map_some, DarQuery.enter, List.getElem?_eq_getElem hi, List.getElem?_eq_getElem ht,
          List.getElem?_eq_getElem hj, div_eq_mul_inv]
      · rw [List.getElem?_eq_none (by simp; omega), List.getElem?_eq_none (by simp; omega)]
    have step3 := sum_entering_le q.hist[i] hnn q.ids[j] d q.periods hs fun p hp => (hq.periods p hp).1
    rw [step2] at step1
    exact le_trans step1 (div_le_div_of_nonneg_right step3 hy0.le)
  exact ⟨ts, h1, hle, fun h => le_trans hle ((div_le_one hy0).2 h)⟩

/-- C48, a period that is empty, backwards or goes beyond what has been loaded is refused: when a matrix
is returned for at least one link, every period lies within the loading. -/
theorem C48_periods_checked (cur : ℤ) (trees : List Tree) (hne : trees ≠ []) (periods : List (ℤ × ℤ))
    (reg : Store ℤ ℕ) (f : List ℚ) (ts : List Cell) (h : darMatrix cur trees periods reg f = .ok ts)
    (p : ℤ × ℤ) (hp : p ∈ periods) : p.1 < p.2 ∧ p.2 ≤ cur := by
  obtain ⟨tr, trs, rfl⟩ := List.exists_cons_of_ne_nil hne
  unfold darMatrix at h
  rw [List.zipIdx_cons, Res.foldlM_cons, Res.bind_eq_ok] at h
  obtain ⟨_, h, _⟩ := h
  rw [Res.bind_eq_ok'] at h
  obtain ⟨cs, h, _⟩ := h
  unfold darLink at h
  have key : ∀ (ps : List ((ℤ × ℤ) × ℕ)) (acc cs : List Cell), Res.foldlM (fun acc (p : (ℤ × ℤ) × ℕ) =>
      (checkPeriod cur p.1).bind fun _ =>
        (darCells tr reg p.1.1 p.1.2 0 p.2 (tr :: trs).length reg.length f).bind fun cs => .ok (acc ++ cs))
        acc ps = .ok cs → ∀ p ∈ ps, p.1.1 < p.1.2 ∧ p.1.2 ≤ cur := by
    intro ps
    induction ps with
    | nil => intro _ _ _ p hp; simp at hp
    | cons q ps ih =>
      intro acc cs h p hp
      rw [Res.foldlM_cons, Res.bind_eq_ok] at h
      obtain ⟨acc', h1, h2⟩ := h
      rcases List.mem_cons.1 hp with rfl | hp
      · rw [Res.bind_eq_ok'] at h1
        obtain ⟨_, h1, _⟩ := h1
        unfold checkPeriod at h1
        split at h1
        · simp at h1
        split at h1
        · simp at h1
        split at h1
        · simp at h1
        omega
      · exact ih _ _ h2 p hp
  obtain ⟨i, hi⟩ := List.getElem?_of_mem hp
  exact key _ _ _ h (p, i) (by rw [List.mem_zipIdx_iff_getElem?]; exact hi)

/-- Two links, three periods, two paths, two departure intervals. -/
def darEx : DarQuery :=
  { ids := [7, 5]
    cur := 6
    hist := [[⟨1, 2, 7, 0⟩, ⟨2, 1, 5, 0⟩, ⟨3, 2, 7, 0⟩, ⟨5, 3, 5, 1⟩], [⟨4, 1, 7, 0⟩, ⟨4, 2, 9, 1⟩]]
    periods := [(0, 2), (2, 4), (4, 6)]
    D := 2
    f := [4, 1, 0, 6] }

theorem darEx_ok : darEx.Ok := by
  refine ⟨by decide, by decide, ?_, by decide, by decide⟩
  have hint : ∀ n : ℕ, n < 10000 → IntTime (n : ℚ) := fun n hn => ⟨n, hn, rfl⟩
  intro h hh
  simp only [darEx, List.mem_cons, List.not_mem_nil, or_false] at hh
  rcases hh with rfl | rfl
  · refine ⟨⟨?_, by decide +kernel⟩, by decide⟩
    intro x hx
    simp only [List.mem_cons, List.not_mem_nil, or_false] at hx
    rcases hx with rfl | rfl | rfl | rfl
    · exact ⟨by simpa using hint 1 (by omega), by norm_num⟩
    · exact ⟨by simpa using hint 2 (by omega), by norm_num⟩
    · exact ⟨by simpa using hint 3 (by omega), by norm_num⟩
    · exact ⟨by simpa using hint 5 (by omega), by norm_num⟩
  · refine ⟨⟨?_, by decide +kernel⟩, by decide⟩
    intro x hx
    simp only [List.mem_cons, List.not_mem_nil, or_false] at hx
    rcases hx with rfl | rfl
    · exact ⟨by simpa using hint 4 (by omega), by norm_num⟩
    · exact ⟨by simpa using hint 4 (by omega), by norm_num⟩

example : darEx.run = .ok [⟨0, 0, some (1 / 2)⟩, ⟨0, 1, some 1⟩, ⟨2, 0, some (1 / 2)⟩, ⟨4, 3, some (1 / 2)⟩,
    ⟨3, 0, some (1 / 4)⟩] := by decide +kernel

example : ∃ ts, darMatrix 6 [[((7, 0), [(0, 0), (1, 1)])]] [(0, 6)] [(7, 0)] [1] = .ok ts ∧
    darMatrix 6 [[((7, 0), [(0, 0), (1, 1)])]] [(0, 7)] [(7, 0)] [1] =
      .throw "input end intervals exceeds the total loading intervals" :=
  ⟨[⟨0, 0, some 1⟩], by decide +kernel, by decide +kernel⟩

/-- C48: registering a path twice is accepted, and then two different (path, departure) pairs share a
column: paths 5, 5, 7 with departures 0 and 1 are given columns 0, 2 and 2, 4 of a matrix that has
2 · 2 = 4. -/
theorem C48_false_for_duplicate_paths :
    ∃ reg, registerPaths (fun _ => true) [5, 5, 7] = .ok ([5, 5, 7], reg) ∧
      darMatrix 4 [[((5, 1), [(0, 0), (1, 1)]), ((7, 0), [(0, 0), (1, 1)]), ((7, 1), [(0, 0), (1, 1)])]] [(0, 4)] reg
        [1, 1, 1, 1, 1, 1] = .ok [⟨0, 2, some 1⟩, ⟨0, 2, some 1⟩, ⟨0, 4, some 1⟩] :=
  ⟨_, rfl, by decide +kernel⟩

/-- C48: a path flow vector that is too short is read out of bounds. -/
theorem C48_short_flows_undefined :
    darMatrix 4 [[((5, 1), [(0, 0), (1, 1)])]] [(0, 4)] [(5, 0)] [1] = .ub := by decide +kernel

end Verif

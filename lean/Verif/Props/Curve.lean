import Verif.Lemmas.Curve

/-!
# Properties C09–C14: cumulative curves and what is derived from them

A curve starts as installed on a link, `[(0, 0)]`.
-/

namespace Verif
open Curve Ults

/-- C09, every history.  After any sequence of `add_increment` calls with non-negative times
and flows (calls that throw are caught), records are strictly increasing in time, start at
time 0, and are non-negative and non-decreasing in count. -/
theorem C09_curve_sorted (rs : List (ℚ × ℚ)) (hrs : ∀ r ∈ rs, 0 ≤ r.1 ∧ 0 ≤ r.2) :
    let c := rs.foldl Curve.step install
    c.Pairwise (fun a b => a.1 < b.1 ∧ a.2 ≤ b.2) ∧ (∀ r ∈ c, 0 ≤ r.2) ∧
      ∃ v rest, c = (0, v) :: rest := by
  have key : ∀ (rs : List (ℚ × ℚ)) (c : Curve), (∀ r ∈ rs, 0 ≤ r.1 ∧ 0 ≤ r.2) → OK c →
      (∃ v rest, c = (0, v) :: rest) →
      OK (rs.foldl Curve.step c) ∧ ∃ v rest, rs.foldl Curve.step c = (0, v) :: rest := by
    intro rs
    induction rs with
    | nil => intro c _ hc h0; exact ⟨hc, h0⟩
    | cons r rs ih =>
      intro c hr hc h0
      refine ih _ (fun x hx => hr x (by simp [hx])) ?_ ?_
      · unfold Curve.step
        cases he : addIncrement c r with
        | ok c' => exact addIncrement_ok hc (hr r (by simp)).1 (hr r (by simp)).2 he
        | throw m => exact hc
        | ub => exact hc
        | diverge => exact hc
      · obtain ⟨v, rest, rfl⟩ := h0
        unfold Curve.step
        obtain ⟨d, b, hdb⟩ := exists_last (c := (0, v) :: rest) (by simp)
        rw [hdb, addIncrement_snoc]
        split
        · exact ⟨v, rest, hdb ▸ rfl⟩
        · split
          · cases d with
            | nil => simp at hdb; exact ⟨v + r.2, [], by simp [Res.stateOr, ← hdb.1]⟩
            | cons a d => simp at hdb; exact ⟨v, _, by simp [Res.stateOr, ← hdb.1]; rfl⟩
          · rw [← hdb]; exact ⟨v, _, rfl⟩
  intro c
  obtain ⟨h1, h2⟩ := key rs install hrs install_ok ⟨0, [], rfl⟩
  exact ⟨h1.lt, fun r hr => (h1.nonneg r hr).2, h2⟩

example : [(1, 2), (3, 1), (2, 5), (3, 4)].foldl Curve.step install
    = [(0, 0), (1, 2), (3, 7)] := by decide +kernel

/-- C09, totals and rejection.  In any state reached by such calls, recording a flow either
throws, exactly when its time is clearly before the last one (by more than the relative
tolerance `1e-4`), leaving the curve as it was, or adds exactly the flow to the total. -/
theorem C09_add_increment_total (rs : List (ℚ × ℚ)) (hrs : ∀ r ∈ rs, 0 ≤ r.1 ∧ 0 ≤ r.2)
    (r : ℚ × ℚ) (hr : 0 ≤ r.1) :
    let c := rs.foldl Curve.step install
    ∃ b, c.getLast? = some b ∧
      (r.1 + 1 / 10000 * b.1 < b.1 → (∃ m, addIncrement c r = .throw m) ∧ Curve.step c r = c) ∧
      (b.1 ≤ r.1 + 1 / 10000 * b.1 → ∃ c' b', addIncrement c r = .ok c' ∧
        c'.getLast? = some b' ∧ b'.2 = b.2 + r.2) := by
  intro c
  obtain ⟨hs, hv, v, rest, h0⟩ := C09_curve_sorted rs hrs
  have hne : c ≠ [] := by show rs.foldl Curve.step install ≠ []; rw [h0]; simp
  obtain ⟨d, b, hc⟩ := exists_last hne
  have hb0 : 0 ≤ b.1 := by
    have hc' : (0, v) :: rest = d ++ [b] := h0.symm.trans hc
    cases d with
    | nil => simp at hc'; rw [← hc'.1]
    | cons a d =>
      have hs' : (d ++ [b]).Pairwise (fun a b : ℚ × ℚ => a.1 < b.1 ∧ a.2 ≤ b.2) ∧ ∀ x ∈ d ++ [b], a.1 < x.1 := by
        have : List.Pairwise (fun a b : ℚ × ℚ => a.1 < b.1 ∧ a.2 ≤ b.2) (a :: (d ++ [b])) := by
          have h1 : rs.foldl Curve.step install = a :: (d ++ [b]) := hc
          rw [← h1]; exact hs
        rw [List.pairwise_cons] at this
        exact ⟨this.2, fun x hx => (this.1 x hx).1⟩
      have := hs'.2 b (by simp)
      simp at hc'
      rw [← hc'.1] at this
      exact this.le
  refine ⟨b, by rw [hc]; simp, ?_, ?_⟩
  · intro hlt
    have : approxLt r.1 b.1 tol = true := by
      rw [approxLt_iff' hr hb0]; unfold tol; linarith
    have he : addIncrement c r = .throw "early time index" := by
      rw [hc, addIncrement_snoc, if_pos this]
    exact ⟨⟨_, he⟩, by simp [Curve.step, he, Res.stateOr]⟩
  · intro hge
    have : ¬ approxLt r.1 b.1 tol = true := by
      rw [approxLt_iff' hr hb0]; unfold tol; linarith
    have he : ∃ c', addIncrement c r = .ok c' := by
      rw [hc, addIncrement_snoc, if_neg this]; split <;> exact ⟨_, rfl⟩
    obtain ⟨c', he⟩ := he
    obtain ⟨d', b', hd', hb'⟩ := addIncrement_total (d := d) (b := b) (by rw [← hc]; exact he)
    exact ⟨c', b', he, by rw [hd']; simp, hb'⟩

example : (addIncrement [(0, 0), (5, 2)] (3, 1)).isOk = false ∧
    addIncrement [(0, 0), (5, 2)] (6, 1) = .ok [(0, 0), (5, 2), (6, 3)] := by decide +kernel

/-- C09, in-order recording.  If times never decrease, no call is rejected and the last count
is the sum of all recorded flows. -/
theorem C09_in_order_total (rs : List (ℚ × ℚ)) (hrs : ∀ r ∈ rs, 0 ≤ r.1 ∧ 0 ≤ r.2)
    (hsorted : rs.Pairwise (fun a b => a.1 ≤ b.1)) :
    ∃ c b, Res.foldlM addIncrement install rs = .ok c ∧ c.getLast? = some b ∧
      b.2 = (rs.map (·.2)).sum := by
  suffices h : ∃ d b, Res.foldlM addIncrement install rs = .ok (d ++ [b]) ∧
      b.2 = (rs.map (·.2)).sum ∧ (b.1 = 0 ∨ ∃ r ∈ rs, b.1 = r.1) by
    obtain ⟨d, b, h1, h2, _⟩ := h
    exact ⟨_, b, h1, by simp, h2⟩
  induction rs using List.reverseRecOn with
  | nil => exact ⟨[], (0, 0), rfl, by simp, Or.inl rfl⟩
  | append_singleton rs r ih =>
    rw [List.pairwise_append] at hsorted
    obtain ⟨d, b, he, hb2, hb1⟩ := ih (fun x hx => hrs x (by simp [hx])) hsorted.1
    have hr := hrs r (by simp)
    have hbr : b.1 ≤ r.1 ∧ 0 ≤ b.1 := by
      rcases hb1 with hb1 | ⟨x, hx, hb1⟩
      · rw [hb1]; exact ⟨hr.1, le_refl _⟩
      · rw [hb1]; exact ⟨hsorted.2.2 x hx r (by simp), (hrs x (by simp [hx])).1⟩
    have hnlt : ¬ (approxLt r.1 b.1 tol = true) := fun h =>
      absurd (approxLt_lt hr.1 hbr.2 h) (not_lt.2 hbr.1)
    have hrun : Res.foldlM addIncrement install (rs ++ [r]) = addIncrement (d ++ [b]) r := by
      rw [Res.foldlM_append, he]
      simp only [Res.ok_bind, Res.foldlM_cons, Res.foldlM_nil]
      cases addIncrement (d ++ [b]) r <;> rfl
    rw [hrun, addIncrement_snoc, if_neg hnlt]
    split
    · refine ⟨d, _, rfl, by simp [hb2], ?_⟩
      rcases hb1 with hb1 | ⟨x, hx, hb1⟩
      · exact Or.inl hb1
      · exact Or.inr ⟨x, by simp [hx], hb1⟩
    · exact ⟨_, _, rfl, by simp [hb2, add_comm], Or.inr ⟨r, by simp, rfl⟩⟩

example : ∃ c, Res.foldlM addIncrement install [(1, 2), (3/2, 1), (3/2, 5), (30, 4)] = .ok c :=
  ⟨[(0, 0), (1, 2), (3/2, 8), (30, 12)], by decide +kernel⟩

/-- C10.  Flows recorded in order at whole intervals `0 … 9999`: the curve queried at any
such interval returns exactly the sum of the flows recorded up to it. -/
theorem C10_get_result_partial (rs : List (ℚ × ℚ)) (h : Legal rs) (n : ℕ) (hn : n < 10000) :
    ∃ c, Res.foldlM addIncrement install rs = .ok c ∧
      getResult c (n : ℚ) = .ok ((rs.filter fun r => decide (r.1 ≤ (n : ℚ))).map (·.2)).sum := by
  obtain ⟨c, he, hok, hint, _, ⟨r0, h0, h00⟩, hl⟩ := run_legal rs h
  refine ⟨c, he, ?_⟩
  rw [getResult_lookup hok hint h0 h00 ⟨n, hn, rfl⟩, hl _ (by positivity)]
  rfl

example : Legal [(1, 2), (3, 1), (3, 5), (9999, 4)] := by
  refine ⟨?_, by decide +kernel⟩
  intro r hr
  simp only [List.mem_cons, List.not_mem_nil, or_false] at hr
  rcases hr with rfl | rfl | rfl | rfl
  · exact ⟨⟨1, by norm_num, by norm_num⟩, by norm_num⟩
  · exact ⟨⟨3, by norm_num, by norm_num⟩, by norm_num⟩
  · exact ⟨⟨3, by norm_num, by norm_num⟩, by norm_num⟩
  · exact ⟨⟨9999, by norm_num, by norm_num⟩, by norm_num⟩

/-- C10, the limit of the claim.  From interval 10001 on the relative tolerance exceeds one
interval, so flows of neighbouring intervals are merged: after recording 1 vehicle at 10000 and
1 at 10001, the curve read at 10000 already says 2. -/
theorem C10_false_beyond_10000 :
    ∃ c, Res.foldlM addIncrement install [(10000, 1), (10001, 1)] = .ok c ∧
      getResult c 10000 = .ok 2 ∧
      (([((10000 : ℚ), (1 : ℚ)), (10001, 1)].filter fun r => decide (r.1 ≤ 10000)).map (·.2)).sum = 1 :=
  ⟨[(0, 0), (10000, 2)], by decide +kernel, by decide +kernel, by decide +kernel⟩

/-- C10, every history and every query time (also negative or fractional): the query
terminates normally, its answer is a recorded count, lies between the first count and the
total, does not decrease with time, and after the last record equals the total. -/
theorem C10_get_result_monotone (rs : List (ℚ × ℚ)) (hrs : ∀ r ∈ rs, 0 ≤ r.1 ∧ 0 ≤ r.2)
    (s t : ℚ) (hst : s ≤ t) :
    let c := rs.foldl Curve.step install
    ∃ a b last, c.getLast? = some last ∧ getResult c s = .ok a ∧ getResult c t = .ok b ∧
      0 ≤ a ∧ a ≤ b ∧ b ≤ last.2 ∧ (last.1 ≤ t → b = last.2) := by
  intro c
  have hok : OK c := reachable_ok rs hrs
  obtain ⟨r, hr, h1, _⟩ := getResult_total hok s
  obtain ⟨r', hr', h1', _⟩ := getResult_total hok t
  obtain ⟨d, last, hd⟩ := exists_last hok.ne
  have hlast : c.getLast? = some last := by rw [hd]; simp
  refine ⟨r.2, r'.2, last, hlast, h1, h1', (hok.nonneg r hr).2, getResult_mono hok hst h1 h1',
    (le_last hok hlast hr').1, ?_⟩
  intro hl
  have := getResult_after_last hok hlast hl
  rw [h1'] at this
  exact Res.ok.inj this

example : getResult [(0, 0), (1, 2), (3, 7)] (5/2) = .ok 2 ∧
    getResult [(0, 0), (1, 2), (3, 7)] 4 = .ok 7 ∧
    getResult [(0, 0), (1, 2), (3, 7)] (-1) = .ok 0 := by decide +kernel

/-- C11, rounding down (the default).  For every reachable curve and every count `v` the lookup
terminates without reading outside the record.  It returns `-1` exactly in the listed cases
(count not above the first record, only one record, every record clearly below `v`);
otherwise the time of the first record that reaches `v` within the tolerance or, if that record
overshoots clearly, the time at which the last level below `v` was first reached. -/
theorem C11_get_time_partial (rs : List (ℚ × ℚ)) (hrs : ∀ r ∈ rs, 0 ≤ r.1 ∧ 0 ≤ r.2) (v : ℚ) :
    let c := rs.foldl Curve.step install
    ∃ τ r0, c.head? = some r0 ∧ getTime c v false = .ok τ ∧
      (τ = -1 ↔ (v ≤ r0.2 ∨ c.length = 1 ∨ ∀ r ∈ c, approxLt r.2 v tol = true)) ∧
      (τ ≠ -1 → ∃ r, FirstAt (fun r => approxLt r.2 v tol = false) c r ∧
         ((approxEq r.2 v tol = true ∧ τ = r.1) ∨
          (approxLt v r.2 tol = true ∧ ∃ p ∈ c, approxLt p.2 v tol = true ∧
            (∀ x ∈ c, approxLt x.2 v tol = true → x.2 ≤ p.2) ∧
            ∃ q, FirstAt (fun x => approxLt x.2 p.2 tol = false) c q ∧ τ = q.1))) := by
  intro c
  have hok : OK c := reachable_ok rs hrs
  obtain ⟨v0, rest, h0⟩ := (C09_curve_sorted rs hrs).2.2
  have hhead : c.head? = some (0, v0) := by
    show (rs.foldl Curve.step install).head? = _; rw [h0]; rfl
  obtain ⟨τ, hτ, hcase⟩ := getTime_down hok v hhead
  have hmem : ∀ {P r}, FirstAt P c r → r ∈ c := by
    rintro P r ⟨pre, post, hc, _⟩; rw [hc]; simp
  refine ⟨τ, (0, v0), hhead, hτ, ?_, ?_⟩
  · constructor
    · intro hm
      rcases hcase with hcase | ⟨_, r, hr, hcase⟩
      · exact hcase.2
      · exfalso
        rcases hcase with ⟨_, h2⟩ | ⟨_, p, _, _, _, q, hq, h2⟩
        · have := (hok.nonneg r (hmem hr)).1; linarith
        · have := (hok.nonneg q (hmem hq)).1; linarith
    · intro hm
      rcases hcase with hcase | ⟨hlt, r, hr, _⟩
      · exact hcase.1
      · rcases hm with hm | hm | hm
        · exact absurd hlt (not_lt.2 hm)
        · have hc1 : c = [(0, v0)] := by
            obtain ⟨x, hx⟩ := List.length_eq_one_iff.1 hm
            rw [hx] at hhead; simp at hhead; rw [hx, hhead]
          simp only [hc1, getTime, if_neg (not_le.2 hlt)] at hτ
          simpa using hτ.symm
        · have h1 := hm r (hmem hr)
          obtain ⟨_, _, _, h2, _⟩ := hr
          simp [h1] at h2
  · intro hne
    rcases hcase with hcase | ⟨_, hcase⟩
    · exact absurd hcase.1 hne
    · exact hcase

example : getTime [(0, 0), (1, 2), (2, 2), (3, 7)] 2 false = .ok 1 ∧
    getTime [(0, 0), (1, 2), (2, 2), (3, 7)] 5 false = .ok 1 ∧
    getTime [(0, 0), (1, 2), (2, 2), (3, 7)] 5 true = .ok 3 ∧
    getTime [(0, 0), (1, 2), (2, 2), (3, 7)] 8 false = .ok (-1) := by decide +kernel

/-- C11, rounding up.  The lookup returns the time of the first record that reaches `v` within
tolerance when there is one; otherwise it reads one element past the end of the deque
(undefined behaviour, `dlink.cpp:1235-1238`). -/
theorem C11_get_time_rounding_up (rs : List (ℚ × ℚ)) (hrs : ∀ r ∈ rs, 0 ≤ r.1 ∧ 0 ≤ r.2) (v : ℚ)
    (r0 : ℚ × ℚ) (h0 : (rs.foldl Curve.step install).head? = some r0) (hv : r0.2 < v)
    (hlen : (rs.foldl Curve.step install).length ≠ 1) :
    let c := rs.foldl Curve.step install
    (∃ r, FirstAt (fun r => approxLt r.2 v tol = false) c r ∧ getTime c v true = .ok r.1) ∨
    ((∀ r ∈ c, approxLt r.2 v tol = true) ∧ getTime c v true = .ub) :=
  getTime_up (reachable_ok rs hrs) h0 hv hlen

/-- C11, the negation for rounding up: a reachable curve and a count for which the lookup is
undefined behaviour. -/
theorem C11_rounding_up_out_of_bounds :
    getTime ([((1 : ℚ), (2 : ℚ)), (3, 5)].foldl Curve.step install) 8 true = .ub := by
  decide +kernel

/-- C12.  For every history and all query times, inflow is additive over adjacent periods,
non-negative, and the inflow from the start to any time after the last record is the sum of all
recorded flows (the same function serves outflow, on the other curve). -/
theorem C12_inflow_additive (rs : List (ℚ × ℚ)) (hrs : ∀ r ∈ rs, 0 < r.1 ∧ 0 ≤ r.2)
    (hsorted : rs.Pairwise (fun a b => a.1 ≤ b.1)) (a b c T : ℚ) (hab : a ≤ b) (hbc : b ≤ c)
    (hT : ∀ r ∈ rs, r.1 ≤ T) (hT0 : 0 ≤ T) :
    ∃ cv, Res.foldlM addIncrement install rs = .ok cv ∧
      (∃ x y, flowBetween cv a b = .ok x ∧ flowBetween cv b c = .ok y ∧ 0 ≤ x ∧ 0 ≤ y ∧
        flowBetween cv a c = .ok (x + y)) ∧
      flowBetween cv 0 T = .ok (rs.map (·.2)).sum := by
  have hrs' : ∀ r ∈ rs, 0 ≤ r.1 ∧ 0 ≤ r.2 := fun r hr => ⟨(hrs r hr).1.le, (hrs r hr).2⟩
  -- the run keeps the first record at (0, 0) and its last time among the recorded ones
  have key : ∃ cv d l, Res.foldlM addIncrement install rs = .ok cv ∧ OK cv ∧ cv = d ++ [l] ∧
      l.2 = (rs.map (·.2)).sum ∧ (l.1 = 0 ∨ ∃ r ∈ rs, l.1 = r.1) ∧
      cv.head? = some (0, 0) := by
    clear hT
    induction rs using List.reverseRecOn with
    | nil => exact ⟨install, [], (0, 0), rfl, install_ok, rfl, by simp, Or.inl rfl, rfl⟩
    | append_singleton rs r ih =>
      rw [List.pairwise_append] at hsorted
      obtain ⟨cv, d, l, he, hok, hcv, hl2, hl1, h0⟩ := ih (fun x hx => hrs x (by simp [hx]))
        hsorted.1 (fun x hx => hrs' x (by simp [hx]))
      have hr := hrs r (by simp)
      have hlr : l.1 ≤ r.1 ∧ 0 ≤ l.1 := by
        rcases hl1 with h | ⟨x, hx, h⟩
        · rw [h]; exact ⟨hr.1.le, le_refl _⟩
        · rw [h]; exact ⟨hsorted.2.2 x hx r (by simp), (hrs' x (by simp [hx])).1⟩
      have hnlt : ¬ (approxLt r.1 l.1 tol = true) := fun h =>
        absurd (approxLt_lt hr.1.le hlr.2 h) (not_lt.2 hlr.1)
      have hrun : Res.foldlM addIncrement install (rs ++ [r]) = addIncrement cv r := by
        rw [Res.foldlM_append, he]
        simp only [Res.ok_bind, Res.foldlM_cons, Res.foldlM_nil]
        cases addIncrement cv r <;> rfl
      have hstep := addIncrement_snoc d l r
      rw [← hcv, if_neg hnlt] at hstep
      by_cases heq : approxEq r.1 l.1 tol = true
      · rw [if_pos heq] at hstep
        refine ⟨_, d, _, hrun.trans hstep, addIncrement_ok hok hr.1.le hr.2 hstep, rfl,
          by simp [hl2], ?_, ?_⟩
        · rcases hl1 with h | ⟨x, hx, h⟩
          · exact Or.inl h
          · exact Or.inr ⟨x, by simp [hx], h⟩
        · cases d with
          | nil =>
            rw [hcv] at h0; simp at h0; subst h0
            -- merging into the record at time 0 is impossible for r.1 > 0
            rw [approxEq_comm] at heq
            have h1 := (approxEq_iff_le (le_refl _) hr.1.le).1 heq
            have h2 := tol_lt_one
            nlinarith [hr.1]
          | cons x d => rw [hcv] at h0; simpa using h0
      · rw [if_neg heq] at hstep
        refine ⟨_, cv, _, hrun.trans hstep, addIncrement_ok hok hr.1.le hr.2 hstep, rfl,
          by simp [hl2, add_comm], Or.inr ⟨r, by simp, rfl⟩, ?_⟩
        cases cv with
        | nil => simp at h0
        | cons x cv => simpa using h0
  obtain ⟨cv, d, l, he, hok, hcv, hl2, hl1, h0⟩ := key
  have hlast : cv.getLast? = some l := by rw [hcv]; simp
  refine ⟨cv, he, ?_, ?_⟩
  · obtain ⟨va, vb, ga, gb, f1⟩ := flowBetween_ok hok a b
    obtain ⟨vb', vc, gb', gc, f2⟩ := flowBetween_ok hok b c
    obtain ⟨va', vc', ga', gc', f3⟩ := flowBetween_ok hok a c
    rw [ga] at ga'; rw [gb] at gb'; rw [gc] at gc'
    cases ga'; cases gb'; cases gc'
    refine ⟨_, _, f1, f2, sub_nonneg.2 (getResult_mono hok hab ga gb),
      sub_nonneg.2 (getResult_mono hok hbc gb gc), ?_⟩
    rw [f3]; congr 1; ring
  · have hlT : l.1 ≤ T := by
      rcases hl1 with h | ⟨r, hr, h⟩
      · rw [h]; exact hT0
      · rw [h]; exact hT r hr
    have hend := getResult_after_last hok hlast hlT
    have hstart : getResult cv 0 = .ok 0 := by
      cases cv with
      | nil => simp at h0
      | cons x cv =>
        simp at h0; subst h0
        cases cv with
        | nil => rfl
        | cons y cv => simp [getResult]
    simp [flowBetween, hend, hstart, hl2]

example : (do
    let c ← Res.foldlM addIncrement install [(1, 2), (3, 1), (4, 5)]
    let x ← flowBetween c 1 3
    let y ← flowBetween c 3 9
    let z ← flowBetween c 0 9
    return (x, y, z)) = .ok (1, 5, 8) := by decide +kernel

/-- C13.  Whatever the two curves, the cached state and the query, a returned link travel time
is at least the free-flow travel time of the loading model.  When it is larger it is exactly
`e - s`, where `s` is the queried start (or, if that is later, the last time for which the outflow
is known) and `e` is the time at which the outflow curve reaches the count entered by `s`. -/
theorem C13_travel_time_at_least_free_flow (l : LinkCc) (start : ℚ) (endTs : ℤ) (r : ℚ)
    (l' : LinkCc) (h : getTravelTime l start endTs = .ok (r, l')) :
    l.fftt ≤ r ∧ (l'.fftt = l.fftt ∧ l'.nIn = l.nIn ∧ l'.nOut = l.nOut) ∧
    (r ≠ l.fftt → ∃ s n e, s = min start l'.lastValid ∧ getResult l.nIn s = .ok n ∧
      getTime l.nOut n false = .ok e ∧ r = e - s) := by
  unfold getTravelTime at h
  simp only at h
  rw [Res.bind_eq_ok'] at h
  obtain ⟨lv, _, h⟩ := h
  rw [Res.bind_eq_ok'] at h
  obtain ⟨x, hx, h⟩ := h
  simp at h
  obtain ⟨rfl, rfl⟩ := h
  unfold travelTimeFromCc at hx
  split at hx
  · have := Res.ok.inj hx; subst this; simp
  · simp only at hx
    have hmin : (if start > lv then lv else start) = min start lv := by
      rcases lt_or_ge lv start with h | h
      · rw [if_pos h, min_eq_right h.le]
      · rw [if_neg (not_lt.2 h), min_eq_left h]
    rw [hmin] at hx
    rw [Res.bind_eq_ok'] at hx
    obtain ⟨cc, hcc, hx⟩ := hx
    split at hx
    · have := Res.ok.inj hx; subst this; simp
    · rw [Res.bind_eq_ok'] at hx
      obtain ⟨e, he, hx⟩ := hx
      split at hx
      · have := Res.ok.inj hx; subst this; simp
      · rename_i hn
        have := Res.ok.inj hx; subst this
        push Not at hn
        exact ⟨hn.2.2, by simp, fun _ => ⟨_, cc, e, rfl, hcc, he, rfl⟩⟩

/-- C13, averaging.  The averaged travel time over several trials is at least free flow; it is
not a number exactly when the averaging window is shorter than one interval (or no trial is
requested). -/
theorem C13_robust_at_least_free_flow (l : LinkCc) (start stop : ℚ) (endTs n : ℤ) (hn : 0 ≤ n)
    (hw : 0 ≤ stop - start) (r : Option ℚ) (l' : LinkCc)
    (h : travelTimeRobust l start stop endTs n = .ok (r, l')) :
    (∀ x, r = some x → l.fftt ≤ x) ∧ (r = none ↔ (stop - start < 1 ∨ n = 0)) := by
  have sum : ∀ (is : List ℕ) (l : LinkCc) (s d : ℚ) (p : ℚ × LinkCc),
      robustSum l s d endTs is = .ok p → l.fftt * is.length ≤ p.1 := by
    intro is
    induction is with
    | nil => intro l s d p hp; simp [robustSum] at hp; subst hp; simp
    | cons i is ih =>
      intro l s d p hp
      unfold robustSum at hp
      rw [Res.bind_eq_ok'] at hp
      obtain ⟨⟨x, l1⟩, h1, hp⟩ := hp
      rw [Res.bind_eq_ok'] at hp
      obtain ⟨q, h2, hp⟩ := hp
      cases hp
      have a := C13_travel_time_at_least_free_flow l _ endTs x l1 h1
      have b := ih l1 s d q h2
      rw [a.2.1.1] at b
      simp only [List.length_cons]
      push_cast
      linarith [a.1]
  unfold travelTimeRobust at h
  rw [Res.bind_eq_ok'] at h
  obtain ⟨d, hd, h⟩ := h
  obtain ⟨hd', _⟩ := toInt_ok_iff.1 hd
  rw [trunc_nonneg hw] at hd'
  have hd0 : 0 ≤ d := by rw [hd']; exact Int.floor_nonneg.2 hw
  have hd1 : stop - start < 1 ↔ d = 0 := by
    rw [hd', Int.floor_eq_zero_iff]; simp [hw]
  simp only at h
  rw [hd1]
  generalize hk : (if n > d then d else n) = k at h
  have hk0 : 0 ≤ k := by rw [← hk]; split <;> omega
  have hkz : k = 0 ↔ (d = 0 ∨ n = 0) := by rw [← hk]; split <;> omega
  split at h
  · rename_i hz
    cases h
    exact ⟨by simp, by simp [← hkz, hz]⟩
  · rename_i hz
    rw [Res.bind_eq_ok'] at h
    obtain ⟨s, hs, h⟩ := h
    cases h
    refine ⟨?_, by simp [← hkz, hz]⟩
    intro x hx
    cases hx
    have := sum _ _ _ _ _ hs
    simp at this
    have hkpos : (0 : ℚ) < k := by
      have : 0 < k := by omega
      exact_mod_cast this
    rw [le_div_iff₀ hkpos]
    have e : ((k.toNat : ℕ) : ℚ) = (k : ℚ) := by
      have : ((k.toNat : ℕ) : ℤ) = k := Int.toNat_of_nonneg hk0
      exact_mod_cast this
    rw [e] at this
    exact this

example : (getTravelTime ⟨[(0, 0), (1, 2), (3, 7)], [(0, 0), (5, 2), (8, 7)], -1, 2⟩ 1 10).bind
    (fun p => .ok p.1) = .ok 4 ∧
    (travelTimeRobust ⟨[(0, 0), (1, 2), (3, 7)], [(0, 0), (5, 2), (8, 7)], -1, 2⟩ 1 4 10 3).bind (fun p => .ok p.1)
      = .ok (some (4 / 3 + 3 / 3 + 5 / 3)) ∧
    (travelTimeRobust ⟨[(0, 0), (1, 2), (3, 7)], [(0, 0), (5, 2), (8, 7)], -1, 2⟩ 1 (3/2) 10 3).bind (fun p => .ok p.1)
      = .ok none := by decide +kernel

/-- C14, what the code does: a reachable curve longer than the limit is cut down to its
*oldest* `n` records. -/
theorem C14_shrink_keeps_oldest (rs : List (ℚ × ℚ)) (hrs : ∀ r ∈ rs, 0 ≤ r.1 ∧ 0 ≤ r.2) (n : ℕ) :
    let c := rs.foldl Curve.step install
    shrink c n = .ok (c.take n) := by
  intro c
  have hok : OK c := reachable_ok rs hrs
  unfold shrink
  split
  · rw [if_neg (by omega), arrange_ok hok]; simp
  · rename_i h
    have : c.length ≤ n := by omega
    rw [List.take_of_length_le this]

/-- C14, the negation: whenever a curve is longer than the limit, shrinking loses its newest
record, and the total count read afterwards can drop. -/
theorem C14_shrink_loses_newest (rs : List (ℚ × ℚ)) (hrs : ∀ r ∈ rs, 0 ≤ r.1 ∧ 0 ≤ r.2) (n : ℕ)
    (hlen : n < (rs.foldl Curve.step install).length) :
    ∃ last c', (rs.foldl Curve.step install).getLast? = some last ∧
      shrink (rs.foldl Curve.step install) n = .ok c' ∧ last ∉ c' := by
  have hok : OK (rs.foldl Curve.step install) := reachable_ok rs hrs
  obtain ⟨d, b, hd⟩ := exists_last hok.ne
  refine ⟨b, _, by rw [hd]; simp, C14_shrink_keeps_oldest rs hrs n, ?_⟩
  rw [hd] at hlen ⊢
  have hn : n ≤ d.length := by simp at hlen; omega
  rw [List.take_append_of_le_length hn]
  intro hm
  have hbd : b ∈ d := List.mem_of_mem_take hm
  have := hok.lt
  rw [hd, List.pairwise_append] at this
  exact absurd (this.2.2 b hbd b (by simp)).1 (lt_irrefl _)

example : shrink [(0, 0), (1, 2), (3, 7)] 2 = .ok [(0, 0), (1, 2)] ∧
    getResult [(0, 0), (1, 2), (3, 7)] 5 = .ok 7 ∧ getResult [(0, 0), (1, 2)] 5 = .ok 2 := by
  have e : arrange [(0, 0), (1, 2), (3, 7)] = [(0, 0), (1, 2), (3, 7)] :=
    List.mergeSort_of_pairwise (by decide +kernel)
  refine ⟨by simp [shrink, e], by decide +kernel⟩

/-- C14 (partial).  The full claim is that the most recent records survive; it is false
(`C14_shrink_loses_newest`).  What does hold: within the limit nothing changes. -/
theorem C14_shrink_within_limit_partial (c : Curve) (n : ℤ) (h : (c.length : ℤ) ≤ n) :
    shrink c n = .ok c := by
  unfold shrink; rw [if_neg (by omega)]

end Verif

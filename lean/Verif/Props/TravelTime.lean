import Verif.Lemmas.TravelTime

/-!
# Travel times read from the curves of a link (C89)
-/

namespace Verif

open Curve Tt

/-- **C89** What is reported: for every pair of histories, every free-flow time and every query interval,
`get_travel_time` returns a value, namely the reading of `Tt.Reported` for the last vehicle that had entered by
the query interval, where a query after the last interval `S` whose entries have all left is answered for
`S`. -/
theorem C89_reported_value {σ : ℚ} (hσ : 0 < σ) (hσ' : σ < 4503599627370496) {T : ℕ} (hT : T < 10000)
    {ins outs : List (ℕ × ℕ)} (hi : History T ins) (ho : History T outs)
    (hle : upTo outs T ≤ upTo ins T) (hbig : upTo ins T < 10000) {fftt : ℚ} (hf : 0 ≤ fftt)
    (start : ℕ) :
    ∃ cin cout r l' S, Res.foldlM addIncrement install (flows σ ins) = .ok cin ∧
      Res.foldlM addIncrement install (flows σ outs) = .ok cout ∧
      getTravelTime ⟨cin, cout, -1, fftt⟩ start T = .ok (r, l') ∧
      IsGreatest {t | t ≤ T ∧ upTo ins t ≤ upTo outs T} S ∧
      Reported outs (min start S) (upTo ins (min start S)) fftt r := by
  obtain ⟨cin, hci, hin⟩ := run_holds hσ hT hi
  obtain ⟨cout, hco, hout⟩ := run_holds hσ hT ho
  obtain ⟨lv, S, h1, h2, h3, h4, h5⟩ := travel_holds hσ hσ' hT hin hout (upTo_zero hi) (upTo_zero ho)
    (fun t => lt_of_le_of_lt (upTo_le_total hi t) hbig) hle (upTo_le_total ho) hf
  obtain ⟨r, h6, h7⟩ := h5 start
  refine ⟨cin, cout, r, ⟨cin, cout, lv, fftt⟩, S, hci, hco, ?_, h4, h7⟩
  unfold getTravelTime
  simp only [show ((-1 : ℚ) < 0) from by norm_num, if_true]
  rw [h1, Res.bind_ok', h6, Res.bind_ok']

/-- **C89** (partial: the vehicle that is asked about must be the last of those that leave in the same interval).
The reported travel time is the time that vehicle really spent on the link, and never less than the free-flow
time. -/
theorem C89_experienced_partial {σ : ℚ} (hσ : 0 < σ) (hσ' : σ < 4503599627370496) {T : ℕ} (hT : T < 10000)
    {ins outs : List (ℕ × ℕ)} (hi : History T ins) (ho : History T outs)
    (hle : upTo outs T ≤ upTo ins T) (hbig : upTo ins T < 10000) {fftt : ℚ} (hf : 0 ≤ fftt)
    {s e : ℕ} (hs : s ≤ T) (hn : 0 < upTo ins s) (hleft : upTo ins s ≤ upTo outs T)
    (he : IsLeast {e | upTo ins s ≤ upTo outs e} e) (hlast : upTo outs e = upTo ins s) :
    ∃ cin cout l', Res.foldlM addIncrement install (flows σ ins) = .ok cin ∧
      Res.foldlM addIncrement install (flows σ outs) = .ok cout ∧
      getTravelTime ⟨cin, cout, -1, fftt⟩ s T = .ok (max fftt ((e : ℚ) - s), l') := by
  obtain ⟨cin, cout, r, l', S, h1, h2, h3, h4, h5⟩ :=
    C89_reported_value hσ hσ' hT hi ho hle hbig hf s
  have hsS : s ≤ S := h4.2 ⟨hs, hleft⟩
  rw [min_eq_left hsS] at h5
  obtain ⟨e', he', h6, _⟩ := h5.2 hn
  have : e' = e := he'.unique he
  subst this
  exact ⟨cin, cout, l', h1, h2, by rw [h3, h6 hlast]⟩

/-- **C89** (partial: at most one vehicle leaves in an interval).  Then every vehicle that enters and leaves is
reported its real travel time. -/
theorem C89_single_departures_partial {σ : ℚ} (hσ : 0 < σ) (hσ' : σ < 4503599627370496) {T : ℕ}
    (hT : T < 10000) {ins outs : List (ℕ × ℕ)} (hi : History T ins) (ho : History T outs)
    (hle : upTo outs T ≤ upTo ins T) (hbig : upTo ins T < 10000) {fftt : ℚ} (hf : 0 ≤ fftt)
    (hone : ∀ t, upTo outs (t + 1) ≤ upTo outs t + 1)
    {s e : ℕ} (hs : s ≤ T) (hn : 0 < upTo ins s) (hleft : upTo ins s ≤ upTo outs T)
    (he : IsLeast {e | upTo ins s ≤ upTo outs e} e) :
    ∃ cin cout l', Res.foldlM addIncrement install (flows σ ins) = .ok cin ∧
      Res.foldlM addIncrement install (flows σ outs) = .ok cout ∧
      getTravelTime ⟨cin, cout, -1, fftt⟩ s T = .ok (max fftt ((e : ℚ) - s), l') := by
  refine C89_experienced_partial hσ hσ' hT hi ho hle hbig hf hs hn hleft he ?_
  have h1 : upTo ins s ≤ upTo outs e := he.1
  have h0 := upTo_zero ho
  obtain ⟨e, rfl⟩ : ∃ k, e = k + 1 := ⟨e - 1, by rcases e with _ | e <;> omega⟩
  have h2 := hone e
  have h3 : ¬ upTo ins s ≤ upTo outs e := fun h => by have := he.2 h; omega
  omega

/-- **C89** (partial: an upper bound only).  No query is ever answered with more than the time really spent
(or the free-flow time). -/
theorem C89_never_more_partial {σ : ℚ} (hσ : 0 < σ) (hσ' : σ < 4503599627370496) {T : ℕ} (hT : T < 10000)
    {ins outs : List (ℕ × ℕ)} (hi : History T ins) (ho : History T outs)
    (hle : upTo outs T ≤ upTo ins T) (hbig : upTo ins T < 10000) {fftt : ℚ} (hf : 0 ≤ fftt)
    {s e : ℕ} (hs : s ≤ T) (hn : 0 < upTo ins s) (hleft : upTo ins s ≤ upTo outs T)
    (he : IsLeast {e | upTo ins s ≤ upTo outs e} e) :
    ∃ cin cout r l', Res.foldlM addIncrement install (flows σ ins) = .ok cin ∧
      Res.foldlM addIncrement install (flows σ outs) = .ok cout ∧
      getTravelTime ⟨cin, cout, -1, fftt⟩ s T = .ok (r, l') ∧ fftt ≤ r ∧ r ≤ max fftt ((e : ℚ) - s) := by
  obtain ⟨cin, cout, r, l', S, h1, h2, h3, h4, h5⟩ :=
    C89_reported_value hσ hσ' hT hi ho hle hbig hf s
  have hsS : s ≤ S := h4.2 ⟨hs, hleft⟩
  rw [min_eq_left hsS] at h5
  obtain ⟨e', he', h6, h7⟩ := h5.2 hn
  have : e' = e := he'.unique he
  subst this
  refine ⟨cin, cout, r, l', h1, h2, h3, ?_⟩
  by_cases hlast : upTo outs e' = upTo ins s
  · rw [h6 hlast]; exact ⟨le_max_left _ _, le_refl _⟩
  · obtain ⟨q, hq, hr⟩ := h7 hlast
    rw [hr]
    refine ⟨le_max_left _ _, max_le_max (le_refl _) ?_⟩
    have : q ≤ e' - 1 := hq.2 (Set.mem_setOf.2 (le_refl (upTo outs (e' - 1))))
    have : (q : ℚ) ≤ e' := by exact_mod_cast (by omega : q ≤ e')
    linarith

/-- **C89** refuted in full: one vehicle enters in each of the intervals 1 and 2, both leave in interval 5, and the
free-flow time is one interval.  The first vehicle needs four intervals, but the query for interval 1 returns
the free-flow time. -/
theorem C89_underestimates :
    ∃ cin cout l', Res.foldlM addIncrement install (flows 1 [(1, 1), (2, 1)]) = .ok cin ∧
      Res.foldlM addIncrement install (flows 1 [(5, 2)]) = .ok cout ∧
      History 5 [(1, 1), (2, 1)] ∧ History 5 [(5, 2)] ∧
      IsLeast {e | upTo [(1, 1), (2, 1)] 1 ≤ upTo [(5, 2)] e} 5 ∧
      getTravelTime ⟨cin, cout, -1, 1⟩ 1 5 = .ok (1, l') := by
  obtain ⟨cin, cout, r, l', S, h1, h2, h3, h4, h5⟩ :=
    C89_reported_value (σ := 1) (by norm_num) (by norm_num) (T := 5) (by norm_num)
      (ins := [(1, 1), (2, 1)]) (outs := [(5, 2)]) (by unfold History; decide) (by unfold History; decide)
      (by decide) (by decide) (fftt := 1) (by norm_num) 1
  have hl : IsLeast {e | upTo [(1, 1), (2, 1)] 1 ≤ upTo [(5, 2)] e} 5 := by
    refine ⟨by decide, fun e he => ?_⟩
    by_contra h
    have he : 1 ≤ upTo [(5, 2)] e := he
    have := upTo_mono [(5, 2)] (show e ≤ 4 by omega)
    have h4 : upTo [(5, 2)] 4 = 0 := by decide
    omega
  refine ⟨cin, cout, l', h1, h2, by unfold History; decide, by unfold History; decide, hl, ?_⟩
  have hsS : 1 ≤ S := h4.2 ⟨by decide, by decide⟩
  rw [min_eq_left hsS] at h5
  obtain ⟨e, he, _, h7⟩ := h5.2 (by decide)
  have : e = 5 := he.unique hl
  subst this
  obtain ⟨q, hq, hr⟩ := h7 (by decide)
  have hq0 : q = 0 := by
    have : q ≤ 0 := hq.2 (show upTo [(5, 2)] (5 - 1) ≤ upTo [(5, 2)] 0 by decide)
    omega
  rw [hq0] at hr
  norm_num at hr
  rw [hr] at h3
  exact_mod_cast h3

/-- Hypotheses of the C89 theorems are met: three vehicles queue on a link with free-flow time 2 and leave one by
one; the reported times are the real ones, and a query after the last departure is answered for the last entry. -/
example :
    (do
      let cin ← Res.foldlM addIncrement install (flows 2 [(1, 2), (3, 1)])
      let cout ← Res.foldlM addIncrement install (flows 2 [(4, 1), (6, 1), (9, 1)])
      let a ← getTravelTime ⟨cin, cout, -1, 2⟩ 1 10
      let b ← getTravelTime a.2 3 10
      let c ← getTravelTime b.2 2 10
      return (a.1, b.1, c.1) : Res (ℚ × ℚ × ℚ)) = .ok (5, 6, 4) := by
  decide +kernel

example : History 10 [(1, 2), (3, 1)] ∧ History 10 [(4, 1), (6, 1), (9, 1)] ∧
    upTo [(4, 1), (6, 1), (9, 1)] 10 ≤ upTo [(1, 2), (3, 1)] 10 ∧ 0 < upTo [(1, 2), (3, 1)] 1 ∧
    upTo [(4, 1), (6, 1), (9, 1)] 6 = upTo [(1, 2), (3, 1)] 1 := by
  unfold History; decide

end Verif

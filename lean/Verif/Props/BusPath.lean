import Verif.Lemmas.BusPath

/-!
# Driving links of bus links (C185) and the check of the paths of buses (C186)
-/

namespace Verif
open BusP Spec.BusP

/-- C185: the portion of every driving link of a bus link is the part of that link between the two stops: from the
first stop on the first link, to the second stop on the last link, all of the links between; if the ride neither comes
back to its first link nor passes its last link before.  `_partial`: see `C185_false_return`. -/
theorem C185_portions_partial {b : BLink} (ha : Along b) (ho : Once b) {i : ℕ} {d : DLink} (hd : b.over[i]? = some d)
    (hl : 0 < d.len) :
    ∃ p, (portions b)[i]? = some p ∧ p * d.len = ends b i d - begins b i ∧
      (0 ≤ begins b i → begins b i ≤ ends b i d → ends b i d ≤ d.len → 0 ≤ p ∧ p ≤ 1) := by
  have e := portion_mul ha ho hd (ne_of_gt hl)
  refine ⟨portion b d, by simp [portions, hd], e, fun h0 h1 h2 => ⟨?_, ?_⟩⟩
  · by_contra h
    have := mul_neg_of_neg_of_pos (not_le.1 h) hl
    linarith
  · by_contra h
    have := mul_lt_mul_of_pos_right (not_le.1 h) hl
    linarith

/-- C185: the portions of the driving links add up to the distance between the stops. -/
theorem C185_distance_partial {b : BLink} (ha : Along b) (ho : Once b) (hl : ∀ d ∈ b.over, 0 < d.len) :
    ((b.over.zip (portions b)).map fun x => x.2 * x.1.len).sum = distance b := by
  have : ((b.over.zip (portions b)).map fun x => x.2 * x.1.len) = b.over.map fun d => portion b d * d.len := by
    unfold portions
    rw [List.zip_map_right]
    induction b.over with
    | nil => rfl
    | cons d ds ih => simp [ih]
  rw [this]
  exact ridden_sum ha ho fun d hd => ne_of_gt (hl d hd)

/-- C185: the travel time of a bus link is at least the time of its distance at the highest speed on its links. -/
theorem C185_time_partial {b : BLink} (ha : Along b) (ho : Once b) (hl : ∀ d ∈ b.over, 0 < d.len)
    (hp : ∀ p ∈ portions b, 0 ≤ p) {tt : ℤ → ℚ} {v : ℚ} (hv : ∀ d ∈ b.over, d.len ≤ tt d.id * v) {t : ℚ}
    {nIn : Curve.Curve} {total : ℚ} {maxInt freq : ℤ}
    (h : linkTt tt false nIn total maxInt freq b = .ok t) : distance b ≤ t * v := by
  have ht : t = rideTime tt b := by
    unfold linkTt at h
    rw [if_neg (by simp)] at h
    cases h; rfl
  rw [ht, ← C185_distance_partial ha ho hl]
  unfold rideTime
  have gen : ∀ (l : List (DLink × ℚ)), (∀ x ∈ l, x.1 ∈ b.over ∧ 0 ≤ x.2) →
      (l.map fun x => x.2 * x.1.len).sum ≤ (l.map fun x => tt x.1.id * x.2).sum * v := by
    intro l
    induction l with
    | nil => intro _; simp
    | cons x xs ih =>
      intro hx
      have h1 := hx x (by simp)
      have h2 := mul_le_mul_of_nonneg_left (hv x.1 h1.1) h1.2
      have h3 := ih fun y hy => hx y (by simp [hy])
      simp only [List.map_cons, List.sum_cons, add_mul]
      nlinarith
  exact gen _ fun x hx => ⟨(List.of_mem_zip hx).1, hp _ (List.of_mem_zip hx).2⟩

/-- C185: when no bus is to come, the time of a bus link that counts the runs is twice the time of assignment. -/
theorem C185_no_more_runs {tt : ℤ → ℚ} {nIn : Curve.Curve} {total : ℚ} {maxInt freq : ℤ} {b : BLink} {last : ℚ × ℚ}
    (hn : nIn.getLast? = some last) (hk : total ≤ last.2) (h0 : 0 ≤ total) :
    linkTt tt true nIn total maxInt freq b = .ok ((2 * maxInt * freq : ℤ) : ℚ) := by
  have hb : Curve.back nIn = .ok last := by
    unfold Curve.back
    cases hc : nIn using List.reverseRecOn with
    | nil => simp [hc] at hn
    | append_singleton l x => simp_all
  unfold linkTt
  rw [if_pos rfl, hb, Res.bind_ok', if_neg]
  unfold Ults.approxLt Curve.tol
  have : 0 ≤ max |last.2| |total| := le_max_of_le_left (abs_nonneg _)
  simp only [decide_eq_true_eq]
  intro hh
  linarith

/-- C185: one row per driving link of each registered bus link, in order; no registered bus link is an error. -/
theorem C185_rows {bs : List BLink} :
    (bs = [] → (overlapRows bs).isOk = false) ∧
    (bs ≠ [] → ∃ rows, overlapRows bs = .ok rows ∧
      rows.map (fun x => (x.1, x.2.1)) = bs.flatMap fun b => b.over.map fun d => (b.id, d.id)) := by
  constructor
  · rintro rfl; rfl
  · intro h
    unfold overlapRows
    rw [if_neg h]
    refine ⟨_, rfl, ?_⟩
    rw [List.map_flatMap]
    congr 1
    funext b
    rw [List.map_map]
    have gen : ∀ (f : DLink → ℚ) (l : List DLink), ((l.zip (l.map f)).map
        ((fun x : ℤ × ℤ × ℚ => (x.1, x.2.1)) ∘ fun x => (b.id, x.1.id, x.2))) = l.map fun d => (b.id, d.id) := by
      intro f l
      induction l with
      | nil => rfl
      | cons d ds ih => simpa using ih
    exact gen _ _

/-- C185, the statement fails for a bus link that comes back to the link on which it began: the portion of the last
link is that of the first link, so the portions add up to the distance between the stops only if the stops lie in
mirror image. -/
theorem C185_false_return {b : BLink} (ha : Along b) (hs : b.src.link = b.dst.link) (hn : b.over.length ≠ 1)
    {d : DLink} (hd : b.over.getLast? = some d) (hl : 0 < d.len) :
    ∃ p, (portions b).getLast? = some p ∧ p * d.len = d.len - b.src.loc ∧
      (d.len - b.src.loc ≠ b.dst.loc → p * d.len ≠ ends b (b.over.length - 1) d - begins b (b.over.length - 1)) := by
  have hid : d.id = b.src.link := by
    have := ha.last
    rw [hd] at this
    simp at this
    rw [this, hs]
  have e : portion b d * d.len = d.len - b.src.loc := by
    unfold portion
    rw [if_neg (fun h => hn h.2.1), if_pos hid.symm]
    field_simp
  have hpos : b.over.length ≠ 0 := by
    intro h
    rw [List.length_eq_zero_iff] at h
    simp [h] at hd
  refine ⟨portion b d, by simp [portions, List.getLast?_map, hd], e, fun h => ?_⟩
  unfold ends begins
  rw [if_pos (by omega), if_neg (by omega), e]
  intro h'
  exact h (by linarith)

namespace BusPathEx

/-- A driving link of length 100. -/
def dl (i : ℤ) (stops : List (Stop × ℤ)) : DLink := ⟨i, 100, .ctm, stops⟩
/-- Stops of route 7. -/
def s1 : Stop := ⟨1, 10, 20, 7, 1⟩
def s2 : Stop := ⟨2, 12, 30, 7, 1⟩
def s3 : Stop := ⟨3, 12, 80, 7, 4⟩
/-- A bus link over three driving links, and one within a driving link. -/
def b1 : BLink := ⟨101, s1, s2, [dl 10 [(s1, 0)], dl 11 [], dl 12 [(s2, 0), (s3, 0)]]⟩
def b2 : BLink := ⟨102, s2, s3, [dl 12 [(s2, 0), (s3, 0)]]⟩
/-- A bus link that comes back to its first driving link. -/
def sBack : Stop := ⟨4, 10, 60, 7, 3⟩
def bBack : BLink := ⟨103, s1, sBack, [dl 10 [], dl 11 [], dl 10 []]⟩

def known : ℤ → Bool := fun i => i = 1 ∨ i = 2 ∨ i = 3
def out : ℤ → Option BLink := fun i => if i = 1 then some b1 else if i = 2 then some b2 else none
def path (links : List ℤ) : BPath := ⟨1, 2, 7, [1, 2, 3], links⟩

end BusPathEx
open BusPathEx

instance (b : BLink) : Decidable (Along b) :=
  decidable_of_iff (b.over.head?.map (·.id) = some b.src.link ∧ b.over.getLast?.map (·.id) = some b.dst.link)
    ⟨fun h => ⟨h.1, h.2⟩, fun h => ⟨h.1, h.2⟩⟩
instance (b : BLink) : Decidable (Once b) :=
  decidable_of_iff ((∀ d ∈ b.over.tail, d.id ≠ b.src.link) ∧ ∀ d ∈ b.over.dropLast, d.id ≠ b.dst.link)
    ⟨fun h => ⟨h.1, h.2⟩, fun h => ⟨h.1, h.2⟩⟩

/-- The hypotheses of C185 are met: portions 4/5, 1, 3/10 and distance 210; 1/2 within a link. -/
example : Along b1 ∧ Once b1 ∧ (∀ d ∈ b1.over, 0 < d.len) ∧ (∀ p ∈ portions b1, 0 ≤ p) ∧
    portions b1 = [4 / 5, 1, 3 / 10] ∧ distance b1 = 210 ∧ Along b2 ∧ Once b2 ∧ portions b2 = [1 / 2] := by
  decide +kernel

/-- The hypotheses of `C185_false_return` are met: 80 is taken for the 60 ridden on the last link. -/
example : Along bBack ∧ bBack.src.link = bBack.dst.link ∧ bBack.over.length ≠ 1 ∧
    portions bBack = [4 / 5, 1, 4 / 5] ∧ distance bBack = 240 := by decide +kernel

/-- The hypotheses of `C185_no_more_runs` are met. -/
example : ([(0, 0), (5, 2)] : Curve.Curve).getLast? = some (5, 2) ∧
    linkTt (fun _ => 10) true [(0, 0), (5, 2)] 2 10 180 b1 = .ok 3600 ∧
    linkTt (fun _ => 10) true [(0, 0), (5, 2)] 3 10 180 b1 = .ok 21 := by decide +kernel

/-! ## C186 -/

open Classical in
/-- C186: the check of the path of a bus returns exactly this: the driving links of the path become those of its bus
links in order, a link at which one bus link ends and the next begins taken once; and the path is reported consistent
if and only if these are the links it had and no bus link passes a stop of the route between its own two stops. -/
theorem C186_check_path {known : ℤ → Bool} {out : ℤ → Option BLink} {p : BPath} {bs : List BLink}
    (hs : p.stops ≠ []) (hl : Legs known out p.stops bs) :
    checkPath known out p = .ok
      (decide (p.links = (bs.flatMap fun b => b.over.map (·.id)).destutter (· ≠ ·) ∧
        ∀ b ∈ bs, ∀ d ∈ b.over, ∀ x ∈ d.stops, ¬ Passes p.route b d x),
       { p with links := (bs.flatMap fun b => b.over.map (·.id)).destutter (· ≠ ·) }) := by
  unfold checkPath
  rw [if_neg hs, legs_zip hl, checkPairs_eq bs hl.2.2, Res.bind_ok', foldl_append_destutter]
  simp only [Bool.true_and]
  generalize (bs.flatMap fun b => b.over.map (·.id)).destutter (· ≠ ·) = M
  by_cases h : M = p.links
  · subst h
    rw [if_neg (by simp), if_pos rfl]
    simp
  · have h' : p.links ≠ M := fun e => h e.symm
    by_cases h2 : M.length = p.links.length
    · rw [if_neg (by simpa using h2), if_neg h]
      simp [h']
    · rw [if_pos h2]
      simp [h']

/-- C186: a path whose bus links cut its driving links, each bus link from the link of one stop to that of the next,
keeps its driving links. -/
theorem C186_cut_path {known : ℤ → Bool} {out : ℤ → Option BLink} {p : BPath} {bs : List BLink}
    (hs : p.stops ≠ []) (hl : Legs known out p.stops bs) (hc : Cut p.links (bs.map fun b => b.over.map (·.id)))
    (hr : p.links.IsChain (· ≠ ·)) :
    ∃ c, checkPath known out p = .ok (c, p) ∧
      (c = true ↔ ∀ b ∈ bs, ∀ d ∈ b.over, ∀ x ∈ d.stops, ¬ Passes p.route b d x) := by
  have e : (bs.flatMap fun b => b.over.map (·.id)).destutter (· ≠ ·) = p.links := by
    rw [List.flatMap_def]
    exact destutter_pieces hc hr
  rw [C186_check_path hs hl, e]
  exact ⟨_, rfl, by simp⟩

/-- C186: a second check finds the links it left. -/
theorem C186_again {known : ℤ → Bool} {out : ℤ → Option BLink} {p q : BPath} {bs : List BLink} {c : Bool}
    (hs : p.stops ≠ []) (hl : Legs known out p.stops bs) (h : checkPath known out p = .ok (c, q)) :
    ∃ c', checkPath known out q = .ok (c', q) ∧
      (c' = true ↔ ∀ b ∈ bs, ∀ d ∈ b.over, ∀ x ∈ d.stops, ¬ Passes p.route b d x) := by
  rw [C186_check_path hs hl] at h
  cases h
  exact ⟨_, C186_check_path (p := { p with links :=
    (bs.flatMap fun b => b.over.map (·.id)).destutter (· ≠ ·) }) hs hl, by simp⟩

/-- C186: a table is consistent if and only if every path is, and every path is checked. -/
theorem C186_check_table {known : ℤ → Bool} {out : ℤ → Option BLink} : ∀ {ps qs : List BPath} {c : Bool},
    checkTable known out ps = .ok (c, qs) →
    ∃ cs : List Bool, List.Forall₂ (fun p r => checkPath known out p = .ok r) ps (cs.zip qs) ∧ cs.length = ps.length ∧
      qs.length = ps.length ∧ (c = true ↔ ∀ x ∈ cs, x = true) := by
  intro ps
  induction ps with
  | nil => intro qs c h; cases h; exact ⟨[], by simp, rfl, rfl, by simp⟩
  | cons p ps ih =>
    intro qs c h
    unfold checkTable at h
    rw [Res.bind_eq_ok'] at h
    obtain ⟨a, ha, h⟩ := h
    rw [Res.bind_eq_ok'] at h
    obtain ⟨b, hb, h⟩ := h
    cases h
    obtain ⟨cs, h1, h2, h3, h4⟩ := ih (c := b.1) (qs := b.2) hb
    refine ⟨a.1 :: cs, ?_, by simp [h2], by simp [h3], ?_⟩
    · rw [List.zip_cons_cons]; exact List.Forall₂.cons ha h1
    · rw [Bool.and_eq_true, h4]; simp

/-- C186, a stop may be passed unnoticed when the ride comes back to its first link: stop 5 of the route lies before
stop 1 on link 10; the bus passes it when it comes back to link 10 on the way to stop 2, and the path is reported
consistent. -/
theorem C186_false_return :
    let s5 : Stop := ⟨5, 10, 5, 7, 0⟩
    let d10 := dl 10 [(s1, 0), (s5, 0)]
    let b : BLink := ⟨101, s1, s2, [d10, dl 11 [], d10, dl 12 [(s2, 0)]]⟩
    checkPath known (fun i => if i = 1 then some b else none) ⟨1, 2, 7, [1, 2], [10, 11, 10, 12]⟩ =
      .ok (true, ⟨1, 2, 7, [1, 2], [10, 11, 10, 12]⟩) := by
  decide +kernel

/-- C186: the way to the first stop and the way from the last stop are cut off: a path over 9, 10, 11, 12, 13 with its
first stop on 10 and its last stop on 12 keeps 10, 11, 12 only. -/
theorem C186_cut_off : checkPath known out (path [9, 10, 11, 12, 13]) = .ok (false, path [10, 11, 12]) := by
  decide +kernel

theorem busPathEx_legs : Legs known out [1, 2, 3] [b1, b2] := by
  refine ⟨by decide +kernel, by decide +kernel, ?_⟩
  intro b hb
  simp only [List.mem_cons, List.not_mem_nil, or_false] at hb
  have hp : ∀ b : BLink, (b = b1 ∨ b = b2) → Placed b := by
    intro b hb
    have hids : ∀ d ∈ b.over, ∀ x ∈ d.stops, ∀ s ∈ [b.src, b.dst] ++ d.stops.map (·.1), x.1.id = s.id → x.1 = s := by
      rcases hb with rfl | rfl <;> decide +kernel
    have hsrc : ∀ d ∈ b.over, d.id = b.src.link → (b.src, 0) ∈ d.stops := by
      rcases hb with rfl | rfl <;> decide +kernel
    have hdst : ∀ d ∈ b.over, d.id = b.dst.link → (b.dst, 0) ∈ d.stops := by
      rcases hb with rfl | rfl <;> decide +kernel
    refine ⟨?_, ?_, ?_, ?_, fun d hd h => ⟨0, hsrc d hd h⟩, fun d hd h => ⟨0, hdst d hd h⟩⟩
    · rcases hb with rfl | rfl <;> decide +kernel
    · rcases hb with rfl | rfl <;> decide +kernel
    · intro d hd x hx s hs
      refine hids d hd x hx s ?_
      rcases hs with rfl | rfl | ⟨y, hy, rfl⟩
      · simp
      · simp
      · simp only [List.mem_append, List.mem_map]; exact Or.inr ⟨y, hy, rfl⟩
    · rcases hb with rfl | rfl <;> decide +kernel
  rcases hb with rfl | rfl
  · exact ⟨by decide +kernel, by decide +kernel, hp _ (Or.inl rfl)⟩
  · exact ⟨by decide +kernel, by decide +kernel, hp _ (Or.inr rfl)⟩

/-- The hypotheses of C186 are met, and the path over 10, 11, 12 is consistent. -/
example : Legs known out (path [10, 11, 12]).stops [b1, b2] ∧
    Cut (path [10, 11, 12]).links ([b1, b2].map fun b => b.over.map (·.id)) ∧
    (path [10, 11, 12]).links.IsChain (· ≠ ·) ∧
    checkPath known out (path [10, 11, 12]) = .ok (true, path [10, 11, 12]) ∧
    checkTable known out [path [10, 11, 12], path [10, 12]] = .ok (false, [path [10, 11, 12], path [10, 11, 12]]) :=
  ⟨busPathEx_legs, Cut.cons [10, 11] 12 [] _ (Cut.one _ (by simp)), by decide +kernel, by decide +kernel,
    by decide +kernel⟩

end Verif

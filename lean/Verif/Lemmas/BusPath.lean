import Verif.Spec.BusPath
import Mathlib.Data.List.Destutter
import Mathlib.Tactic.Linarith
import Mathlib.Tactic.Ring
import Mathlib.Tactic.FieldSimp
import Mathlib.Algebra.BigOperators.Group.List.Basic
import Mathlib.Data.List.Induction

namespace Verif.BusP
open Spec.BusP Curve Ults

/-! ## Portions -/

theorem head_id {b : BLink} (h : Along b) : ∃ d ds, b.over = d :: ds ∧ d.id = b.src.link := by
  have := h.first
  cases hb : b.over with
  | nil => simp [hb] at this
  | cons d ds => exact ⟨d, ds, rfl, by simpa [hb] using this⟩

theorem last_id {b : BLink} (h : Along b) : ∃ ds d, b.over = ds ++ [d] ∧ d.id = b.dst.link := by
  have := h.last
  cases hb : b.over using List.reverseRecOn with
  | nil => simp [hb] at this
  | append_singleton ds d => exact ⟨ds, d, rfl, by simpa [hb] using this⟩

/-- Every portion is the part of the link that is ridden. -/
theorem portion_mul {b : BLink} (ha : Along b) (ho : Once b) {i : ℕ} {d : DLink} (hd : b.over[i]? = some d)
    (hl : d.len ≠ 0) : portion b d * d.len = ends b i d - begins b i := by
  have hi : i < b.over.length := (List.getElem?_eq_some_iff.1 hd).1
  obtain ⟨d0, ds, e0, h0⟩ := head_id ha
  obtain ⟨ds', d1, e1, h1⟩ := last_id ha
  have hfirst : i = 0 → d.id = b.src.link := by
    rintro rfl
    rw [e0] at hd; simp at hd; rw [← hd, h0]
  have hlater : i ≠ 0 → d.id ≠ b.src.link := by
    intro hi0
    obtain ⟨j, rfl⟩ := Nat.exists_eq_succ_of_ne_zero hi0
    refine ho.first d ?_
    rw [e0] at hd ⊢
    simp at hd ⊢
    exact List.mem_of_getElem? hd
  have hend : i + 1 = b.over.length → d.id = b.dst.link := by
    intro h
    rw [e1] at hd h
    simp at h
    subst h
    simp at hd; rw [← hd, h1]
  have hmid : i + 1 ≠ b.over.length → d.id ≠ b.dst.link := by
    intro h
    refine ho.last d ?_
    rw [e1] at hd h hi ⊢
    simp at h hi ⊢
    rw [List.getElem?_append_left (by omega)] at hd
    exact List.mem_of_getElem? hd
  unfold portion begins ends
  by_cases h1 : i = 0
  · by_cases h2 : i + 1 = b.over.length
    · rw [if_pos ⟨by rw [← hfirst h1, ← hend h2], by omega, (hfirst h1).symm⟩, if_pos h1, if_pos h2]
      field_simp
    · have : ¬ (b.src.link = b.dst.link ∧ b.over.length = 1 ∧ b.src.link = d.id) := by
        rintro ⟨_, h, _⟩; omega
      rw [if_neg this, if_pos (hfirst h1).symm, if_pos h1, if_neg h2]
      field_simp
  · have : ¬ (b.src.link = b.dst.link ∧ b.over.length = 1 ∧ b.src.link = d.id) := by
      rintro ⟨_, h, _⟩; omega
    rw [if_neg this, if_neg (fun h => hlater h1 h.symm), if_neg h1]
    by_cases h2 : i + 1 = b.over.length
    · rw [if_pos (hend h2).symm, if_pos h2]; field_simp; ring
    · rw [if_neg (fun h => hmid h2 h.symm), if_neg h2]; ring

theorem sum_ends_mid (f : DLink → ℚ) (g : ℕ → DLink → ℚ) (ds : List DLink) :
    ∀ k, (∀ i (h : i < ds.length), f ds[i] = g (k + i) ds[i]) →
      (ds.map f).sum = (ds.mapIdx fun i d => g (k + i) d).sum := by
  intro k h
  congr 1
  apply List.ext_getElem
  · simp
  · intro i h1 h2
    simp only [List.getElem_map, List.getElem_mapIdx]
    exact h i (by simpa using h1)

/-- The sum of the ridden parts is the distance. -/
theorem ridden_sum {b : BLink} (ha : Along b) (ho : Once b) (hl : ∀ d ∈ b.over, d.len ≠ 0) :
    (b.over.map fun d => portion b d * d.len).sum = distance b := by
  obtain ⟨d0, ds, e0, h0⟩ := head_id ha
  have key : ∀ i d, b.over[i]? = some d → portion b d * d.len = ends b i d - begins b i := fun i d h =>
    portion_mul ha ho h (hl d (List.mem_of_getElem? h))
  unfold distance
  cases hds : ds using List.reverseRecOn with
  | nil =>
    rw [hds] at e0
    have := key 0 d0 (by simp [e0])
    rw [e0]
    simp only [List.map_cons, List.map_nil, List.sum_cons, List.sum_nil, add_zero, this, ends, begins, e0]
    simp
  | append_singleton ms z =>
    rw [hds] at e0
    have hlen : b.over.length = ms.length + 2 := by rw [e0]; simp
    have f0 := key 0 d0 (by simp [e0])
    have fz := key (ms.length + 1) z (by simp [e0])
    have fm : ∀ d ∈ ms, portion b d * d.len = d.len := by
      intro d hd
      obtain ⟨i, hi, rfl⟩ := List.getElem_of_mem hd
      rw [key (i + 1) ms[i] (by simp [e0, List.getElem?_append_left hi])]
      unfold ends begins
      rw [if_neg (by omega), if_neg (by omega)]; ring
    have em : (ms.map fun d => portion b d * d.len) = ms.map (·.len) := List.map_congr_left fm
    have e0' : b.over = d0 :: ms ++ [z] := by rw [e0]; simp
    unfold ends begins at f0 fz
    rw [if_neg (by omega), if_pos rfl] at f0
    rw [if_pos (by omega), if_neg (by omega)] at fz
    have hz : (b.over.getLast?.map (·.len)).getD 0 = z.len := by rw [e0', List.getLast?_concat]; rfl
    rw [hz, e0']
    simp only [List.map_append, List.map_cons, List.map_nil, List.sum_append, List.sum_cons, List.sum_nil, em]
    rw [f0, fz]
    ring

/-! ## The links of a path, put together -/

theorem append_snoc (pre : List ℤ) (a l : ℤ) :
    append (pre ++ [a]) l = if a ≠ l then pre ++ [a] ++ [l] else pre ++ [a] := by
  unfold append
  by_cases h : a = l <;> simp [h]

theorem foldl_append_destutter' (l : List ℤ) :
    ∀ pre a, l.foldl append (pre ++ [a]) = pre ++ l.destutter' (· ≠ ·) a := by
  induction l with
  | nil => intro pre a; simp
  | cons x xs ih =>
    intro pre a
    rw [List.foldl_cons, append_snoc, List.destutter'_cons]
    by_cases h : a = x
    · subst h; simp [ih]
    · rw [if_pos h, if_pos h, ih]; simp

theorem foldl_append_destutter (l : List ℤ) : l.foldl append [] = l.destutter (· ≠ ·) := by
  cases l with
  | nil => rfl
  | cons x xs =>
    rw [List.foldl_cons, List.destutter_cons']
    have : append [] x = [] ++ [x] := by simp [append]
    rw [this, foldl_append_destutter']; simp

theorem foldlM_okMem {α β : Type} {f : β → α → Res β} {g : β → α → β} (as : List α) :
    ∀ b, (∀ x ∈ as, ∀ c, f c x = .ok (g c x)) → Res.foldlM f b as = .ok (as.foldl g b) := by
  induction as with
  | nil => intro b _; rfl
  | cons a as ih =>
    intro b h
    rw [Res.foldlM_cons, h a (by simp) b, Res.ok_bind, List.foldl_cons]
    exact ih _ fun x hx => h x (by simp [hx])

/-! ## The test of a stop -/

theorem place_at {d : DLink} {s : Stop} {p : ℤ} (h : place d s = .ok p)
    (hid : ∀ x ∈ d.stops, x.1.id = s.id → x.1 = s) : At d s p := by
  unfold place at h
  by_cases hk : d.kind = .ctm
  · rw [if_pos hk] at h; cases h; exact Or.inl ⟨hk, rfl⟩
  · rw [if_neg hk] at h
    unfold timeloc at h
    cases hf : d.stops.find? (fun x => x.1.id == s.id) with
    | none => rw [hf] at h; cases h
    | some x =>
      rw [hf] at h
      cases h
      have hm := List.mem_of_find?_eq_some hf
      have hp := List.find?_some hf
      exact Or.inr ⟨hk, x, hm, hid x hm (by simpa using hp), rfl⟩

theorem at_unique {d : DLink} {s : Stop} {p q : ℤ} (hn : (d.stops.map (·.1.id)).Nodup) (hp : At d s p)
    (hq : At d s q) : p = q := by
  rcases hp with ⟨hk, rfl⟩ | ⟨hk, x, hx, ex, rfl⟩
  · rcases hq with ⟨_, rfl⟩ | ⟨hk', _⟩
    · rfl
    · exact absurd hk hk'
  · rcases hq with ⟨hk', _⟩ | ⟨_, y, hy, ey, rfl⟩
    · exact absurd hk' hk
    · have : x = y := List.inj_on_of_nodup_map hn hx hy (by rw [ex, ey])
      rw [this]

theorem place_ok {d : DLink} {s : Stop} {t : ℤ} (h : (s, t) ∈ d.stops) : ∃ p, place d s = .ok p := by
  unfold place
  by_cases hk : d.kind = .ctm
  · exact ⟨_, if_pos hk⟩
  · rw [if_neg hk]
    unfold timeloc
    cases hf : d.stops.find? (fun x => x.1.id == s.id) with
    | none => exact absurd (List.find?_eq_none.1 hf _ h) (by simp)
    | some x => exact ⟨_, rfl⟩

theorem placeOf_at {d : DLink} {x : Stop × ℤ} (h : x ∈ d.stops) : At d x.1 (placeOf d x) := by
  unfold placeOf
  by_cases hk : d.kind = .ctm
  · rw [if_pos hk]; exact Or.inl ⟨hk, rfl⟩
  · rw [if_neg hk]; exact Or.inr ⟨hk, x, h, rfl, rfl⟩

open Classical in
/-- The test finds out whether the stop is passed. -/
theorem clash_eq {r : ℤ} {b : BLink} (hb : Placed b) {d : DLink} (hd : d ∈ b.over) {x : Stop × ℤ} (hx : x ∈ d.stops) :
    clash r b.src.id b.dst.id b d x = .ok (decide (Passes r b d x)) := by
  have hlink := hb.links d hd x hx
  have hn := hb.once d hd
  have hids : ∀ y ∈ d.stops, y.1.id = b.src.id → y.1 = b.src := fun y hy => hb.ids d hd y hy _ (Or.inl rfl)
  have hidd : ∀ y ∈ d.stops, y.1.id = b.dst.id → y.1 = b.dst := fun y hy => hb.ids d hd y hy _ (Or.inr (Or.inl rfl))
  have hns : x.1.id ≠ b.src.id ↔ x.1 ≠ b.src :=
    ⟨fun h e => h (by rw [e]), fun h e => h (hids x hx e)⟩
  have hnd : x.1.id ≠ b.dst.id ↔ x.1 ≠ b.dst :=
    ⟨fun h e => h (by rw [e]), fun h e => h (hidd x hx e)⟩
  have hbeh : ∀ p, place d b.src = .ok p →
      ((∀ p q, At d b.src p → At d x.1 q → p ≤ q) ↔ p ≤ placeOf d x) := by
    intro p hp
    constructor
    · exact fun h => h _ _ (place_at hp hids) (placeOf_at hx)
    · intro h p' q' h1 h2
      rw [at_unique hn h1 (place_at hp hids), at_unique hn h2 (placeOf_at hx)]; exact h
  have hbef : ∀ p, place d b.dst = .ok p →
      ((∀ p q, At d b.dst p → At d x.1 q → q ≤ p) ↔ placeOf d x ≤ p) := by
    intro p hp
    constructor
    · exact fun h => h _ _ (place_at hp hidd) (placeOf_at hx)
    · intro h p' q' h1 h2
      rw [at_unique hn h1 (place_at hp hidd), at_unique hn h2 (placeOf_at hx)]; exact h
  unfold clash
  by_cases hr : x.1.route = r
  swap
  · rw [if_neg hr]; congr 1; symm; rw [decide_eq_false_iff_not]; exact fun h => hr h.route
  rw [if_pos hr, hlink]
  by_cases h1 : d.id = b.src.link
  · obtain ⟨t, ht⟩ := hb.src d hd h1
    obtain ⟨p, hp⟩ := place_ok ht
    by_cases h2 : d.id = b.dst.link
    · obtain ⟨t', ht'⟩ := hb.dst d hd h2
      obtain ⟨q, hq⟩ := place_ok ht'
      rw [if_pos ⟨h1, h2⟩, hp, Res.bind_ok']
      have e : Passes r b d x ↔ (placeOf d x ≥ p ∧ x.1.id ≠ b.src.id) ∧ (placeOf d x ≤ q ∧ x.1.id ≠ b.dst.id) := by
        rw [hns, hnd]
        constructor
        · exact fun h => ⟨⟨(hbeh p hp).1 (h.behind h1), h.notSrc⟩, (hbef q hq).1 (h.before h2), h.notDst⟩
        · exact fun h => ⟨hr, h.1.2, h.2.2, fun _ => (hbeh p hp).2 h.1.1, fun _ => (hbef q hq).2 h.2.1⟩
      by_cases h3 : placeOf d x ≥ p ∧ x.1.id ≠ b.src.id
      · rw [if_pos h3, hq, Res.bind_ok']
        congr 1
        rw [decide_eq_decide, e]
        exact ⟨fun h => ⟨h3, h⟩, fun h => h.2⟩
      · rw [if_neg h3]
        congr 1; symm; rw [decide_eq_false_iff_not, e]; exact fun h => h3 h.1
    · rw [if_neg (fun h => h2 h.2), if_pos ⟨h1, h2⟩, hp, Res.bind_ok']
      congr 1
      rw [decide_eq_decide, hns]
      constructor
      · refine fun h => ⟨hr, h.2, ?_, fun _ => (hbeh p hp).2 h.1, fun h' => absurd h' h2⟩
        intro e
        exact h2 (by rw [← hlink, e])
      · exact fun h => ⟨(hbeh p hp).1 (h.behind h1), h.notSrc⟩
  · rw [if_neg (fun h => h1 h.1), if_neg (fun h => h1 h.1)]
    have hsrc : x.1 ≠ b.src := fun e => h1 (by rw [← hlink, e])
    by_cases h2 : d.id = b.dst.link
    · obtain ⟨t', ht'⟩ := hb.dst d hd h2
      obtain ⟨q, hq⟩ := place_ok ht'
      rw [if_pos ⟨h1, h2⟩, hq, Res.bind_ok']
      congr 1
      rw [decide_eq_decide, hnd]
      exact ⟨fun h => ⟨hr, hsrc, h.2, fun h' => absurd h' h1, fun _ => (hbef q hq).2 h.1⟩,
        fun h => ⟨(hbef q hq).1 (h.before h2), h.notDst⟩⟩
    · rw [if_neg (fun h => h2 h.2)]
      congr 1; symm
      rw [decide_eq_true_iff]
      exact ⟨hr, hsrc, fun e => h2 (by rw [← hlink, e]), fun h' => absurd h' h1, fun h' => absurd h' h2⟩

theorem foldl_and {α : Type} (f : α → Bool) (l : List α) :
    ∀ ok, l.foldl (fun ok x => ok && !f x) ok = (ok && decide (∀ x ∈ l, f x = false)) := by
  induction l with
  | nil => intro ok; simp
  | cons a l ih =>
    intro ok
    rw [List.foldl_cons, ih]
    cases h : f a <;> simp [h]

open Classical in
theorem checkDrive_eq {r : ℤ} {b : BLink} (hb : Placed b) {d : DLink} (hd : d ∈ b.over) (acc : Bool × List ℤ) :
    checkDrive r b.src.id b.dst.id b acc d =
      .ok (acc.1 && decide (∀ x ∈ d.stops, ¬ Passes r b d x), append acc.2 d.id) := by
  unfold checkDrive
  rw [if_neg (hb.kinds d hd)]
  rw [foldlM_okMem (g := fun ok x => ok && !decide (Passes r b d x)) d.stops acc.1
    (fun x hx c => by rw [clash_eq hb hd hx, Res.bind_ok']), Res.bind_ok', foldl_and]
  simp

open Classical in
theorem checkLink_eq {r : ℤ} {b : BLink} (hb : Placed b) : ∀ (ds : List DLink), (∀ d ∈ ds, d ∈ b.over) →
    ∀ acc, Res.foldlM (checkDrive r b.src.id b.dst.id b) acc ds =
      .ok (acc.1 && decide (∀ d ∈ ds, ∀ x ∈ d.stops, ¬ Passes r b d x), (ds.map (·.id)).foldl append acc.2) := by
  intro ds
  induction ds with
  | nil => intro _ acc; simp [Res.foldlM_nil]
  | cons d ds ih =>
    intro h acc
    rw [Res.foldlM_cons, checkDrive_eq hb (h d (by simp)), Res.ok_bind, ih (fun y hy => h y (by simp [hy]))]
    congr 1
    simp only [Bool.and_assoc, List.map_cons, List.foldl_cons, Prod.mk.injEq, and_true]
    congr 1
    rw [← Bool.decide_and, decide_eq_decide]
    simp

open Classical in
theorem checkPairs_eq {known : ℤ → Bool} {out : ℤ → Option BLink} {r : ℤ} : ∀ (bs : List BLink),
    (∀ b ∈ bs, known b.src.id = true ∧ out b.src.id = some b ∧ Placed b) → ∀ acc,
    Res.foldlM (checkPair known out r) acc (bs.map fun b => (b.src.id, b.dst.id)) =
      .ok (acc.1 && decide (∀ b ∈ bs, ∀ d ∈ b.over, ∀ x ∈ d.stops, ¬ Passes r b d x),
        (bs.flatMap fun b => b.over.map (·.id)).foldl append acc.2) := by
  intro bs
  induction bs with
  | nil => intro _ acc; simp [Res.foldlM_nil]
  | cons b bs ih =>
    intro h acc
    obtain ⟨h1, h2, h3⟩ := h b (by simp)
    have : checkPair known out r acc (b.src.id, b.dst.id) =
        .ok (acc.1 && decide (∀ d ∈ b.over, ∀ x ∈ d.stops, ¬ Passes r b d x),
          (b.over.map (·.id)).foldl append acc.2) := by
      unfold checkPair
      simp only [h1, h2, if_true]
      exact checkLink_eq h3 b.over (fun _ h => h) acc
    rw [List.map_cons, Res.foldlM_cons, this, Res.ok_bind, ih (fun y hy => h y (by simp [hy]))]
    congr 1
    simp only [Bool.and_assoc, List.flatMap_cons, List.foldl_append, Prod.mk.injEq, and_true]
    congr 1
    rw [← Bool.decide_and, decide_eq_decide]
    simp

theorem legs_zip {known : ℤ → Bool} {out : ℤ → Option BLink} {stops : List ℤ} {bs : List BLink}
    (h : Legs known out stops bs) : stops.zip stops.tail = bs.map fun b => (b.src.id, b.dst.id) := by
  obtain ⟨h1, h2, -⟩ := h
  subst h1
  induction bs with
  | nil => simp
  | cons b bs ih =>
    cases bs with
    | nil => simp
    | cons c cs =>
      have hbc := (List.isChain_cons_cons.1 h2)
      have := ih hbc.2
      simp only [List.map_cons, List.cons_append, List.tail_cons, List.zip_cons_cons, List.getLast?_cons_cons] at this ⊢
      rw [this, hbc.1]

/-! ## Pieces put together -/

theorem destutter'_pieces (segs : List (List ℤ)) : ∀ (l : List ℤ) (a : ℤ), Cut (a :: l) segs →
    (a :: l).IsChain (· ≠ ·) → ∀ e, (e = a → segs.flatten.destutter' (· ≠ ·) e = a :: l) := by
  induction segs with
  | nil => intro l a h; generalize a :: l = L at h; cases h
  | cons s segs ih =>
    intro l a h hc e he
    subst he
    generalize hL : e :: l = L at h hc
    cases h with
    | one l' hne =>
      subst hL
      simp only [List.flatten_cons, List.flatten_nil, List.append_nil]
      rw [List.destutter'_cons, if_neg (by simp), (List.destutter'_of_isChain_cons _ _ hc)]
    | cons a' x rest segs' h' =>
      have hx : (x :: rest).IsChain (· ≠ ·) := (List.isChain_append.1 hc).2.1
      have key := ih rest x h' hx x rfl
      have gen : ∀ (m : List ℤ) (y : ℤ), (y :: (m ++ x :: rest)).IsChain (· ≠ ·) →
          ((m ++ [x]) ++ segs.flatten).destutter' (· ≠ ·) y = y :: (m ++ x :: rest) := by
        intro m
        induction m with
        | nil =>
          intro y hy
          simp only [List.nil_append, List.singleton_append] at hy ⊢
          rw [List.destutter'_cons, if_pos (List.isChain_cons_cons.1 hy).1, key]
        | cons m0 ms ihm =>
          intro y hy
          simp only [List.cons_append] at hy ⊢
          have hy' := List.isChain_cons_cons.1 hy
          rw [List.destutter'_cons, if_pos hy'.1]
          have := ihm m0 hy'.2
          simp only [List.append_assoc] at this ⊢
          rw [this]
      cases a' with
      | nil =>
        simp only [List.nil_append, List.flatten_cons, List.singleton_append] at hL hc ⊢
        cases hL
        rw [List.destutter'_cons, if_neg (by simp), key]
      | cons m0 ms =>
        simp only [List.cons_append, List.flatten_cons] at hL hc ⊢
        cases hL
        rw [List.destutter'_cons, if_neg (by simp)]
        exact gen ms e hc

theorem destutter_pieces {l : List ℤ} {segs : List (List ℤ)} (h : Cut l segs) (hc : l.IsChain (· ≠ ·)) :
    segs.flatten.destutter (· ≠ ·) = l := by
  have hne : l ≠ [] := by cases h <;> simp_all
  obtain ⟨a, l', rfl⟩ := List.exists_cons_of_ne_nil hne
  have hd : ∃ r, segs.flatten = a :: r := by
    generalize hL : a :: l' = L at h
    cases h with
    | one _ _ => subst hL; exact ⟨l', by simp⟩
    | cons a' x rest segs' h' =>
      cases a' with
      | nil => cases hL; exact ⟨_, by simp; rfl⟩
      | cons m ms => cases hL; exact ⟨_, by simp; rfl⟩
  obtain ⟨r, hr⟩ := hd
  have := destutter'_pieces segs l' a h hc a rfl
  rw [hr, List.destutter'_cons, if_neg (by simp)] at this
  rw [hr, List.destutter_cons', this]

end Verif.BusP

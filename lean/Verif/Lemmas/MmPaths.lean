import Verif.Lemmas.Io
import Verif.Spec.MmPaths

/-!
# Saving and loading transit and park-and-ride paths
-/

namespace Verif.MmPt
open Text Graph Io

/-! ### Numbering -/

variable {P β : Type}

/-- The paths of the rows that go from `o` to `d`, numbered by position from `k` on. -/
def picks (num : ℕ → P → P) (o d : ℤ) : ℕ → List (ℤ × ℤ × P) → List P
  | _, [] => []
  | k, (o', d', p) :: ps => if o = o' ∧ d = d' then num k p :: picks num o d (k + 1) ps else picks num o d (k + 1) ps

theorem picks_content {num : ℕ → P → P} {content : P → β} (hc : ∀ k p, content (num k p) = content p) {o d : ℤ} :
    ∀ (ps : List (ℤ × ℤ × P)) (k : ℕ),
      (picks num o d k ps).map content = ((ps.filter fun q => decide (q.1 = o ∧ q.2.1 = d)).map (·.2.2)).map content := by
  intro ps
  induction ps with
  | nil => intro k; rfl
  | cons q ps ih =>
    intro k
    obtain ⟨o', d', q⟩ := q
    simp only [picks]
    by_cases h : o = o' ∧ d = d'
    · rw [if_pos h, List.filter_cons_of_pos (by simp [h.1, h.2]), List.map_cons, List.map_cons, List.map_cons, ih, hc]
    · rw [if_neg h, List.filter_cons_of_neg (by
        simp only [decide_eq_true_eq]; rintro ⟨h1, h2⟩; exact h ⟨h1.symm, h2.symm⟩), ih]

theorem mem_picks {num : ℕ → P → P} {id : P → ℕ} (hid : ∀ k p, id (num k p) = k) {o d : ℤ} :
    ∀ {ps : List (ℤ × ℤ × P)} {k : ℕ} {p : P}, p ∈ picks num o d k ps → k ≤ id p ∧ id p < k + ps.length := by
  intro ps
  induction ps with
  | nil => intro k p h; simp [picks] at h
  | cons q ps ih =>
    intro k p h
    obtain ⟨o', d', q⟩ := q
    simp only [picks] at h
    split at h
    · rcases List.mem_cons.1 h with rfl | h
      · rw [hid]; simp
      · have := ih h; simp only [List.length_cons]; omega
    · have := ih h; simp only [List.length_cons]; omega

theorem picks_ids {num : ℕ → P → P} {id : P → ℕ} (hid : ∀ k p, id (num k p) = k) {o d : ℤ} :
    ∀ (ps : List (ℤ × ℤ × P)) (k : ℕ), ((picks num o d k ps).map id).Pairwise (· < ·) := by
  intro ps
  induction ps with
  | nil => intro k; simp [picks]
  | cons q ps ih =>
    intro k
    obtain ⟨o', d', q⟩ := q
    simp only [picks]
    split
    · rw [List.map_cons, List.pairwise_cons]
      refine ⟨?_, ih _⟩
      intro a ha
      obtain ⟨p, hp, rfl⟩ := List.mem_map.1 ha
      have := (mem_picks hid hp).1
      rw [hid]
      omega
    · exact ih _

theorem rows_filter (t : Tab P) (o d : ℤ) :
    ((rowsOfTab t).filter fun q => decide (q.1 = o ∧ q.2.1 = d)).map (·.2.2) = pathsFor t o d := by
  unfold rowsOfTab pathsFor
  rw [filter_flatMap_eq t _ _ (fun e => decide (e.1 = o))]
  · rw [List.map_flatMap]
    apply List.flatMap_congr
    intro e he
    have heo : e.1 = o := by simpa using (List.mem_filter.1 he).2
    rw [filter_flatMap_eq _ _ _ (fun f => decide (f.1 = d))]
    · rw [List.map_flatMap]
      apply List.flatMap_congr
      intro f hf
      have hfd : f.1 = d := by simpa using (List.mem_filter.1 hf).2
      rw [List.filter_eq_self.2]
      · simp [Function.comp_def]
      · intro q hq
        obtain ⟨p, _, rfl⟩ := List.mem_map.1 hq
        simp [heo, hfd]
    · intro f _ hfd
      rw [List.filter_eq_nil_iff]
      intro q hq
      obtain ⟨p, _, rfl⟩ := List.mem_map.1 hq
      simp only [decide_eq_false_iff_not] at hfd
      simp [hfd]
  · intro e _ heo
    rw [List.filter_eq_nil_iff]
    intro q hq
    simp only [List.mem_flatMap, List.mem_map] at hq
    obtain ⟨f, _, p, _, rfl⟩ := hq
    simp only [decide_eq_false_iff_not] at heo
    simp [heo]

theorem mem_rows {t : Tab P} {q : ℤ × ℤ × P} (h : q ∈ rowsOfTab t) :
    ∃ o ∈ t, ∃ d ∈ o.2, ∃ p ∈ d.2, q = (o.1, d.1, p) := by
  unfold rowsOfTab at h
  simp only [List.mem_flatMap, List.mem_map] at h
  obtain ⟨o, ho, d, hd, p, hp, rfl⟩ := h
  exact ⟨o, ho, d, hd, p, hp, rfl⟩

/-- Rows that are pushed one after the other. -/
theorem push_fold {σ : Type} (num : ℕ → P → P) (st : σ → St P) (body : σ → Str → Res σ) (line : ℤ × ℤ × P → Str) :
    ∀ (ps : List (ℤ × ℤ × P)) (s : σ),
      (∀ q ∈ ps, ∀ s, ∃ s', body s (line q) = .ok s' ∧ st s' = (st s).push q.1 q.2.1 (num (st s).counter q.2.2)) →
      ∃ s', Res.foldlM body s (ps.map line) = .ok s' ∧
        ∀ o d, (st s').table o d = if picks num o d (st s).counter ps = [] then (st s).table o d
          else some (((st s).table o d).getD [] ++ picks num o d (st s).counter ps) := by
  intro ps
  induction ps with
  | nil => intro s _; exact ⟨s, rfl, fun o d => by simp [picks]⟩
  | cons q ps ih =>
    intro s h
    obtain ⟨o, d, p⟩ := q
    obtain ⟨s1, hl, hs1⟩ := h (o, d, p) (by simp) s
    obtain ⟨s', e1, e2⟩ := ih s1 fun q hq => h q (by simp [hq])
    refine ⟨s', ?_, ?_⟩
    · rw [List.map_cons, Res.foldlM_cons, hl]
      exact e1
    · intro o' d'
      rw [e2 o' d', hs1]
      simp only [picks, St.push]
      by_cases hod : o' = o ∧ d' = d
      · obtain ⟨rfl, rfl⟩ := hod
        simp only [and_self, if_true, Option.getD_some, reduceCtorEq, if_false]
        by_cases hp : picks num o' d' ((st s).counter + 1) ps = []
        · simp [hp]
        · simp [hp]
      · simp only [if_neg hod]

/-- What a reader that pushes the rows of a table makes of them. -/
theorem same_of_picks {num : ℕ → P → P} {content : P → β} {id : P → ℕ} (hc : ∀ k p, content (num k p) = content p)
    (hid : ∀ k p, id (num k p) = k) (t : Tab P) (t' : ℤ → ℤ → Option (List P))
    (h : ∀ o d, t' o d = if picks num o d 0 (rowsOfTab t) = [] then none else some (picks num o d 0 (rowsOfTab t))) :
    SamePaths content id t t' := by
  intro o d
  have hp := picks_content (num := num) (content := content) hc (o := o) (d := d) (rowsOfTab t) 0
  rw [rows_filter] at hp
  have e := h o d
  by_cases hnil : picks num o d 0 (rowsOfTab t) = []
  · rw [if_pos hnil] at e
    rw [hnil] at hp
    have hz : pathsFor t o d = [] := by simpa using hp.symm
    rw [e, hz]
    simp
  · rw [if_neg hnil] at e
    rw [e]
    simp only [reduceCtorEq, false_iff, Option.getD_some]
    refine ⟨?_, hp, picks_ids hid _ _, fun p hpm => ?_⟩
    · intro hz
      rw [hz] at hp
      exact hnil (by simpa using hp)
    · have := (mem_picks hid hpm).2
      omega

/-! ### Lines -/

theorem lineLoop_has {σ : Type} (body : σ → Str → Res σ) : ∀ (rows : List (List Str)) (i : In) (s : σ) (rest : List Str),
    (∀ ws ∈ rows, RowOk ws) → Has i (rows.map lineOf ++ rest) →
    lineLoop body rows.length i s = Res.foldlM body s (rows.map lineOf)
  | [], _, _, _, _, _ => rfl
  | ws :: rows, i, s, rest, h, hi => by
    rw [List.map_cons, List.cons_append] at hi
    have hl : trim (getline i).line = lineOf ws := by
      rw [(getline_spec hi []).1, trim_eq, strip_line (h ws (by simp)).1]
    rw [List.length_cons, lineLoop, List.map_cons, Res.foldlM_cons, hl]
    cases hb : body s (lineOf ws) with
    | ok s' =>
      rw [Res.bind_ok', Res.ok_bind]
      exact lineLoop_has body rows _ s' rest (fun x hx => h x (by simp [hx])) (getline_spec hi _).2
    | _ => rfl

theorem linesOf_head (hd t : Str) (h1 : hd = hd.dropLast ++ ['\n']) (h2 : '\n' ∉ hd.dropLast) :
    linesOf (hd ++ t) = hd.dropLast :: linesOf t := by
  unfold linesOf
  rw [h1, List.append_assoc, List.singleton_append, List.splitOn_append_cons_self_of_not_mem]
  · rw [← h1]
  · exact h2

/-- The lines after the header. -/
theorem lineLoop_file {σ : Type} (body : σ → Str → Res σ) (hd : Str) (h1 : hd = hd.dropLast ++ ['\n'])
    (h2 : '\n' ∉ hd.dropLast) (rows : List (List Str)) (h : ∀ ws ∈ rows, RowOk ws) (s : σ) :
    lineLoop body rows.length (getline (In.open (hd ++ textOf rows))) s = Res.foldlM body s (rows.map lineOf) := by
  have hh := has_open (hd ++ textOf rows)
  rw [linesOf_head hd _ h1 h2, linesOf_text h] at hh
  obtain ⟨-, e2⟩ := getline_spec hh (getline (In.open (hd ++ textOf rows))).line
  exact lineLoop_has body rows _ s [[]] h e2

theorem save_fold (line : ℤ × ℤ × P → Res Str) (words : ℤ × ℤ × P → List Str) : ∀ (ps : List (ℤ × ℤ × P)) (acc : Str),
    (∀ q ∈ ps, line q = .ok (lineOf (words q) ++ ['\n'])) →
    Res.foldlM (fun acc r => (line r).bind fun s => .ok (acc ++ s)) acc ps = .ok (acc ++ textOf (ps.map words))
  | [], acc, _ => by simp [textOf]
  | q :: ps, acc, h => by
    rw [Res.foldlM_cons, h q (by simp), Res.bind_ok', Res.ok_bind, save_fold line words ps _ fun x hx => h x (by simp [hx])]
    simp [textOf]

theorem lineOf_append (a : List Str) (b : List Str) (ha : a ≠ []) (hb : b ≠ []) :
    lineOf (a ++ b) = lineOf a ++ ' ' :: lineOf b := by
  induction a with
  | nil => exact absurd rfl ha
  | cons w a ih =>
    by_cases hn : a = []
    · subst hn
      rw [List.singleton_append, lineOf_cons _ _ hb, lineOf_single]
    · rw [List.cons_append, lineOf_cons _ _ (by simp [hn]), ih hn, lineOf_cons _ _ hn]
      simp

theorem rowOk_ints (n : ℤ) (ns : List ℤ) : RowOk ((n :: ns).map toStr) := by
  refine ⟨?_, toStr n, ns.map toStr, rfl, (toStr_word n).2⟩
  intro w hw
  obtain ⟨m, _, rfl⟩ := List.mem_map.1 hw
  exact (toStr_word m).1

/-! ### Transit paths -/

/-- The nodes of the links of a walk. -/
theorem nodesOf_walk (g : G) : ∀ (ls : List ℤ) (u v : ℤ), Sp.Walk g u ls v → ls ≠ [] →
    nodesOf g ls = .ok (Sp.walkNodes g u ls)
  | [], _, _, _, h => absurd rfl h
  | [l], u, v, hw, _ => by
    obtain ⟨t, e1, e2⟩ := hw
    rw [nodesOf, e1, Res.bind_ok']
    simp only [Sp.walkNodes, e1]
  | l :: k :: ls, u, v, hw, _ => by
    obtain ⟨t, e1, e2⟩ := hw
    rw [nodesOf, e1, Res.bind_ok', nodesOf_walk g (k :: ls) t v e2 (by simp), Res.bind_ok']
    simp only
    rw [show Sp.walkNodes g u (l :: k :: ls) = u :: Sp.walkNodes g t (k :: ls) by rw [Sp.walkNodes, e1]]

/-- The words of a row of transit paths. -/
def busWords (r : ℤ × ℤ × PathRec) : List Str := (r.1 :: r.2.1 :: r.2.2.links).map toStr

theorem busLine_eq (r : ℤ × ℤ × PathRec) (h : r.2.2.links ≠ []) : busLine r = .ok (lineOf (busWords r) ++ ['\n']) := by
  unfold busLine busWords
  rw [nodeVecToString_eq h, Res.bind_ok', List.map_cons, List.map_cons, lineOf_cons _ _ (by simp),
    lineOf_cons _ _ (by simpa using h)]
  simp

theorem busRow_eq {g : G} {o d : ℤ} {p : PathRec} (h : BusOk g o d p) (s : St PathRec) :
    busRow g s (lineOf (busWords (o, d, p))) = .ok (s.push o d ⟨s.counter, p.nodes, p.links⟩) := by
  obtain ⟨l, ls, hl⟩ := List.exists_cons_of_ne_nil h.long
  unfold busRow busWords
  rw [split_line (rowOk_ints _ _)]
  have hst := stois_toStr p.links h.range.2.2
  have hn := nodesOf_walk g p.links o d h.walk h.long
  rw [← h.nodes] at hn
  simp only [hl, List.map_cons] at hst ⊢
  rw [stoi_toStr o h.range.1, Res.bind_ok', stoi_toStr d h.range.2.1, Res.bind_ok', hst, Res.bind_ok', ← hl, hn, Res.bind_ok']

/-! ### Park-and-ride paths -/

/-- The words of a row of park-and-ride paths. -/
def pnrWords (r : ℤ × ℤ × PnrRec) : List Str :=
  (r.1 :: r.2.1 :: r.2.2.lot :: r.2.2.mid :: (r.2.2.driveNodes ++ r.2.2.rideLinks)).map toStr

theorem pnrLine_eq (r : ℤ × ℤ × PnrRec) (h1 : r.2.2.driveNodes ≠ []) (h2 : r.2.2.rideLinks ≠ []) :
    pnrLine r = .ok (lineOf (pnrWords r) ++ ['\n']) := by
  unfold pnrLine pnrWords
  rw [nodeVecToString_eq h1, Res.bind_ok', nodeVecToString_eq h2, Res.bind_ok']
  congr 1
  rw [List.map_cons, List.map_cons, List.map_cons, List.map_cons, List.map_append]
  rw [lineOf_cons _ _ (by simp), lineOf_cons _ _ (by simp), lineOf_cons _ _ (by simp), lineOf_cons _ _ (by simpa using fun h => absurd h h1),
    lineOf_append _ _ (by simpa using h1) (by simpa using h2)]
  rw [← List.append_assoc, List.dropLast_append_of_ne_nil (by simp)]
  simp

theorem readDrive_eq (mid : ℤ) : ∀ (ns : List ℤ) (j : ℕ) (ws : List Str), (∀ n ∈ ns, IntOk n) → mid ∉ ns → IntOk mid →
    readDrive mid j ((ns ++ [mid]).map toStr ++ ws) = .ok (ns ++ [mid], some (j + ns.length + 1))
  | [], j, ws, _, _, hm => by
    simp only [List.nil_append, List.map_cons, List.map_nil, List.singleton_append, readDrive]
    rw [stoi_toStr mid hm, Res.bind_ok', if_pos rfl]
    simp
  | n :: ns, j, ws, h, hn, hm => by
    simp only [List.cons_append, List.map_cons, readDrive]
    rw [stoi_toStr n (h n (by simp)), Res.bind_ok', if_neg (fun e => hn (by simp [e])),
      readDrive_eq mid ns (j + 1) ws (fun x hx => h x (by simp [hx])) (fun e => hn (by simp [e])) hm, Res.bind_ok']
    simp only [List.length_cons, Res.ok.injEq, Prod.mk.injEq, Option.some.injEq, true_and]
    omega

theorem pnrRow_eq (ops : List Op) (fuel : ℕ) (hf : sizeLinks (run empty ops) < fuel) {tg : G} {o d : ℤ} {p : PnrRec}
    (h : PnrOk (run empty ops) tg o d p) (s : PnrSt) :
    ∃ s', pnrRow fuel (run empty ops) tg s (lineOf (pnrWords (o, d, p))) = .ok s' ∧
      s'.st = s.st.push o d { p with id := s.st.counter } := by
  obtain ⟨last, hl⟩ := findLinks_eq ops fuel hf p.driveLinks o p.mid s.last h.drive.walk h.drive.single
  obtain ⟨r, hr⟩ := walkNodes_last _ _ _ _ h.drive.walk
  have hdn : p.driveNodes = r ++ [p.mid] := h.drive.nodes.trans hr
  have hrange : ∀ n ∈ p.driveNodes, IntOk n := h.drive.range
  have hmid : IntOk p.mid := hrange _ (by rw [hdn]; simp)
  have honce : p.mid ∉ r := by have := h.once; rwa [hdn, List.dropLast_concat] at this
  have ho : IntOk o := by
    obtain ⟨q, hq⟩ := walkNodes_head (run empty ops) o p.driveLinks
    exact hrange o (by rw [show p.driveNodes = _ from h.drive.nodes, hq]; simp)
  have hrd := readDrive_eq p.mid r 4 (p.rideLinks.map toStr) (fun n hn => hrange n (by rw [hdn]; simp [hn])) honce hmid
  rw [← hdn, ← List.map_append] at hrd
  have hlen : 3 ≤ (p.driveNodes ++ p.rideLinks).length := by
    obtain ⟨l, ls, hls⟩ := List.exists_cons_of_ne_nil h.drive.long
    have hw := h.drive.walk
    have hn := h.drive.nodes
    simp only at hls hw hn
    rw [hls] at hw hn
    obtain ⟨t, e1, _⟩ := hw
    obtain ⟨q, hq⟩ := walkNodes_head (run empty ops) t ls
    simp only [Sp.walkNodes, e1, hq] at hn
    have : 0 < p.rideLinks.length := List.length_pos_iff.2 h.ride.long
    rw [hn]
    simp only [List.length_append, List.length_cons]
    omega
  obtain ⟨a, b, c, rest, hrest⟩ : ∃ a b c rest, p.driveNodes ++ p.rideLinks = a :: b :: c :: rest := by
    match hx : p.driveNodes ++ p.rideLinks with
    | [] | [_] | [_, _] => rw [hx] at hlen; simp at hlen
    | a :: b :: c :: rest => exact ⟨a, b, c, rest, rfl⟩
  have hst := stois_toStr p.rideLinks h.ride.range.2.2
  have hn := nodesOf_walk tg p.rideLinks p.mid d h.ride.walk h.ride.long
  rw [← show p.rideNodes = _ from h.ride.nodes] at hn
  have hfl : findLinks fuel (run empty ops) s.last p.driveNodes = .ok (p.driveLinks, last) := by
    rw [show p.driveNodes = _ from h.drive.nodes]; exact hl
  have hdrop : (toStr o :: toStr d :: toStr p.lot :: toStr p.mid :: (a :: b :: c :: rest).map toStr).drop (4 + r.length + 1) =
      p.rideLinks.map toStr := by
    rw [← hrest, show 4 + r.length + 1 = (r.length + 1) + 4 by omega, List.drop_succ_cons, List.drop_succ_cons,
      List.drop_succ_cons, List.drop_succ_cons, hdn, List.map_append, List.drop_left' (by simp)]
  have hd : IntOk d := h.ride.range.2.1
  refine ⟨⟨s.st.push o d { p with id := s.st.counter }, p.rideLinks.getLast?.or last, some (4 + r.length + 1)⟩, ?_, rfl⟩
  unfold pnrRow pnrWords
  simp only
  rw [split_line (rowOk_ints _ _)]
  rw [hrest] at hrd ⊢
  simp only [List.map_cons] at hrd hdrop ⊢
  rw [stoi_toStr o ho, Res.bind_ok', stoi_toStr d hd, Res.bind_ok', stoi_toStr p.lot h.lot, Res.bind_ok',
    stoi_toStr p.mid hmid, Res.bind_ok', hrd, Res.bind_ok']
  simp only [Option.some_or]
  rw [hfl, Res.bind_ok', readRide, hdrop, hst, Res.bind_ok', hn, Res.bind_ok']

end Verif.MmPt

import Verif.Lemmas.RtShot
import Verif.Lemmas.RtTable

/-!
# Copies of the network and path portions in real-time loadings (C172-C174, C178)
-/

namespace Verif
open Verif.Rt Lnk

/-! ## C172 -/

/-- **C172.**  The copy of a network of cell transmission links and point queues on which every vehicle knows its
link, its next link, its ends and its way: it has the same links with the same parameters, and on each of them, in the
same places and the same order, a vehicle for each vehicle with the same release time, kind, next link, ends and
remaining way; no two vehicles of the copy have the same number.  (Missing: vehicles on links of the other kinds and in
the queues of nodes, volumes, and paths, see the `C172_false_*` theorems.) -/
theorem C172_copy_partial (s : Shot) (hk : ∀ l ∈ s.links, Copied l.2 = true) (hv : ∀ v ∈ onLinks s, Complete s v) :
    ∃ s', makeShot s = .ok s' ∧
      List.Forall₂ (fun a b => a.1 = b.1 ∧ CopyOf (Same s s') a.2 b.2) s.links s'.links ∧
      s'.made = (onLinks s).length ∧ ((onLinks s').map Rt.Veh.id).Nodup ∧ s'.origins = s.origins ∧
      s'.dests = s.dests := by
  obtain ⟨ms, o', h⟩ := copyLinks_complete s.links ⟨0, fun _ => none⟩ fun l hl v h =>
    hv v (List.mem_flatMap.2 ⟨l, hl, h⟩)
  obtain ⟨a, b, _, d⟩ := copyLinks_ok _ hk h
  refine ⟨⟨ms, s.waiting.map fun w => (w.1, []), o'.tracker, o'.made, s.origins, s.dests⟩,
    by unfold makeShot; rw [h]; rfl, ?_, ?_, ?_, rfl, rfl⟩
  · refine List.Forall₂.imp (fun x y hxy => ⟨hxy.1, copyOf_imp (fun v w _ hr => hr.1) hxy.2⟩) d
  · simpa [onLinks] using b
  · exact a.symm.nodup (List.nodup_range')

/-- **C172 is false of links of other kinds and of nodes**: in every copy, no vehicle is on the way on a link queue or
link transmission link, and none waits at a node. -/
theorem C172_false_others (s s' : Shot) (h : makeShot s = .ok s') :
    List.Forall₂ (fun a b => a.1 = b.1 ∧ (Copied a.2 = false → b.2.travelling = [])) s.links s'.links ∧
      ∀ w ∈ s'.waiting, w.2 = [] := by
  unfold makeShot at h
  obtain ⟨r, h1, h⟩ := Res.bind_eq_ok'.1 h
  cases h
  refine ⟨copyLinks_others _ h1, fun w hw => ?_⟩
  obtain ⟨x, _, rfl⟩ := List.mem_map.1 hw
  rfl

/-- A point queue with two vehicles on the way and one that has arrived, and a cell transmission link with three
cells. -/
def shotLinks (mk : ℤ → Link Rt.Veh) : Shot :=
  ⟨[(1, mk 1), (2, mk 2)], [(10, [⟨9, 4, false, none, some 1, 1, 2, some 0, 0⟩])],
    fun i => if i < 9 then some [2, 3, i] else none, 9, [1], [2]⟩

/-- See `shotLinks`. -/
def shotVeh (i : ℕ) : Rt.Veh := ⟨i, 3, false, some 1, some 2, 1, 2, some 7, 5⟩

/-- See `shotLinks`. -/
def shotCell (q : List Rt.Veh) : Cell Rt.Veh := ⟨10, 5, 1, some (1 / 2), q.length, q, 0⟩

/-- See `shotLinks`. -/
def shotCtm : Ctm Rt.Veh :=
  ⟨1, 300, 20, 1 / 10, 1 / 2, 1, 3, [shotCell [shotVeh 3], shotCell [shotVeh 4, shotVeh 5], shotCell []], [],
    [shotVeh 6]⟩

/-- See `shotLinks`. -/
def shotMixed : Shot :=
  shotLinks fun i => if i = 1 then .pq ⟨1, 100, 20, 1, 1, 1, 5, 2, [(shotVeh 1, 1), (shotVeh 2, 0)], 2, [], []⟩
    else .ctm shotCtm

example : (∀ l ∈ shotMixed.links, Copied l.2 = true) ∧ (∀ v ∈ onLinks shotMixed, Complete shotMixed v) ∧
    (onLinks shotMixed).length = 6 := by decide +kernel

/-- **C172 is false of links of other kinds**: on a link queue the two vehicles on the way are lost. -/
theorem C172_false_link_queue : ∃ s s' : Shot, makeShot s = .ok s' ∧ (∀ v ∈ onLinks s, Complete s v) ∧
    (onLinks s).length = 4 ∧ onLinks s' = [] ∧ (onLinks s).length ≠ (onLinks s').length := by
  let s := shotLinks fun _ => .lq ⟨1, 100, 20, 1, 1, 1, 5, 1, 1, [shotVeh 1, shotVeh 2], 2, [], []⟩
  obtain ⟨r, hr⟩ : ∃ r, makeShot s = .ok r := ⟨_, rfl⟩
  have h0 : (onLinks r) = [] := by
    have := congrArg (fun x : Res Shot => match x with | .ok a => onLinks a | _ => [shotVeh 1]) hr
    simp only at this
    rw [← this]
    decide +kernel
  refine ⟨s, r, hr, by decide +kernel, by decide +kernel, h0, ?_⟩
  rw [h0]
  decide +kernel

/-- **C172 is false of the path of a vehicle**: no vehicle of a copy knows its path or its interval of release. -/
theorem C172_false_path_lost (s s' : Shot) (hk : ∀ l ∈ s.links, Copied l.2 = true) (h : makeShot s = .ok s') :
    List.Forall₂ (fun a b => CopyOf (fun _ w => w.path = none ∧ w.interval = -1) a.2 b.2) s.links s'.links := by
  unfold makeShot at h
  obtain ⟨⟨ms, o'⟩, h1, h⟩ := Res.bind_eq_ok'.1 h
  cases h
  obtain ⟨_, _, _, d⟩ := copyLinks_ok _ hk h1
  exact List.Forall₂.imp (fun x y hxy => copyOf_imp (fun v w _ hr => hr.2) hxy.2) d

example : (makeShot shotMixed).isOk = true ∧ (shotMixed.waiting.map fun w => w.2.length) = [1] := by decide +kernel

/-- **C172 is false of volumes**: the vehicles in the middle cell of a cell transmission link move on in the next
interval; in the copy nothing leaves that cell, because its cells count no vehicles. -/
theorem C172_false_stands_still :
    ((shotCtm.evolve (fun _ => true) fun _ => 0).bind fun l => .ok (l.cells.map fun c => c.queue.length)) =
        .ok [0, 1, 2] ∧
      ((copyLink shotMixed ⟨0, fun _ => none⟩ (.ctm shotCtm)).bind fun r =>
        (r.1.evolve (fun _ => true) fun _ => 0).bind fun l =>
          .ok (l.travelling.length, match l with
            | .ctm c => c.cells.map fun c => c.queue.length
            | _ => [])) = .ok (3, [1, 2, 0]) := by
  decide +kernel

/-! ## C173 -/

/-- **C173.**  One update of the portions of a pair of nodes with a step of at least zero: the portions stay portions;
a path with a positive gradient does not gain, a path without does not lose; a path in use stays in use; nothing else
of the paths changes. -/
theorem C173_update (grad : Pth → ℚ) (step : ℚ) (h0 : 0 ≤ step) (h1 : step ≤ 9999) (ps : List Pth)
    (h : Portions ps) :
    ∃ ps', updateSet grad step ps = .ok ps' ∧ Portions ps' ∧
      List.Forall₂ (fun P Q => Q = { P with p := Q.p } ∧ (0 < grad P → Q.p ≤ P.p) ∧ (grad P ≤ 0 → P.p ≤ Q.p) ∧
        (0 < P.p → 0 < Q.p)) ps ps' := by
  obtain ⟨ps', e', hp⟩ := updateSet_portions grad h0 h1 h
  obtain ⟨S, hS, hpos, hlo, hhi, e⟩ := updateSet_eq grad h0 h1 h
  rw [e] at e'
  cases e'
  refine ⟨_, e, hp, ?_⟩
  rw [List.forall₂_map_right_iff]
  refine List.forall₂_same.2 fun P hP => ⟨rfl, fun hg => ?_, fun hg => ?_, fun hq => ?_⟩
  · have : factor step (grad P) = 1 / (1 + step) := if_pos hg
    simp only [this]
    rw [div_le_iff₀ hpos]
    exact mul_le_mul_of_nonneg_left hlo (h.1 P hP)
  · have : factor step (grad P) = 1 + step := if_neg (not_lt.2 hg)
    simp only [this]
    rw [le_div_iff₀ hpos]
    exact mul_le_mul_of_nonneg_left hhi (h.1 P hP)
  · exact div_pos (mul_pos hq (factor_pos h0 _)) hpos

/-- **C173.**  Two paths whose gradients have the same sign keep the ratio of their portions; against a path with a
positive gradient, one without gains by the square of `1 + step`. -/
theorem C173_ratio (grad : Pth → ℚ) (step : ℚ) (h0 : 0 ≤ step) (h1 : step ≤ 9999) (ps ps' : List Pth)
    (h : Portions ps) (hu : updateSet grad step ps = .ok ps') (i j : ℕ) (P P' Q Q' : Pth) (hi : ps[i]? = some P)
    (hj : ps[j]? = some P') (hi' : ps'[i]? = some Q) (hj' : ps'[j]? = some Q') :
    ((0 < grad P ↔ 0 < grad P') → Q.p * P'.p = Q'.p * P.p) ∧
      (grad P ≤ 0 → 0 < grad P' → Q.p * P'.p = (1 + step) ^ 2 * (Q'.p * P.p)) := by
  obtain ⟨S, hS, hpos, hlo, hhi, e⟩ := updateSet_eq grad h0 h1 h
  rw [e] at hu
  cases hu
  rw [List.getElem?_map, hi] at hi'
  rw [List.getElem?_map, hj] at hj'
  cases hi'
  cases hj'
  have hs : (1 + step) ≠ 0 := by linarith
  constructor
  · intro hg
    have : factor step (grad P) = factor step (grad P') := by
      unfold factor
      simp only [gt_iff_lt, hg]
    simp only [this]
    ring
  · intro a b
    have ha : factor step (grad P) = 1 + step := if_neg (not_lt.2 a)
    have hb : factor step (grad P') = 1 / (1 + step) := if_pos b
    simp only [ha, hb]
    field_simp

example : Portions [⟨[1], [1, 2], 1 / 2, 0, 3, 0, 0⟩, ⟨[2], [1, 2], 1 / 2, 0, -1, 0, 0⟩] ∧
    ((updateSet Pth.gEst (1 / 2) [⟨[1], [1, 2], 1 / 2, 0, 3, 0, 0⟩, ⟨[2], [1, 2], 1 / 2, 0, -1, 0, 0⟩]).bind fun r =>
      .ok (r.map Pth.p)) = .ok [4 / 13, 9 / 13] := by
  refine ⟨⟨by decide +kernel, by decide +kernel⟩, by decide +kernel⟩

/-- The calls of a session that touch the path table: gradients written by a loading (`f`), the two updates, the two
copies of portions and the portions of the prediction. -/
inductive TblCall where
  | gradients (f : Pth → ℚ × ℚ)
  | estimate (step : ℚ)
  | optimize (step : ℚ)
  | keepReal
  | keepBest
  | predict (signs : List Sign)

/-- One call. -/
def TblCall.run (t : List Od) : TblCall → Res (List Od)
  | .gradients f => .ok (mapPaths (fun P => { P with gEst := (f P).1, gOpt := (f P).2 }) t)
  | .estimate step => updatePathP Pth.gEst step t
  | .optimize step => updatePathP Pth.gOpt step t
  | .keepReal => .ok (Rt.keepReal t)
  | .keepBest => .ok (Rt.keepBest t)
  | .predict signs => predictP signs t

/-- Steps and ratios in their ranges. -/
def TblCall.Ok : TblCall → Prop
  | .estimate step => 0 ≤ step ∧ step ≤ 9999
  | .optimize step => 0 ≤ step ∧ step ≤ 9999
  | .predict signs => ∀ s ∈ signs, 0 ≤ s.ratio
  | _ => True

theorem tblCall_ok (c : TblCall) (hc : c.Ok) (t : List Od) (h : AllPortions t) :
    ∃ t', c.run t = .ok t' ∧ AllPortions t' := by
  cases c with
  | gradients f =>
    exact ⟨_, rfl, mapPaths_portions (f := fun P => { P with gEst := (f P).1, gOpt := (f P).2 }) (fun _ => rfl) h⟩
  | estimate step =>
    obtain ⟨t', a, b⟩ := eachSet_nil_paths (updateSet_any Pth.gEst hc.1 hc.2) t fun e he => h e he
    exact ⟨t', a, forall₂_right b fun _ _ h => h.2.2.2⟩
  | optimize step =>
    obtain ⟨t', a, b⟩ := eachSet_nil_paths (updateSet_any Pth.gOpt hc.1 hc.2) t fun e he => h e he
    exact ⟨t', a, forall₂_right b fun _ _ h => h.2.2.2⟩
  | keepReal => exact ⟨_, rfl, mapPaths_portions (f := fun P => { P with real := P.p }) (fun _ => rfl) h⟩
  | keepBest => exact ⟨_, rfl, mapPaths_portions (f := fun P => { P with best := P.p }) (fun _ => rfl) h⟩
  | predict signs => exact normalizeTable_any _ (thinSigns_nonneg signs hc (nonneg_of_all h))

/-- **C173.**  In every session, from the start of running through any calls: all calls succeed, and the portions of
every pair of nodes are not negative and sum to one. -/
theorem C173_always (tbl : List Od) (cs : List TblCall) (hc : ∀ c ∈ cs, c.Ok) :
    ∃ t t', initRunning tbl = .ok t ∧ Res.foldlM (fun t c => TblCall.run t c) t cs = .ok t' ∧ AllPortions t' := by
  obtain ⟨t, h1, h2⟩ := initRunning_ok tbl
  refine ⟨t, ?_⟩
  suffices ∀ (cs : List TblCall) (t : List Od), (∀ c ∈ cs, c.Ok) → AllPortions t →
      ∃ t', Res.foldlM (fun t c => TblCall.run t c) t cs = .ok t' ∧ AllPortions t' by
    obtain ⟨t', a, b⟩ := this cs t hc h2
    exact ⟨t', h1, a, b⟩
  intro cs
  induction cs with
  | nil => exact fun t _ h => ⟨t, rfl, h⟩
  | cons c cs ih =>
    intro t hc h
    obtain ⟨t1, a, b⟩ := tblCall_ok c (hc c (by simp)) t h
    obtain ⟨t2, a2, b2⟩ := ih t1 (fun x hx => hc x (by simp [hx])) b
    exact ⟨t2, by rw [Res.foldlM_cons, a]; exact a2, b2⟩

/-- A table with two pairs of nodes, one of them without paths. -/
def rtTable : List Od :=
  [⟨1, 2, [⟨[1, 2], [1, 5, 2], 0, 0, 0, 0, 0⟩, ⟨[3, 4], [1, 6, 2], 0, 0, 0, 0, 0⟩, ⟨[3, 5], [1, 7, 2], 0, 0, 0, 0, 0⟩]⟩,
    ⟨3, 2, []⟩]

example : (∀ c ∈ [TblCall.gradients fun P => (P.links.headD 0 - 2, 1), .estimate (1 / 2), .keepReal, .optimize 1,
      .keepBest, .predict [⟨1, [1, 3], [(1, [(0, 0)]), (3, [(0, 1), (0, 2)])], 1, 1 / 2⟩]], c.Ok) ∧
    ((initRunning rtTable).bind fun t => (Res.foldlM (fun t c => TblCall.run t c) t
      [TblCall.gradients fun P => (P.links.headD 0 - 2, 1), .estimate (1 / 2), .keepReal, .optimize 1,
      .keepBest, .predict [⟨1, [1, 3], [(1, [(0, 0)]), (3, [(0, 1), (0, 2)])], 1, 1 / 2⟩]]).bind fun t =>
        .ok (t.map fun e => e.paths.map Pth.p)) = .ok [[9 / 13, 2 / 13, 2 / 13], []] := by
  constructor
  · intro c hc
    simp only [List.mem_cons, List.not_mem_nil, or_false] at hc
    rcases hc with rfl | rfl | rfl | rfl | rfl | rfl
    · trivial
    · exact ⟨by norm_num, by norm_num⟩
    · trivial
    · exact ⟨by norm_num, by norm_num⟩
    · trivial
    · intro s hs
      simp only [List.mem_cons, List.not_mem_nil, or_false] at hs
      subst hs
      norm_num
  · decide +kernel

/-! ## C174 -/

theorem mixRatio_eq (est real old : ℚ) : mixRatio est real old = old * (7 / 10) + 3 / 10 := by
  unfold mixRatio
  have : max (min (Ults.divide (est - real) est) 0) 1 = (1 : ℚ) :=
    max_eq_right ((min_le_right _ _).trans (by norm_num))
  simp only [this]
  ring

/-- **C174.**  After any calls the compliance ratio of a sign lies between zero and one.  (Missing: that it follows
what drivers did, see `C174_false_ratio_never_moves`.) -/
theorem C174_range_partial (ends : ℤ → Option (ℤ × ℤ)) (outOf : ℤ → List ℤ) (link : ℤ) (s s' : Sign)
    (h : mkSign ends outOf link = .ok s) (cs : List SignCall) (tbl : List Od)
    (hr : Res.foldlM (fun s c => SignCall.run s c) (hookPath tbl s) cs = .ok s') : 0 ≤ s'.ratio ∧ s'.ratio ≤ 1 := by
  have h1 : (hookPath tbl s).ratio = 1 := by
    unfold mkSign at h
    cases he : ends link with
    | none => rw [he] at h; cases h
    | some e => rw [he] at h; cases h; rfl
  have : s'.ratio = 1 := by
    refine Res.foldlM_inv (P := fun s : Sign => s.ratio = 1) (fun s c s' hs hc => ?_) cs _ _ h1 hr
    cases c with
    | ratio dem t =>
      obtain ⟨f, _, h⟩ := Res.bind_eq_ok'.1 hc
      cases h
      simp only [mixRatio_eq, hs]
      norm_num
    | detour dem t =>
      obtain ⟨b, _, h⟩ := Res.bind_eq_ok'.1 hc
      cases b with
      | none => cases h
      | some b =>
        simp only at h
        by_cases hb : b.2 < 0
        · rw [if_pos hb] at h; cases h
        · rw [if_neg hb] at h; cases h; exact hs
  rw [this]
  norm_num

/-- **C174 is false of the code**: whatever drivers do, after any calls the compliance ratio of a sign is still one,
because the measured ratio is bounded the wrong way round. -/
theorem C174_false_ratio_never_moves (s s' : Sign) (cs : List SignCall) (h1 : s.ratio = 1)
    (hr : Res.foldlM (fun s c => SignCall.run s c) s cs = .ok s') : s'.ratio = 1 := by
  refine Res.foldlM_inv (P := fun s : Sign => s.ratio = 1) (fun s c s' hs hc => ?_) cs _ _ h1 hr
  cases c with
  | ratio dem t =>
    obtain ⟨f, _, h⟩ := Res.bind_eq_ok'.1 hc
    cases h
    simp only [mixRatio_eq, hs]
    norm_num
  | detour dem t =>
    obtain ⟨b, _, h⟩ := Res.bind_eq_ok'.1 hc
    cases b with
    | none => cases h
    | some b =>
      simp only at h
      by_cases hb : b.2 < 0
      · rw [if_pos hb] at h; cases h
      · rw [if_neg hb] at h; cases h; exact hs

/-- **C174.**  So the portions of the prediction are the portions of before: signs do not change where vehicles are
predicted to drive. -/
theorem C174_false_prediction_ignores_signs (signs : List Sign) (tbl : List Od) (h : AllPortions tbl)
    (hs : ∀ s ∈ signs, s.ratio = 1) : predictP signs tbl = .ok tbl := by
  have : signs.foldl thinSign tbl = tbl := by
    induction signs with
    | nil => rfl
    | cons s signs ih =>
      rw [List.foldl_cons, thinSign_one (hs s (by simp))]
      exact ih fun x hx => hs x (by simp [hx])
  unfold predictP
  rw [this]
  exact normalizeTable_id h

/-- A sign with a detour over link 1; the other alternative is link 3. -/
def rtSign : Sign := ⟨1, [1, 3], [(1, [(0, 0)]), (3, [(0, 1)])], 1, 1⟩

/-- The portions: an estimate of one half for each path, and everybody has taken the second path, against the sign. -/
def rtAgainst : List Od :=
  [⟨1, 2, [⟨[1, 2], [1, 5, 2], 0, 1 / 2, 0, 0, 0⟩, ⟨[3, 4], [1, 6, 2], 1, 1 / 2, 0, 0, 0⟩]⟩]

example : AllPortions rtAgainst ∧
    ((updateRatio (fun _ _ => .ok 10) rtAgainst rtSign).bind fun s => .ok s.ratio) = .ok 1 := by
  refine ⟨?_, by decide +kernel⟩
  intro e he _
  simp only [rtAgainst, List.mem_cons, List.not_mem_nil, or_false] at he
  subst he
  exact ⟨by decide +kernel, by decide +kernel⟩

/-! ## C178 -/

theorem optGrad_zero (num : ℚ) (ls : List LinkView) : optGrad 0 num ls = 0 := by
  unfold optGrad
  have : ∀ g : ℚ, ls.foldl (fun g l => g + Ults.divide l.avg 0 + Ults.divide (linkMc l.length l.ffs l.avg * l.flow)
      (0 * num)) g = g := by
    induction ls with
    | nil => exact fun _ => rfl
    | cons l ls ih =>
      intro g
      rw [List.foldl_cons, ih]
      simp [Ults.divide]
  exact this 0

theorem divide_nonneg {a b : ℚ} (ha : 0 ≤ a) (hb : 0 ≤ b) : 0 ≤ Ults.divide a b := by
  unfold Ults.divide
  split
  · exact le_rfl
  · split
    · exact le_rfl
    · exact div_nonneg ha hb

theorem linkMc_nonneg {l : LinkView} (hl : 0 ≤ l.length ∧ 0 ≤ l.ffs ∧ 0 ≤ l.avg) :
    0 ≤ linkMc l.length l.ffs l.avg := by
  have := divide_nonneg hl.1 hl.2.1
  unfold linkMc
  simp only
  split
  · exact this
  · linarith [hl.2.2]

theorem optGrad_ge (demand num : ℚ) (hd : 0 < demand) (hn : 0 ≤ num) : ∀ (ls : List LinkView) (g : ℚ),
    (∀ l ∈ ls, 0 ≤ l.length ∧ 0 ≤ l.ffs ∧ 0 ≤ l.avg ∧ 0 ≤ l.flow) →
    g + (ls.map LinkView.avg).sum / demand ≤ ls.foldl (fun g l => g + Ults.divide l.avg demand +
      Ults.divide (linkMc l.length l.ffs l.avg * l.flow) (demand * num)) g := by
  intro ls
  induction ls with
  | nil => intro g _; simp
  | cons l ls ih =>
    intro g h
    obtain ⟨a, b, c, d⟩ := h l (by simp)
    rw [List.foldl_cons]
    refine le_trans ?_ (ih _ fun x hx => h x (by simp [hx]))
    have h1 : Ults.divide l.avg demand = l.avg / demand := by
      unfold Ults.divide
      by_cases h0 : l.avg = 0
      · rw [if_pos h0, h0, zero_div]
      · rw [if_neg h0, if_neg hd.ne']
    have h2 := divide_nonneg (mul_nonneg (linkMc_nonneg ⟨a, b, c⟩) d) (mul_nonneg hd.le hn)
    rw [List.map_cons, List.sum_cons, h1, add_div]
    linarith

/-- The portions of a set whose gradients are all positive, or all not, stay as they are. -/
theorem updateSet_same (grad : Pth → ℚ) (step : ℚ) (h0 : 0 ≤ step) (h1 : step ≤ 9999) (ps : List Pth)
    (h : Portions ps) (hg : (∀ P ∈ ps, 0 < grad P) ∨ ∀ P ∈ ps, grad P ≤ 0) : updateSet grad step ps = .ok ps := by
  obtain ⟨S, hS, hpos, _, _, e⟩ := updateSet_eq grad h0 h1 h
  rw [e]
  congr 1
  obtain ⟨c, hc⟩ : ∃ c, ∀ P ∈ ps, factor step (grad P) = c := by
    rcases hg with hg | hg
    · exact ⟨_, fun P hP => if_pos (hg P hP)⟩
    · exact ⟨_, fun P hP => if_neg (not_lt.2 (hg P hP))⟩
  have hS' : S = c := by
    rw [hS, List.map_congr_left (g := fun P => P.p * c) fun P hP => by rw [hc P hP], List.sum_map_mul_right, h.2,
      one_mul]
  refine (List.map_congr_left (g := id) fun P hP => ?_).trans (List.map_id _)
  have hc0 : c ≠ 0 := by rw [← hS']; exact hpos.ne'
  rw [hc P hP, hS', mul_div_assoc, div_self hc0, mul_one]
  rfl

/-- **C178 is false of the code**: optimising the portions of a pair of nodes never changes them.  Whatever the demand,
the travel times and the flows of the links (none of them negative, a positive average on some link of every path),
every path has a positive gradient, all portions are divided by the same number, and normalising undoes it. -/
theorem C178_false_optimisation_never_moves (demand num step : ℚ) (view : ℤ → LinkView) (ps : List Pth)
    (h0 : 0 ≤ step) (h1 : step ≤ 9999) (hd : 0 ≤ demand) (hn : 0 ≤ num) (h : Portions ps)
    (hv : ∀ P ∈ ps, ∀ l ∈ P.links, 0 ≤ (view l).length ∧ 0 ≤ (view l).ffs ∧ 0 ≤ (view l).avg ∧ 0 ≤ (view l).flow)
    (hp : ∀ P ∈ ps, ∃ l ∈ P.links, 0 < (view l).avg) :
    ∃ ps', optimizeSet demand num view step ps = .ok ps' ∧ ps'.map Pth.p = ps.map Pth.p ∧
      ∀ P ∈ ps', P.gOpt = 0 ∨ 0 < P.gOpt := by
  have hP : Portions (ps.map fun P => { P with gOpt := optGrad demand num (P.links.map view) }) := by
    refine ⟨fun Q hQ => ?_, ?_⟩
    · obtain ⟨P, hP, rfl⟩ := List.mem_map.1 hQ
      exact h.1 P hP
    · rw [List.map_map]
      exact h.2
  have hsum : (ps.map fun P => { P with gOpt := optGrad demand num (P.links.map view) }).map Pth.p
      = ps.map Pth.p := by
    rw [List.map_map]
    rfl
  by_cases hz : demand = 0
  · have hg : ∀ P ∈ ps.map fun P => { P with gOpt := optGrad demand num (P.links.map view) }, P.gOpt = 0 := by
      intro Q hQ
      obtain ⟨P, hP, rfl⟩ := List.mem_map.1 hQ
      simp only [hz, optGrad_zero]
    exact ⟨_, updateSet_same Pth.gOpt step h0 h1 _ hP (.inr fun P hQ => (hg P hQ).le), hsum,
      fun P hP => .inl (hg P hP)⟩
  · have hd' : 0 < demand := lt_of_le_of_ne hd (Ne.symm hz)
    have hg : ∀ P ∈ ps.map fun P => { P with gOpt := optGrad demand num (P.links.map view) }, 0 < P.gOpt := by
      intro Q hQ
      obtain ⟨P, hP, rfl⟩ := List.mem_map.1 hQ
      have hnn : ∀ l ∈ P.links.map view, 0 ≤ l.length ∧ 0 ≤ l.ffs ∧ 0 ≤ l.avg ∧ 0 ≤ l.flow := by
        intro l hl
        obtain ⟨x, hx, rfl⟩ := List.mem_map.1 hl
        exact hv P hP x hx
      refine lt_of_lt_of_le ?_ (optGrad_ge demand num hd' hn (P.links.map view) 0 hnn)
      rw [zero_add]
      refine div_pos ?_ hd'
      obtain ⟨l, hl, hpos⟩ := hp P hP
      refine lt_of_lt_of_le hpos (List.single_le_sum ?_ _ ?_)
      · intro q hq
        obtain ⟨y, hy, rfl⟩ := List.mem_map.1 hq
        exact (hnn y hy).2.2.1
      · exact List.mem_map_of_mem (List.mem_map_of_mem hl)
    exact ⟨_, updateSet_same Pth.gOpt step h0 h1 _ hP (.inl hg), hsum, fun P hP => .inr (hg P hP)⟩

/-- A path twice as slow as the other keeps its half. -/
def rtView (l : ℤ) : LinkView := ⟨100, 20, 10 * l, 3, 0⟩

example : ((optimizeSet 6 2 rtView (1 / 2) [⟨[1], [1, 2], 1 / 2, 0, 0, 0, 0⟩, ⟨[2], [1, 2], 1 / 2, 0, 0, 0, 0⟩]).bind
    fun r => .ok (r.map fun P => (P.p, P.gOpt))) = .ok [(1 / 2, 65 / 12), (1 / 2, 115 / 12)] := by decide +kernel

/-- **C178.**  The gradient of the estimation: its sign is that of the sum of the differences of travel times, each
weighted with the marginal cost of its link. -/
theorem C178_estimation (demand num : ℚ) (hd : 0 < demand) (hn : 0 < num) (ls : List LinkView) :
    estGrad demand num ls = (ls.map fun l => l.diff * linkMc l.length l.ffs l.avg).sum / (demand * num) ∧
      (0 < estGrad demand num ls ↔ 0 < (ls.map fun l => l.diff * linkMc l.length l.ffs l.avg).sum) := by
  have hne : demand * num ≠ 0 := (mul_pos hd hn).ne'
  have key : ∀ (ls : List LinkView) (g : ℚ), ls.foldl (fun g l => g +
      Ults.divide (l.diff * linkMc l.length l.ffs l.avg) (demand * num)) g
      = g + (ls.map fun l => l.diff * linkMc l.length l.ffs l.avg).sum / (demand * num) := by
    intro ls
    induction ls with
    | nil => intro g; simp
    | cons l ls ih =>
      intro g
      have h1 : ∀ a : ℚ, Ults.divide a (demand * num) = a / (demand * num) := by
        intro a
        unfold Ults.divide
        by_cases h0 : a = 0
        · rw [if_pos h0, h0, zero_div]
        · rw [if_neg h0, if_neg hne]
      rw [List.foldl_cons, ih, h1, List.map_cons, List.sum_cons, add_div]
      ring
  have e : estGrad demand num ls
      = (ls.map fun l => l.diff * linkMc l.length l.ffs l.avg).sum / (demand * num) := by
    unfold estGrad
    rw [key, zero_add]
  refine ⟨e, ?_⟩
  rw [e, div_pos_iff_of_pos_right (mul_pos hd hn)]

example : estGrad 6 2 [⟨100, 20, 12, 3, 2⟩, ⟨100, 20, 4, 3, -1⟩] = 29 / 12 := by decide +kernel

end Verif

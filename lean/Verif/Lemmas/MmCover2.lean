import Verif.Lemmas.MmCover
import Verif.Props.Graph

/-! # The loops over bus and walking links succeed -/

namespace Verif.MmCover
open Graph Sp Path Cover

variable {x : Inst} {orc : Orc} {ops : List Op} {isBus : Bool}

theorem conns_ne (h : Good (asCover x) (orders orc isBus) ops) {k u v m : ℤ} (e : getEndpoints x.transit k = .ok (u, v))
    {d : Dir} (hm : (match d with | .inc => v | .out => u) = m) {n : ℕ} (hn : sizeLinks x.transit < n) :
    ∃ cs, connections n x.transit m d = .ok cs ∧ cs ≠ [] := by
  have hg : x.transit = run empty ops := h.graph
  have hctx := (h.graph ▸ ctx_of_run ops (h.graph ▸ h.costs) : Ctx (asCover x).g (Cover.cost (asCover x)) (w (asCover x)))
  obtain ⟨nf, nt, -⟩ := hctx.ends _ _ _ e
  have hmem : m ∈ nodeIds x.transit := by subst hm; cases d <;> assumption
  have := (C02_directed_connections ops m d n (hg ▸ hn)).1
  rw [← hg] at this
  obtain ⟨cs, h1, -, -, h2⟩ := this hmem
  refine ⟨cs, h1, fun h0 => ?_⟩
  have : k ∈ cs := (h2 k).2 ⟨u, v, e, hm⟩
  rw [h0] at this
  cases this

theorem trees_evt (h : Good (asCover x) (orders orc isBus) ops) {rg : G} (hr : Rev (asCover x) rg) {l f t k u : ℤ}
    (e : getEndpoints x.transit l = .ok (f, t)) (ek : getEndpoints x.transit k = .ok (u, f))
    (hf : (asCover x).isOrigin f = false) (ht : (asCover x).isDest t = false) {T : String → Prop} :
    Evt (fun n => trees n x rg f t)
      (fun ab => ∃ a b, ab = (some a, some b) ∧ Ways (asCover x) x.transit f a ∧ Ways (asCover x) rg t b) T := by
  have key : ∀ n, sizeLinks x.transit < n → trees n x rg f t = Cover.trees n (asCover x) rg f t := by
    intro n hn
    obtain ⟨cs, c1, c2⟩ := conns_ne h ek (d := .inc) rfl hn
    obtain ⟨ds, d1, d2⟩ := conns_ne h e (d := .out) rfl hn
    unfold trees Cover.trees
    rw [c1, Res.bind_ok', if_neg c2, d1]
    simp only [Res.bind_ok', if_neg d2, hf, ht, Bool.false_eq_true, if_false]
    rfl
  rcases trees_spec (T := T) h hr e hf ht with ⟨ab, hab, N, hN⟩ | ⟨m, hm, N, hN⟩
  · exact Or.inl ⟨ab, hab, max N (sizeLinks x.transit + 1), fun n hn => by
      exact (key n (by omega)).trans (hN n (by omega))⟩
  · exact Or.inr ⟨m, hm, max N (sizeLinks x.transit + 1), fun n hn => by
      exact (key n (by omega)).trans (hN n (by omega))⟩

/-- What is known of a new path. -/
def NewOk (x : Inst) (links : List ℤ) (q : ℤ × ℤ × P) : Prop :=
  HasDemand (asCover x) q.1 q.2.1 ∧ ∃ l ∈ links, FastestOver (asCover x) l q.1 q.2.1 q.2.2

/-- No pair with demand can use link `l`. -/
def NoWay (x : Inst) (l : ℤ) : Prop := ∀ o d ls, HasDemand (asCover x) o d → Walk x.transit o ls d → l ∉ ls

theorem coverOne_evt (h : Good (asCover x) (orders orc isBus) ops) {rg : G} (hr : Rev (asCover x) rg)
    (hp0 : x.pnr = []) (hsh : ∀ i l, (orc.pnr isBus i l).Perm l) {buses walks : List ℤ} {table : Table}
    {pnrs : List Pnr} {paths0 : List P} {new0 : List (ℤ × ℤ × P)}
    (ht : ∀ o d, HasDemand (asCover x) o d → ∃ ps, table o d = some ps)
    (hin : ∀ l ∈ (if isBus then buses else walks), ¬ Cov pnrs paths0 l → Usable x l)
    {done : List (ℕ × ℤ)} {i : ℕ} {l : ℤ} (hi : (if isBus then buses else walks)[i]? = some l) {s : St}
    (hs : ∃ new, Inv table pnrs buses walks isBus paths0 new0 new s ∧
      (∀ q ∈ new, NewOk x (if isBus then buses else walks) q) ∧ ∀ il ∈ done, ¬ Cov pnrs s.paths il.2 → NoWay x il.2)
    {T : String → Prop} :
    Evt (fun n => coverOne n x orc rg buses walks isBus s (i, l)) (fun s => ∃ new,
      Inv table pnrs buses walks isBus paths0 new0 new s ∧
      (∀ q ∈ new, NewOk x (if isBus then buses else walks) q) ∧
        ∀ il ∈ done ++ [(i, l)], ¬ Cov pnrs s.paths il.2 → NoWay x il.2) T := by
  obtain ⟨new, hs, hnew, hdone⟩ := hs
  have hl : l ∈ (if isBus then buses else walks) := List.mem_of_getElem? hi
  have hm : (if isBus then s.bus else s.walk).getD i true = decide (Cov pnrs s.paths l) := by
    cases isBus
    · simp only [Bool.false_eq_true, if_false] at hi ⊢
      rw [hs.walk, List.getD_eq_getElem?_getD, List.getElem?_map, hi]
      rfl
    · simp only [if_true] at hi ⊢
      have hb := hs.bus
      simp only [if_true] at hb
      rw [hb, List.getD_eq_getElem?_getD, List.getElem?_map, hi]
      rfl
  have hflag := hm
  unfold coverOne
  simp only [hm]
  by_cases hc : Cov pnrs s.paths l
  · simp only [decide_eq_true hc, if_true]
    refine Evt.ok ⟨new, hs, hnew, fun il hil hn => ?_⟩
    rcases List.mem_append.1 hil with hil | hil
    · exact hdone il hil hn
    · rw [List.mem_singleton] at hil
      subst hil
      exact absurd hc hn
  · simp only [decide_eq_false hc, Bool.false_eq_true, if_false]
    rw [decide_eq_false hc] at hflag
    have hnot0 : ¬ Cov pnrs paths0 l := by
      intro hc0
      apply hc
      rw [hs.paths]
      rcases hc0 with ⟨p, a, b⟩ | hc0
      · exact Or.inl ⟨p, by simp [a], b⟩
      · exact Or.inr hc0
    obtain ⟨hd, ⟨f, t, e, hf, hd'⟩, f', t', k, u, e', ek⟩ := hin l hl hnot0
    have e : getEndpoints x.transit l = .ok (f, t) := e
    rw [e] at e' hd
    cases e'
    simp only [hd, Res.bind_ok']
    refine Evt.bind (g := fun n ab => Res.bind _ _) (trees_evt h hr e ek hf hd') fun ab hab => ?_
    obtain ⟨a, b, rfl, ha, hb⟩ := hab
    rcases findPath_spec (T := T) h hr e hf hd' ha hb i 0 with ⟨r, hrr, N, hN⟩ | ⟨m, hm', N, hN⟩
    · -- the search for a path ends
      cases r with
      | none =>
        refine Or.inl ⟨s, ⟨new, hs, hnew, fun il hil hn => ?_⟩, N, fun n hn => ?_⟩
        · rcases List.mem_append.1 hil with hil | hil
          · exact hdone il hil hn
          · rw [List.mem_singleton] at hil
            subst hil
            exact hrr.2 rfl
        · have hfp := hN n hn
          simp only [findPath] at hfp
          obtain ⟨r, p1, p2⟩ := Res.bind_eq_ok'.1 hfp
          have p1 : pick (orc.busDests isBus i) (some a) (some b) (orc.bus isBus i x.bus) = .ok r := p1
          show Res.bind (pick (orc.busDests isBus i) (some a) (some b) (orc.bus isBus i x.bus)) _ = _
          rw [p1, Res.bind_ok']
          cases r with
          | none =>
            have : orc.pnr isBus i x.pnr = [] := by rw [hp0]; exact (hsh i []).eq_nil
            simp only [this]
            rfl
          | some od =>
            obtain ⟨o, d⟩ := od
            simp only at p2
            obtain ⟨p, -, p2⟩ := Res.bind_eq_ok'.1 p2
            obtain ⟨q, -, p2⟩ := Res.bind_eq_ok'.1 p2
            cases p2
      | some q =>
        obtain ⟨o, d, w⟩ := q
        obtain ⟨q1, q2⟩ := hrr.1 _ rfl
        obtain ⟨ps, hps⟩ := ht o d q1
        have hpush : push s.table o d w = .ok (added table ((new0 ++ new) ++ [(o, d, w)])) := by
          rw [hs.table, push_added hps]
        let s1 : St := if isBus then
          ⟨added table ((new0 ++ new) ++ [(o, d, w)]), s.paths ++ [w], note w buses (s.bus.set i true), note w walks s.walk⟩
          else ⟨added table ((new0 ++ new) ++ [(o, d, w)]), s.paths ++ [w], s.bus, note w walks (s.walk.set i true)⟩
        have hs1 : Inv table pnrs buses walks isBus paths0 new0 (new ++ [(o, d, w)]) s1 := by
          refine inv_step (il := (i, l)) hi hs q2.over hflag ?_ ?_ ?_ ?_
          · rw [hpush]; cases isBus <;> rfl
          · cases isBus <;> rfl
          · cases isBus <;> rfl
          · cases isBus <;> rfl
        have hpaths : s1.paths = s.paths ++ [w] := by cases isBus <;> rfl
        refine Or.inl ⟨s1, ⟨new ++ [(o, d, w)], hs1, ?_, ?_⟩, N, fun n hn => ?_⟩
        · intro q hq
          rcases List.mem_append.1 hq with hq | hq
          · exact hnew q hq
          · rw [List.mem_singleton] at hq
            subst hq
            exact ⟨q1, l, hl, q2⟩
        · intro il hil hn
          rw [hpaths, cov_snoc, not_or] at hn
          rcases List.mem_append.1 hil with hil | hil
          · exact hdone il hil hn.1
          · rw [List.mem_singleton] at hil
            subst hil
            exact absurd q2.over hn.2
        · have hfp := hN n hn
          simp only [findPath] at hfp
          obtain ⟨r, p1, p2⟩ := Res.bind_eq_ok'.1 hfp
          have p1 : pick (orc.busDests isBus i) (some a) (some b) (orc.bus isBus i x.bus) = .ok r := p1
          show Res.bind (pick (orc.busDests isBus i) (some a) (some b) (orc.bus isBus i x.bus)) _ = _
          rw [p1, Res.bind_ok']
          cases r with
          | none => cases p2
          | some od =>
            obtain ⟨o', d'⟩ := od
            simp only at p2 ⊢
            obtain ⟨p, h1, p2⟩ := Res.bind_eq_ok'.1 p2
            obtain ⟨q, h2, p2⟩ := Res.bind_eq_ok'.1 p2
            cases p2
            have h1 : half n x.transit (some a) o f = .ok p := h1
            rw [h1, Res.bind_ok', h2, Res.bind_ok', hpush, Res.bind_ok']
            cases isBus <;> rfl
    · refine Or.inr ⟨m, hm', N, fun n hn => ?_⟩
      have hfp := hN n hn
      simp only [findPath] at hfp
      show Res.bind (pick (orc.busDests isBus i) (some a) (some b) (orc.bus isBus i x.bus)) _ = _
      have hfp : (pick (orc.busDests isBus i) (some a) (some b) (orc.bus isBus i x.bus)).bind _ = Res.throw m := hfp
      cases hp : pick (orc.busDests isBus i) (some a) (some b) (orc.bus isBus i x.bus) with
      | throw m' => rw [hp] at hfp; cases hfp; rfl
      | ub => rw [hp] at hfp; cases hfp
      | diverge => rw [hp] at hfp; cases hfp
      | ok r =>
        rw [hp, Res.bind_ok'] at hfp
        rw [Res.bind_ok']
        cases r with
        | none => cases hfp
        | some od =>
          obtain ⟨o, d⟩ := od
          simp only at hfp ⊢
          have hfp : (half n x.transit (some a) o f).bind _ = Res.throw m := hfp
          cases h1 : half n x.transit (some a) o f with
          | throw m' => rw [h1] at hfp; cases hfp; rfl
          | ub => rw [h1] at hfp; cases hfp
          | diverge => rw [h1] at hfp; cases hfp
          | ok p =>
            rw [h1, Res.bind_ok'] at hfp
            rw [Res.bind_ok']
            cases h2 : half n rg (some b) d t with
            | throw m' => rw [h2] at hfp; cases hfp; rfl
            | ub => rw [h2] at hfp; cases hfp
            | diverge => rw [h2] at hfp; cases hfp
            | ok q => rw [h2, Res.bind_ok'] at hfp; cases hfp

theorem fold_evt (h : Good (asCover x) (orders orc isBus) ops) {rg : G} (hr : Rev (asCover x) rg)
    (hp0 : x.pnr = []) (hsh : ∀ i l, (orc.pnr isBus i l).Perm l) {buses walks : List ℤ} {table : Table}
    {pnrs : List Pnr} {paths0 : List P} {new0 : List (ℤ × ℤ × P)}
    (ht : ∀ o d, HasDemand (asCover x) o d → ∃ ps, table o d = some ps)
    (hin : ∀ l ∈ (if isBus then buses else walks), ¬ Cov pnrs paths0 l → Usable x l) {s : St}
    (hs : Inv table pnrs buses walks isBus paths0 new0 [] s) {T : String → Prop} :
    Evt (fun n => Res.foldlM (coverOne n x orc rg buses walks isBus) s
      ((List.range (if isBus then buses else walks).length).zip (if isBus then buses else walks)))
      (fun s => ∃ new, Inv table pnrs buses walks isBus paths0 new0 new s ∧
        (∀ q ∈ new, NewOk x (if isBus then buses else walks) q) ∧
          ∀ l ∈ (if isBus then buses else walks), ¬ Cov pnrs s.paths l → NoWay x l) T := by
  have := Evt.fold (T := T) (f := fun n => coverOne n x orc rg buses walks isBus)
    (I := fun done s => ∃ new, Inv table pnrs buses walks isBus paths0 new0 new s ∧
      (∀ q ∈ new, NewOk x (if isBus then buses else walks) q) ∧ ∀ il ∈ done, ¬ Cov pnrs s.paths il.2 → NoWay x il.2)
    ((List.range (if isBus then buses else walks).length).zip (if isBus then buses else walks)) [] s
    (fun p a s b e hI => coverOne_evt h hr hp0 hsh ht hin (zip_mem (by rw [List.nil_append] at e; rw [e]; simp)) hI)
    ⟨[], hs, by simp, by simp⟩
  refine this.imp fun s hs => ?_
  obtain ⟨new, h1, h2, h3⟩ := hs
  refine ⟨new, h1, h2, fun l hl => ?_⟩
  obtain ⟨i, hi⟩ := mem_zip hl
  exact h3 (i, l) (by simpa using hi)

end Verif.MmCover

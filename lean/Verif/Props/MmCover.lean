import Verif.Lemmas.MmCover2
import Verif.Props.Cover

/-!
# C188, C189: registered bus and walking links on registered paths

`check_registered_links_in_registered_paths_driving`, `..._bus`, `..._walking`,
`are_registered_links_in_registered_paths_*` and `generate_paths_to_cover_registered_links_bus_walking`.
-/

namespace Verif
open Graph Sp Path Cover MmCover

/-! ## The flags -/

/-- C188 for driving links: the flag of a registered link is that it is on some registered driving path. -/
theorem C188_driving (paths : List P) (links : List ℤ) :
    checkDriving paths links = links.map fun l => decide (∃ p ∈ paths, l ∈ p.2) := covered_eq paths links

/-- C188, the part that holds: if no registered bus (or walking) link has the number of a driving link on a park-and-ride
path, then its flag is that it is on some bus transit path, or on the transit part of some park-and-ride path.
(Missing: networks where numbers are used twice; see `C188_false_same_number`.) -/
theorem C188_transit_partial (paths : List P) (pnrs : List Pnr) (links : List ℤ)
    (hnum : ∀ l ∈ links, ∀ q ∈ pnrs, l ∉ q.drive.2) :
    MmCover.check paths pnrs links = links.map fun l => decide (Served pnrs paths l) := by
  rw [check_eq]
  apply List.map_congr_left
  intro l hl
  rw [decide_eq_decide]
  unfold Served
  refine or_congr Iff.rfl ?_
  constructor
  · rintro ⟨q, hq, h | h⟩
    · exact absurd h (hnum l hl q hq)
    · exact ⟨q, hq, h⟩
  · rintro ⟨q, hq, h⟩
    exact ⟨q, hq, Or.inr h⟩

/-- C188 for all networks: the flag is that the number is that of a link of a bus transit path, or of a link of a
park-and-ride path, on its driving or transit part. -/
theorem C188_flags (paths : List P) (pnrs : List Pnr) (links : List ℤ) :
    MmCover.check paths pnrs links = links.map fun l => decide (Cov pnrs paths l) := check_eq paths pnrs links

/-- C188 is false of networks where a driving link and a bus (or walking) link share a number: if the driving link is on
a park-and-ride path, then the other one is reported as covered, whatever the paths are. -/
theorem C188_false_same_number (paths : List P) (pnrs : List Pnr) (links : List ℤ) (i : ℕ) (l : ℤ) (q : Pnr)
    (hi : links[i]? = some l) (hq : q ∈ pnrs) (hl : l ∈ q.drive.2) :
    (MmCover.check paths pnrs links)[i]? = some true := by
  rw [check_eq, List.getElem?_map, hi]
  simp only [Option.map_some, Option.some.injEq, decide_eq_true_eq]
  exact Or.inr ⟨q, hq, Or.inl hl⟩

-- Links 11 and 16 of the network of C121, a bus transit path and a park-and-ride path.
example : (∀ l ∈ [11, 16, 20], ∀ q ∈ [(⟨([8, 9], [30]), ([1, 2], [10])⟩ : Pnr)], l ∉ q.drive.2) ∧
    MmCover.check [CovEx.first] [⟨([8, 9], [30]), ([1, 7], [16])⟩] [11, 16, 20] = [true, true, false] ∧
    MmCover.check [] [] [11] = [false] ∧ MmCover.check [CovEx.first] [] [] = [] ∧
    checkDriving [([8, 9], [30])] [30, 31] = [true, false] := by decide +kernel

-- Bus link 20 is on no path, but driving link 20 is on the way to the car park.
example : ¬ Served [⟨([8, 9], [20]), ([1, 7], [16])⟩] [CovEx.first] 20 ∧
    MmCover.check [CovEx.first] [⟨([8, 9], [20]), ([1, 7], [16])⟩] [20] = [true] := by decide +kernel

/-! ## The generation -/

/-- C189: if every registered bus and walking link is on a registered path already, nothing is generated. -/
theorem C189_nothing_to_do (fuel : ℕ) (x : MmCover.Inst) (orc : MmCover.Orc) (buses walks : List ℤ) (table : Table)
    (paths : List P) (pnrs : List Pnr) (hb : ∀ l ∈ buses, Served pnrs paths l) (hw : ∀ l ∈ walks, Served pnrs paths l) :
    generate fuel x orc buses walks table paths pnrs =
      .ok (false, ⟨table, paths, buses.map fun _ => true, walks.map fun _ => true⟩) := by
  have key : ∀ links : List ℤ, (∀ l ∈ links, Served pnrs paths l) →
      MmCover.check paths pnrs links = links.map fun _ => true := by
    intro links h
    rw [check_eq]
    apply List.map_congr_left
    intro l hl
    rw [decide_eq_true_eq]
    rcases h l hl with h | ⟨q, hq, h⟩
    · exact Or.inl h
    · exact Or.inr ⟨q, hq, Or.inr h⟩
  unfold generate
  simp only
  rw [key buses hb, key walks hw, if_pos (by simp)]

/-- C189, the part that holds: if the generation returns, then it has added paths as described by `Generated`, each over
a link that was on no path; it returns 0 exactly if there was nothing to do, and then changes nothing.  (Missing: that
it returns; see the theorems below.  That the new paths are ways through the network; see
`C189_false_links_do_not_follow`.  Flags of bus links that the paths of the second loop pass.) -/
theorem C189_generated_partial (fuel : ℕ) (x : MmCover.Inst) (orc : MmCover.Orc) (buses walks : List ℤ) (table : Table)
    (paths : List P) (pnrs : List Pnr) {b : Bool} {s : MmCover.St}
    (h : generate fuel x orc buses walks table paths pnrs = .ok (b, s)) :
    ∃ new1 new2, Generated table paths pnrs buses walks new1 new2 s ∧
      (b = false ↔ (∀ l ∈ buses, Cov pnrs paths l) ∧ ∀ l ∈ walks, Cov pnrs paths l) ∧
      (b = false → s.table = table ∧ s.paths = paths) := by
  unfold generate at h
  simp only at h
  by_cases hall : ((MmCover.check paths pnrs buses).all id && (MmCover.check paths pnrs walks).all id) = true
  · rw [if_pos hall] at h
    cases h
    have hb := check_eq paths pnrs buses
    have hw := check_eq paths pnrs walks
    refine ⟨[], [], ⟨(added_nil _).symm, by simp, by rw [List.map_nil, List.append_nil]; exact hb, hw, by simp, by simp⟩,
      ⟨fun _ => ?_, fun _ => rfl⟩, fun _ => ⟨rfl, rfl⟩⟩
    rw [hb, hw] at hall
    simp only [Bool.and_eq_true, List.all_map, List.all_eq_true, Function.comp, id, decide_eq_true_eq] at hall
    exact hall
  · rw [if_neg hall, Res.bind_eq_ok'] at h
    obtain ⟨rg, -, h⟩ := h
    rw [Res.bind_eq_ok'] at h
    obtain ⟨s1, h1, h⟩ := h
    rw [Res.bind_eq_ok'] at h
    obtain ⟨s2, h2, h⟩ := h
    cases h
    obtain ⟨n1, i1⟩ := fold_inv (table := table) (pnrs := pnrs) (paths0 := paths) (new0 := []) (isBus := true)
      (new := []) _ (fun il hil => zip_mem hil)
      ⟨(added_nil _).symm, by simp, check_eq _ _ _, check_eq _ _ _, by simp⟩ h1
    have hbus := i1.bus
    simp only [if_true] at hbus
    obtain ⟨n2, i2⟩ := fold_inv (table := table) (pnrs := pnrs) (paths0 := s1.paths) (new0 := n1) (isBus := false)
      (new := []) _ (fun il hil => zip_mem hil)
      ⟨by rw [i1.table]; simp, by simp, by simpa using hbus, i1.walk, by simp⟩ h2
    refine ⟨n1, n2, ⟨i2.table, by rw [i2.paths, i1.paths], ?_, i2.walk, ?_, ?_⟩, ⟨by simp, fun hc => ?_⟩, by simp⟩
    · have := i2.bus
      simp only [Bool.false_eq_true, if_false] at this
      rw [this, i1.paths]
    · simpa using i1.each
    · have := i2.each
      simp only [Bool.false_eq_true, if_false] at this
      rw [← i1.paths]
      exact this
    · exfalso
      apply hall
      rw [check_eq, check_eq]
      simp only [Bool.and_eq_true, List.all_map, List.all_eq_true, Function.comp, id, decide_eq_true_eq]
      exact hc

/-- C189 is false: if the first bus link on no path does not have the number of a driving link, the call throws.  (Its
ends are looked up in the driving network.) -/
theorem C189_false_bus_links (fuel : ℕ) (x : MmCover.Inst) (orc : MmCover.Orc) (ops : List Op)
    (hg : x.transit = run empty ops) (hn : orc.nodes.Perm (nodeIds x.transit)) (hl : orc.links.Perm (linkIds x.transit))
    (pre post walks : List ℤ) (l : ℤ) (table : Table) (paths : List P) (pnrs : List Pnr)
    (hpre : ∀ k ∈ pre, Cov pnrs paths k) (hnot : ¬ Cov pnrs paths l) (hd : l ∉ linkIds x.drive) :
    generate fuel x orc (pre ++ l :: post) walks table paths pnrs = .throw "out_of_range" := by
  obtain ⟨rg, hr, -⟩ := C06_reverse_graph ops orc.nodes orc.links (hg ▸ hn) (hg ▸ hl)
  rw [← hg] at hr
  obtain ⟨rest, hz⟩ := zip_split pre l post
  unfold generate
  simp only
  rw [if_neg, hr, Res.bind_ok', hz, fold_throw (isBus := true)]
  · rfl
  · intro jl hj
    have := zip_mem hj
    have hk : pre[jl.1]? = some jl.2 := this
    have hlt : jl.1 < pre.length := (List.getElem?_eq_some_iff.1 hk).1
    simp only [if_true]
    rw [check_eq, List.getD_eq_getElem?_getD, List.getElem?_map, List.getElem?_append_left hlt, hk]
    have := hpre jl.2 (List.mem_of_getElem? hk)
    unfold Cov at this
    simp only [Option.map_some, Option.getD_some, decide_eq_true_eq]
    exact this
  · simp only [if_true]
    rw [check_eq, List.getD_eq_getElem?_getD, List.getElem?_map, List.getElem?_append_right (Nat.le_refl _)]
    simp only [Nat.sub_self, List.getElem?_cons_zero, Option.map_some, Option.getD_some, decide_eq_false_iff_not]
    exact hnot
  · exact hd
  · rw [check_eq]
    simp only [Bool.and_eq_true, List.all_map, List.all_eq_true, Function.comp, id, decide_eq_true_eq, not_and]
    intro hc
    exact absurd (hc l (by simp)) hnot

/-- C189 is false for walking links as well. -/
theorem C189_false_walking_links (fuel : ℕ) (x : MmCover.Inst) (orc : MmCover.Orc) (ops : List Op)
    (hg : x.transit = run empty ops) (hn : orc.nodes.Perm (nodeIds x.transit)) (hl : orc.links.Perm (linkIds x.transit))
    (buses pre post : List ℤ) (l : ℤ) (table : Table) (paths : List P) (pnrs : List Pnr)
    (hb : ∀ k ∈ buses, Cov pnrs paths k)
    (hpre : ∀ k ∈ pre, Cov pnrs paths k) (hnot : ¬ Cov pnrs paths l) (hd : l ∉ linkIds x.drive) :
    generate fuel x orc buses (pre ++ l :: post) table paths pnrs = .throw "out_of_range" := by
  obtain ⟨rg, hr, -⟩ := C06_reverse_graph ops orc.nodes orc.links (hg ▸ hn) (hg ▸ hl)
  rw [← hg] at hr
  obtain ⟨rest, hz⟩ := zip_split pre l post
  unfold generate
  simp only
  rw [if_neg, hr, Res.bind_ok', fold_skip (isBus := true), Res.bind_ok', hz, fold_throw (isBus := false)]
  · rfl
  · intro jl hj
    have hk : pre[jl.1]? = some jl.2 := zip_mem hj
    have hlt : jl.1 < pre.length := (List.getElem?_eq_some_iff.1 hk).1
    simp only [Bool.false_eq_true, if_false]
    rw [check_eq, List.getD_eq_getElem?_getD, List.getElem?_map, List.getElem?_append_left hlt, hk]
    have := hpre jl.2 (List.mem_of_getElem? hk)
    unfold Cov at this
    simp only [Option.map_some, Option.getD_some, decide_eq_true_eq]
    exact this
  · simp only [Bool.false_eq_true, if_false]
    rw [check_eq, List.getD_eq_getElem?_getD, List.getElem?_map, List.getElem?_append_right (Nat.le_refl _)]
    simp only [Nat.sub_self, List.getElem?_cons_zero, Option.map_some, Option.getD_some, decide_eq_false_iff_not]
    exact hnot
  · exact hd
  · intro jl hj
    have hk : buses[jl.1]? = some jl.2 := zip_mem hj
    simp only [if_true]
    rw [check_eq, List.getD_eq_getElem?_getD, List.getElem?_map, hk]
    have := hb jl.2 (List.mem_of_getElem? hk)
    unfold Cov at this
    simp only [Option.map_some, Option.getD_some, decide_eq_true_eq]
    exact this
  · rw [check_eq paths pnrs (pre ++ l :: post)]
    simp only [Bool.and_eq_true, List.all_map, List.all_eq_true, Function.comp, id, decide_eq_true_eq, not_and]
    intro _ hc
    exact absurd (hc l (by simp)) hnot

/-- C189, part, when it works: the driving network has links with the numbers and ends of the transit links that are on no
path, these links leave no origin and lead to no destination, some link leads to them, and there is no park-and-ride
demand.  Then the call succeeds; every new path is for a pair with demand and is the fastest one over some registered
link; and a registered link that is on no path at the end is on no way between any pair with demand.  (Missing: other
links and park-and-ride demand; see the theorems below.) -/
theorem C189_covers_partial {x : MmCover.Inst} {orc : MmCover.Orc} {ops : List Op}
    (h : ∀ b, Good (asCover x) (orders orc b) ops) (hp0 : x.pnr = []) (hsh : ∀ b i l, (orc.pnr b i l).Perm l)
    (buses walks : List ℤ) (table : Table) (paths : List P) (pnrs : List Pnr)
    (ht : ∀ o d, HasDemand (asCover x) o d → ∃ ps, table o d = some ps)
    (hin : ∀ l ∈ buses ++ walks, ¬ Cov pnrs paths l → Usable x l) :
    ∃ N b s new1 new2, (∀ fuel, N ≤ fuel → generate fuel x orc buses walks table paths pnrs = .ok (b, s)) ∧
      Generated table paths pnrs buses walks new1 new2 s ∧
      (∀ q ∈ new1 ++ new2, HasDemand (asCover x) q.1 q.2.1 ∧
        ∃ l ∈ buses ++ walks, FastestOver (asCover x) l q.1 q.2.1 q.2.2) ∧
      ∀ l ∈ buses ++ walks, ¬ Cov pnrs s.paths l →
        ∀ o d ls, HasDemand (asCover x) o d → Walk x.transit o ls d → l ∉ ls := by
  by_cases hall : (∀ l ∈ buses, Cov pnrs paths l) ∧ ∀ l ∈ walks, Cov pnrs paths l
  · have hb := check_eq paths pnrs buses
    have hw := check_eq paths pnrs walks
    refine ⟨0, false, ⟨table, paths, MmCover.check paths pnrs buses, MmCover.check paths pnrs walks⟩, [], [],
      fun fuel _ => ?_, ⟨(added_nil _).symm, by simp, by rw [List.map_nil, List.append_nil]; exact hb, hw, by simp, by simp⟩,
      by simp, fun l hl hn => ?_⟩
    · unfold generate
      simp only
      rw [if_pos]
      rw [hb, hw]
      simp only [Bool.and_eq_true, List.all_map, List.all_eq_true, Function.comp, id, decide_eq_true_eq]
      exact hall
    · rcases List.mem_append.1 hl with hl | hl
      · exact absurd (hall.1 l hl) hn
      · exact absurd (hall.2 l hl) hn
  · obtain ⟨rg, e, hr⟩ := (h true).rev
    have e : reverseGraph x.transit orc.nodes orc.links = .ok rg := e
    rcases fold_evt (T := fun _ => False) (h true) hr hp0 (hsh true) (buses := buses) (walks := walks) (table := table)
      (pnrs := pnrs) (paths0 := paths) (new0 := []) ht (fun l hl hn => hin l (by simpa using Or.inl hl) hn)
      (s := ⟨table, paths, MmCover.check paths pnrs buses, MmCover.check paths pnrs walks⟩)
      ⟨(added_nil _).symm, by simp, check_eq _ _ _, check_eq _ _ _, by simp⟩ with
      ⟨s1, ⟨n1, i1, k1, m1⟩, N1, hN1⟩ | ⟨_, hF, -⟩
    · have hbus := i1.bus
      simp only [if_true] at hbus
      have hmono : ∀ l, Cov pnrs paths l → Cov pnrs s1.paths l := by
        intro l hc
        rw [i1.paths]
        rcases hc with ⟨p, a, b⟩ | hc
        · exact Or.inl ⟨p, by simp [a], b⟩
        · exact Or.inr hc
      rcases fold_evt (T := fun _ => False) (h false) hr hp0 (hsh false) (buses := buses) (walks := walks) (table := table)
        (pnrs := pnrs) (paths0 := s1.paths) (new0 := n1) ht
        (fun l hl hn => hin l (by simpa using Or.inr hl) fun hc => hn (hmono l hc)) (s := s1)
        ⟨by rw [i1.table]; simp, by simp, by simpa using hbus, i1.walk, by simp⟩ with
        ⟨s2, ⟨n2, i2, k2, m2⟩, N2, hN2⟩ | ⟨_, hF, -⟩
      · refine ⟨max N1 N2, true, s2, n1, n2, fun fuel hf => ?_,
          ⟨i2.table, by rw [i2.paths, i1.paths], ?_, i2.walk, ?_, ?_⟩, ?_, ?_⟩
        · have r1 := hN1 fuel (by omega)
          have r2 := hN2 fuel (by omega)
          simp only [if_true] at r1
          simp only [Bool.false_eq_true, if_false] at r2
          unfold generate
          simp only
          rw [if_neg, e, Res.bind_ok', r1, Res.bind_ok', r2, Res.bind_ok']
          rw [check_eq, check_eq]
          simp only [Bool.and_eq_true, List.all_map, List.all_eq_true, Function.comp, id, decide_eq_true_eq]
          exact hall
        · have := i2.bus
          simp only [Bool.false_eq_true, if_false] at this
          rw [this, i1.paths]
        · simpa using i1.each
        · have := i2.each
          simp only [Bool.false_eq_true, if_false] at this
          rw [← i1.paths]
          exact this
        · intro q hq
          rcases List.mem_append.1 hq with hq | hq
          · obtain ⟨a, l, hl, b⟩ := k1 q hq
            exact ⟨a, l, by simpa using Or.inl hl, b⟩
          · obtain ⟨a, l, hl, b⟩ := k2 q hq
            exact ⟨a, l, by simpa using Or.inr hl, b⟩
        · intro l hl hn
          rcases List.mem_append.1 hl with hl | hl
          · refine m1 l (by simpa using hl) fun hc => hn ?_
            rw [i2.paths]
            rcases hc with ⟨p, a, b⟩ | hc
            · exact Or.inl ⟨p, by simp [a], b⟩
            · exact Or.inr hc
          · exact m2 l (by simpa using hl) hn
      · exact hF.elim
    · exact hF.elim

/-! ## A network -/

namespace MmCovEx

/-- The transit network is that of C121; the driving network has links `drive`. -/
def x (drive : List (ℤ × ℤ × ℤ)) (bus : List (ℤ × List ℤ)) (pnr : List (ℤ × List (ℤ × List ℤ))) : MmCover.Inst :=
  { drive := run empty ((drive.flatMap fun e => [.addNode e.1, .addNode e.2.1]) ++
      drive.map fun e => .addLink e.1 e.2.1 e.2.2)
    transit := run empty CovEx.ops
    bus := bus
    pnr := pnr
    fftt := fun _ => 1 }

def orc : MmCover.Orc :=
  { nodes := nodeIds (run empty CovEx.ops)
    links := linkIds (run empty CovEx.ops)
    bus := fun _ _ l => l
    busDests := fun _ _ _ l => l
    pnr := fun _ _ l => l
    pnrDests := fun _ _ _ l => l }

/-- What the result tells. -/
def obs (r : Res (Bool × MmCover.St)) : Res (Bool × Option (List P) × List P × List Bool × List Bool) :=
  r.bind fun s => .ok (s.1, s.2.table 1 6, s.2.paths, s.2.bus, s.2.walk)

end MmCovEx

-- Driving links with the numbers and ends of transit links: links 12 and 13 get a path.
set_option synthInstance.maxSize 1024 in
example : MmCovEx.obs (generate 100 (MmCovEx.x [(3, 4, 13)] [(1, [6])] []) MmCovEx.orc [11, 13] [10, 12] CovEx.table
      [CovEx.first] []) =
    .ok (true, some [CovEx.first, CovEx.second], [CovEx.first, CovEx.second], [true, true], [true, true]) := by
  decide +kernel

set_option synthInstance.maxSize 1024 in
example : MmCovEx.obs (generate 100 (MmCovEx.x [(3, 4, 13)] [(1, [6])] []) MmCovEx.orc [11] [10, 13] CovEx.table
      [CovEx.first] []) =
    .ok (true, some [CovEx.first, CovEx.second], [CovEx.first, CovEx.second], [true], [true, true]) := by
  decide +kernel

-- The network of the first of these cases meets the hypotheses of `C189_covers_partial`.
example : (∀ b, Good (asCover (MmCovEx.x [(3, 4, 13)] [(1, [6])] [])) (orders MmCovEx.orc b) CovEx.ops) ∧
    (∀ l ∈ [11, 13] ++ [10, 12], ¬ Cov [] [CovEx.first, ([1, 2, 3], [10, 12])] l →
      Usable (MmCovEx.x [(3, 4, 13)] [(1, [6])] []) l) ∧ ¬ Cov [] [CovEx.first, ([1, 2, 3], [10, 12])] 13 := by
  refine ⟨fun b => ⟨rfl, ?_, ?_, fun _ _ => by show (0 : ℚ) ≤ 1; norm_num, by decide +kernel, List.Perm.refl _,
    List.Perm.refl _, fun _ _ _ => List.Perm.refl _, fun _ _ _ _ => List.Perm.refl _⟩, ?_, by decide⟩
  · intro o ho
    have : o = (1, [6]) := by simpa [asCover, MmCovEx.x] using ho
    subst this
    decide +kernel
  · intro o ho d hd
    have : o = (1, [6]) := by simpa [asCover, MmCovEx.x] using ho
    subst this
    have : d = 6 := by simpa using hd
    subst this
    decide +kernel
  · intro l hl hn
    have : l = 13 := by
      simp only [List.cons_append, List.nil_append, List.mem_cons, List.not_mem_nil, or_false] at hl
      rcases hl with rfl | rfl | rfl | rfl
      · exact absurd (by decide) hn
      · rfl
      · exact absurd (by decide) hn
      · exact absurd (by decide) hn
    subst this
    exact ⟨by decide +kernel, ⟨3, 4, by decide +kernel, by decide +kernel, by decide +kernel⟩, 3, 4, 12, 2,
      by decide +kernel, by decide +kernel⟩

-- Everything is on a path.
set_option synthInstance.maxSize 1024 in
example : (∀ l ∈ [11], Served [] [CovEx.first] l) ∧ (∀ l ∈ [10, 14], Served [] [CovEx.first] l) ∧
    MmCovEx.obs (generate 100 (MmCovEx.x [] [(1, [6])] []) MmCovEx.orc [11] [10, 14] CovEx.table [CovEx.first] []) =
      .ok (false, some [CovEx.first], [CovEx.first], [true], [true, true]) := by
  decide +kernel

-- The driving network has other numbers, as usual.
set_option synthInstance.maxSize 1024 in
example : (∀ k ∈ [11], Cov [] [CovEx.first] k) ∧ ¬ Cov [] [CovEx.first] 13 ∧
    13 ∉ linkIds (MmCovEx.x [(3, 4, 101)] [(1, [6])] []).drive ∧
    MmCovEx.obs (generate 100 (MmCovEx.x [(3, 4, 101)] [(1, [6])] []) MmCovEx.orc [11, 13] [10] CovEx.table
      [CovEx.first] []) = .throw "out_of_range" ∧
    MmCovEx.obs (generate 100 (MmCovEx.x [(3, 4, 101)] [(1, [6])] []) MmCovEx.orc [11] [10, 13] CovEx.table
      [CovEx.first] []) = .throw "out_of_range" := by
  decide +kernel

/-- C189 is false when a driving link has the number of the bus link but other ends: the call succeeds, reports link 12 as
covered, and the new path is no way through the transit network: its links 10, 12 and 14 do not follow each other. -/
theorem C189_false_links_do_not_follow : ∃ (x : MmCover.Inst) (orc : MmCover.Orc) (ops : List Op) (table : Table)
    (paths : List P), x.transit = run empty ops ∧ orc.nodes.Perm (nodeIds x.transit) ∧
    orc.links.Perm (linkIds x.transit) ∧ getEndpoints x.transit 12 = .ok (2, 3) ∧
    (generate 100 x orc [12] [] table paths []).bind (fun s => .ok (s.2.bus, s.2.paths)) =
      .ok ([true], paths ++ [([1, 2, 4, 6], [10, 12, 14])]) ∧ ¬ Walk x.transit 1 [10, 12, 14] 6 := by
  refine ⟨MmCovEx.x [(2, 4, 12)] [(1, [6])] [], MmCovEx.orc, CovEx.ops, CovEx.table, [CovEx.first], rfl,
    List.Perm.refl _, List.Perm.refl _, by decide +kernel, by decide +kernel, ?_⟩
  rintro ⟨a, e1, b, e2, c, e3, -⟩
  have g1 : getEndpoints (run empty CovEx.ops) 10 = .ok (1, 2) := by decide +kernel
  have g2 : getEndpoints (run empty CovEx.ops) 12 = .ok (2, 3) := by decide +kernel
  have g3 : getEndpoints (run empty CovEx.ops) 14 = .ok (4, 6) := by decide +kernel
  change getEndpoints (run empty CovEx.ops) 10 = _ at e1
  change getEndpoints (run empty CovEx.ops) 12 = _ at e2
  change getEndpoints (run empty CovEx.ops) 14 = _ at e3
  rw [g1] at e1
  cases e1
  rw [g2] at e2
  cases e2
  rw [g3] at e3
  cases e3

/-- C189 is false for park-and-ride: a link that only park-and-ride passengers (with car park at node 1 and destination 6)
can use leads to undefined behaviour, even if its number and ends are those of a driving link. -/
theorem C189_false_park_and_ride : ∃ (x : MmCover.Inst) (orc : MmCover.Orc) (ops : List Op) (table : Table)
    (paths : List P), x.transit = run empty ops ∧ orc.nodes.Perm (nodeIds x.transit) ∧
    orc.links.Perm (linkIds x.transit) ∧ getEndpoints x.transit 13 = getEndpoints x.drive 13 ∧
    generate 100 x orc [13] [] table paths [] = .ub := by
  refine ⟨MmCovEx.x [(3, 4, 13)] [] [(20, [(6, [1])])], MmCovEx.orc, CovEx.ops, CovEx.table, [CovEx.first], rfl,
    List.Perm.refl _, List.Perm.refl _, by decide +kernel, ?_⟩
  have h : (generate 100 (MmCovEx.x [(3, 4, 13)] [] [(20, [(6, [1])])]) MmCovEx.orc [13] [] CovEx.table
      [CovEx.first] []).bind (fun _ => (.ok () : Res Unit)) = .ub := by decide +kernel
  revert h
  cases generate 100 (MmCovEx.x [(3, 4, 13)] [] [(20, [(6, [1])])]) MmCovEx.orc [13] [] CovEx.table
      [CovEx.first] [] <;> simp [Res.bind]

end Verif

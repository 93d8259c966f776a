import Verif.Lemmas.Cover

/-!
# C121, C122: paths generated for links that no path uses

`generate_paths_to_cover_registered_links` and `generate_paths_to_cover_links`.
-/

namespace Verif
open Graph Sp Path Cover

/-! ## Registered links -/

/-- C121, the part that holds: if the links that are on no registered path neither leave origin nodes nor lead to
destination nodes, and every pair with demand has a path set, then the generation ends, with a table that has one more
path for every link that was on no path at its turn and can be used between some pair with demand.  (Missing: other
links; see `C121_link_of_an_origin_is_undefined`.) -/
theorem C121_covers_registered_links_partial {x : Cover.Inst} {orc : Orc} {ops : List Op} (h : Good x orc ops)
    (links : List ℤ) (table : Table) (paths : List P)
    (ht : ∀ o d, HasDemand x o d → ∃ ps, table o d = some ps)
    (hin : ∀ l ∈ links, (∀ p ∈ paths, l ∉ p.2) → Inner x l) :
    ∃ N b s new, (∀ fuel, N ≤ fuel → coverRegistered false fuel x orc links table paths = .ok (b, s)) ∧
      Covers x links table paths new s ∧
      (b = false ↔ ∀ l ∈ links, ∃ p ∈ paths, l ∈ p.2) ∧ (b = false → new = []) := by
  by_cases hall : ∀ l ∈ links, ∃ p ∈ paths, l ∈ p.2
  · refine ⟨0, false, ⟨table, paths, Rec.covered (paths.map (·.2)) links⟩, [], fun fuel _ => ?_, ?_, ?_, fun _ => rfl⟩
    · unfold coverRegistered
      rw [if_pos]
      rw [covered_eq]
      simpa using hall
    · exact ⟨(added_nil _).symm, by simp, by simp, covered_eq _ _, fun l hl hn => by
        obtain ⟨p, a, b⟩ := hall l hl
        exact absurd b (hn p a)⟩
    · exact ⟨fun _ => hall, fun _ => rfl⟩
  · obtain ⟨rg, e, hr⟩ := h.rev
    rcases coverFold_spec (T := fun _ => False) h hr ht hin with ⟨s, ⟨new, hs⟩, N, hN⟩ | ⟨_, hF, -⟩
    · refine ⟨N, true, s, new, fun fuel hf => ?_, hs, by simpa using hall, by simp⟩
      unfold coverRegistered
      rw [if_neg, e, Res.bind_ok']
      · have : Res.foldlM (coverOne fuel x orc rg links) ⟨table, paths, Rec.covered (paths.map (·.2)) links⟩
          ((List.range links.length).zip links) = .ok s := hN fuel hf
        rw [this]
        rfl
      · rw [covered_eq]
        simpa using hall
    · exact hF.elim

/-- C121, for the network model with one class: the same, except that it throws when some link is on no way between any
pair with demand. -/
theorem C121_covers_or_throws_partial {x : Cover.Inst} {orc : Orc} {ops : List Op} (h : Good x orc ops)
    (links : List ℤ) (table : Table) (paths : List P)
    (ht : ∀ o d, HasDemand x o d → ∃ ps, table o d = some ps)
    (hin : ∀ l ∈ links, (∀ p ∈ paths, l ∉ p.2) → Inner x l) :
    (∃ N b s new, (∀ fuel, N ≤ fuel → coverRegistered true fuel x orc links table paths = .ok (b, s)) ∧
      Covers x links table paths new s ∧ ∀ l ∈ links, ∃ p ∈ s.paths, l ∈ p.2) ∨
    (∃ N, (∀ fuel, N ≤ fuel → coverRegistered true fuel x orc links table paths =
        .throw "failed when generate paths to cover registered links") ∧
      ∃ l ∈ links, (∀ p ∈ paths, l ∉ p.2) ∧ ∀ o d ls, HasDemand x o d → Walk x.g o ls d → l ∉ ls) := by
  by_cases hall : ∀ l ∈ links, ∃ p ∈ paths, l ∈ p.2
  · refine Or.inl ⟨0, false, ⟨table, paths, Rec.covered (paths.map (·.2)) links⟩, [], fun fuel _ => ?_, ?_, hall⟩
    · unfold coverRegistered
      rw [if_pos]
      rw [covered_eq]
      simpa using hall
    · exact ⟨(added_nil _).symm, by simp, by simp, covered_eq _ _, fun l hl hn => by
        obtain ⟨p, a, b⟩ := hall l hl
        exact absurd b (hn p a)⟩
  · obtain ⟨rg, e, hr⟩ := h.rev
    rcases coverFold_spec (T := fun _ => False) h hr ht hin with ⟨s, ⟨new, hs⟩, N, hN⟩ | ⟨_, hF, -⟩
    · have hrun : ∀ fuel, N ≤ fuel → coverRegistered true fuel x orc links table paths =
          if true && !s.marks.all id then .throw "failed when generate paths to cover registered links"
          else .ok (true, s) := by
        intro fuel hf
        unfold coverRegistered
        rw [if_neg, e, Res.bind_ok']
        · have : Res.foldlM (coverOne fuel x orc rg links) ⟨table, paths, Rec.covered (paths.map (·.2)) links⟩
            ((List.range links.length).zip links) = .ok s := hN fuel hf
          rw [this]
          rfl
        · rw [covered_eq]
          simpa using hall
      by_cases hc : ∀ l ∈ links, ∃ p ∈ s.paths, l ∈ p.2
      · refine Or.inl ⟨N, true, s, new, fun fuel hf => ?_, hs, hc⟩
        rw [hrun fuel hf, if_neg]
        rw [hs.marks]
        simpa using hc
      · refine Or.inr ⟨N, fun fuel hf => ?_, ?_⟩
        · rw [hrun fuel hf, if_pos]
          rw [hs.marks]
          simpa using hc
        · push Not at hc
          obtain ⟨l, hl, hn⟩ := hc
          exact ⟨l, hl, fun p hp => hn p (by rw [hs.pathsEnd]; simp [hp]), hs.missing l hl hn⟩
    · exact hF.elim

/-- C121, what goes wrong: if the first link on no path leaves an origin node, and some origin has demand, then the
generation reads through the end iterator of an empty map. -/
theorem C121_link_of_an_origin_is_undefined {x : Cover.Inst} {orc : Orc} {ops : List Op} (h : Good x orc ops)
    (strict : Bool) (pre post : List ℤ) (l f t : ℤ) (table : Table) (paths : List P)
    (hpre : ∀ l ∈ pre, ∃ p ∈ paths, l ∈ p.2) (hl : ∀ p ∈ paths, l ∉ p.2)
    (e : getEndpoints x.g l = .ok (f, t)) (ho : x.isOrigin f = true) (hdem : ∃ o d, HasDemand x o d) :
    ∃ N, ∀ fuel, N ≤ fuel → coverRegistered strict fuel x orc (pre ++ l :: post) table paths = .ub := by
  obtain ⟨rg, er, hr⟩ := h.rev
  obtain ⟨N, hN⟩ := trees_origin h hr e ho
  refine ⟨N, fun fuel hf => ?_⟩
  obtain ⟨b, hb⟩ := hN fuel hf
  unfold coverRegistered
  rw [if_neg, er, Res.bind_ok']
  · have := fold_first (orc := orc) (fuel := fuel) (x := x) (rg := rg) (post := post) hpre hl e hb
      (pick_origin h hdem pre.length b) (table := table)
    rw [this]
    rfl
  · rw [covered_eq]
    simp only [List.all_map, List.all_eq_true, not_forall]
    refine ⟨l, by simp, ?_⟩
    simpa using fun p q hp hl' => hl _ hp hl'

/-! ## Links again -/

/-- C122, the part that holds: if the links are the first registered ones, none leaves an origin node or leads to a
destination node, and every pair with demand has a path set, then the generation ends with new paths over these links.
(Missing: other links; see `C122_other_links_break_paths` and `C122_fewer_registered_links_are_undefined`.) -/
theorem C122_covers_links_partial {x : Cover.Inst} {orc : Orc} {ops : List Op} (h : Good x orc ops)
    (registered links : List ℤ) (maxIter : ℕ) (table : Table) (paths : List P)
    (ht : ∀ o d, HasDemand x o d → ∃ ps, table o d = some ps)
    (hpre : links <+: registered) (hin : ∀ l ∈ links, Inner x l) :
    ∃ N s new, (∀ fuel, N ≤ fuel → coverLinks fuel x orc registered links maxIter table paths = .ok s) ∧
      CoversAgain x links maxIter table paths new s := by
  rcases coverLinks_spec (T := fun _ => False) (paths := paths) h ht hpre hin maxIter with
    ⟨s, ⟨new, hs⟩, N, hN⟩ | ⟨_, hF, -⟩
  · exact ⟨N, s, new, hN, hs⟩
  · exact hF.elim

/-- C122, what goes wrong: with fewer registered links than links to cover, the vector of registered links is read
beyond its end (unless something fails before). -/
theorem C122_fewer_registered_links_are_undefined {x : Cover.Inst} {orc : Orc} {ops : List Op} (h : Good x orc ops)
    (links : List ℤ) (hl : links ≠ []) (fuel maxIter : ℕ) (table : Table) (paths : List P) :
    coverLinks fuel x orc [] links maxIter table paths = .ub := by
  obtain ⟨rg, er, -⟩ := h.rev
  unfold coverLinks
  rw [er, Res.bind_ok']
  cases links with
  | nil => exact absurd rfl hl
  | cons l links =>
    have : (List.range (l :: links).length).zip (l :: links) =
        (0, l) :: ((List.range links.length).map Nat.succ).zip links := by
      rw [List.length_cons, List.range_succ_eq_map]
      rfl
    rw [this, Res.foldlM_cons]
    rfl

/-! ## A network with a link that can be covered and one that cannot -/

namespace CovEx

/-- Origin 1, destination 6; link 10 leads from 1 to 2, link 11 from 2 to 4, links 12 and 13 from 2 over 3 to 4, link 14
from 4 to 6, and link 16 from 7, which nothing leads to, to 2. -/
def ops : List Op := [.addNode 1, .addNode 2, .addNode 3, .addNode 4, .addNode 6, .addNode 7,
  .addLink 1 2 10, .addLink 2 4 11, .addLink 2 3 12, .addLink 3 4 13, .addLink 4 6 14, .addLink 7 2 16]

def x : Cover.Inst :=
  { g := run empty ops
    isOrigin := fun v => decide (v = 1)
    isDest := fun v => decide (v = 6)
    origins := [(1, [6])]
    tt := fun _ => 1 }

def orc : Orc :=
  { nodes := nodeIds (run empty ops)
    links := linkIds (run empty ops)
    origins := fun _ _ l => l
    dests := fun _ _ _ l => l }

/-- One path, over link 11. -/
def first : P := ([1, 2, 4, 6], [10, 11, 14])

def table : Table := fun o d => if o = 1 ∧ d = 6 then some [first] else none

theorem good : Good x orc ops :=
  { graph := rfl
    origins := by decide +kernel
    dests := by decide +kernel
    tt := fun _ _ => by show (0 : ℚ) ≤ 1; norm_num
    noLink := by decide +kernel
    nodes := List.Perm.refl _
    links := List.Perm.refl _
    shuffleO := fun _ _ _ => List.Perm.refl _
    shuffleD := fun _ _ _ _ => List.Perm.refl _ }

theorem demand (o d : ℤ) (h : HasDemand x o d) : ∃ ps, table o d = some ps := by
  obtain ⟨p, hp, rfl, hd⟩ := h
  have : p = (1, [6]) := by simpa [x] using hp
  subst this
  have : d = 6 := by simpa using hd
  subst this
  exact ⟨_, rfl⟩

theorem inner (l : ℤ) (h : l ∈ [13, 12, 11, 16]) : Inner x l := by
  simp only [List.mem_cons, List.not_mem_nil, or_false] at h
  rcases h with rfl | rfl | rfl | rfl
  · exact ⟨3, 4, by decide +kernel, by decide +kernel, by decide +kernel⟩
  · exact ⟨2, 3, by decide +kernel, by decide +kernel, by decide +kernel⟩
  · exact ⟨2, 4, by decide +kernel, by decide +kernel, by decide +kernel⟩
  · exact ⟨7, 2, by decide +kernel, by decide +kernel, by decide +kernel⟩

/-- What the result tells: flag, paths of the pair, registered paths, flags or counters. -/
def obs (r : Res (Bool × St Bool)) : Res (Bool × Option (List P) × List P × List Bool) :=
  r.bind fun s => .ok (s.1, s.2.table 1 6, s.2.paths, s.2.marks)

def obs' (r : Res (St ℕ)) : Res (Option (List P) × List P × List ℕ) :=
  r.bind fun s => .ok (s.table 1 6, s.paths, s.marks)

end CovEx

/-- The path over links 12 and 13. -/
def CovEx.second : P := ([1, 2, 3, 4, 6], [10, 12, 13, 14])

-- Link 13 gets a path, which serves link 12 too; link 16 cannot be covered.
set_option synthInstance.maxSize 1024 in
example : Good CovEx.x CovEx.orc CovEx.ops ∧
    (∀ o d, HasDemand CovEx.x o d → ∃ ps, CovEx.table o d = some ps) ∧
    (∀ l ∈ [13, 12, 11, 16], (∀ p ∈ [CovEx.first], l ∉ p.2) → Inner CovEx.x l) ∧
    CovEx.obs (coverRegistered false 100 CovEx.x CovEx.orc [13, 12, 11, 16] CovEx.table [CovEx.first]) =
      .ok (true, some [CovEx.first, CovEx.second], [CovEx.first, CovEx.second], [true, true, true, false]) ∧
    CovEx.obs (coverRegistered false 100 CovEx.x CovEx.orc [11] CovEx.table [CovEx.first]) =
      .ok (false, some [CovEx.first], [CovEx.first], [true]) :=
  ⟨CovEx.good, CovEx.demand, fun l hl _ => CovEx.inner l hl, by decide +kernel, by decide +kernel⟩

-- With one class, it depends on link 16.
set_option synthInstance.maxSize 1024 in
example : CovEx.obs (coverRegistered true 100 CovEx.x CovEx.orc [13, 12, 11, 16] CovEx.table [CovEx.first]) =
      .throw "failed when generate paths to cover registered links" ∧
    CovEx.obs (coverRegistered true 100 CovEx.x CovEx.orc [13, 12, 11] CovEx.table [CovEx.first]) =
      .ok (true, some [CovEx.first, CovEx.second], [CovEx.first, CovEx.second], [true, true, true]) := by
  decide +kernel

-- The hypotheses of `C121_link_of_an_origin_is_undefined`; a link into a destination is no better.
set_option synthInstance.maxSize 1024 in
example : Good CovEx.x CovEx.orc CovEx.ops ∧ (∃ o d, HasDemand CovEx.x o d) ∧
    getEndpoints CovEx.x.g 10 = .ok (1, 2) ∧ CovEx.x.isOrigin 1 = true ∧
    CovEx.obs (coverRegistered false 100 CovEx.x CovEx.orc [10] CovEx.table []) = .ub ∧
    CovEx.obs (coverRegistered false 100 CovEx.x CovEx.orc [14] CovEx.table []) = .ub :=
  ⟨CovEx.good, ⟨1, 6, (1, [6]), by simp [CovEx.x], rfl, by simp⟩, by decide +kernel, by decide +kernel,
    by decide +kernel, by decide +kernel⟩

-- Two tries for each of four links: the second path is added once, and counts for links 12 and 13.
set_option synthInstance.maxSize 1024 in
example : CovEx.obs' (coverLinks 100 CovEx.x CovEx.orc [13, 12, 11, 16] [13, 12, 11, 16] 2 CovEx.table [CovEx.first]) =
      .ok (some [CovEx.first, CovEx.second], [CovEx.first, CovEx.second], [1, 1, 0, 0]) := by decide +kernel

/-- C122, what goes wrong: the ways to and from a link are those of the registered link at its position.  With link 11
registered and link 12 to be covered, the new path is no way through the network: its links 10, 12 and 14 do not follow
each other. -/
theorem C122_other_links_break_paths : ∃ (x : Cover.Inst) (orc : Orc) (ops : List Op) (table : Table) (paths : List P),
    Good x orc ops ∧ (∀ o d, HasDemand x o d → ∃ ps, table o d = some ps) ∧ Inner x 11 ∧ Inner x 12 ∧
    ∃ s p, coverLinks 100 x orc [11] [12] 1 table paths = .ok s ∧ s.paths = paths ++ [p] ∧ ¬ Walk x.g 1 p.2 6 := by
  refine ⟨CovEx.x, CovEx.orc, CovEx.ops, CovEx.table, [CovEx.first], CovEx.good, CovEx.demand,
    CovEx.inner 11 (by simp), CovEx.inner 12 (by simp),
    (coverLinks 100 CovEx.x CovEx.orc [11] [12] 1 CovEx.table [CovEx.first]).stateOr ⟨CovEx.table, [], []⟩,
    ([1, 2, 4, 6], [10, 12, 14]), ok_of_isOk (d := ⟨CovEx.table, [], []⟩) (by decide +kernel), by decide +kernel, ?_⟩
  rintro ⟨a, e1, b, e2, c, e3, -⟩
  have g1 : getEndpoints CovEx.x.g 10 = .ok (1, 2) := by decide +kernel
  have g2 : getEndpoints CovEx.x.g 12 = .ok (2, 3) := by decide +kernel
  have g3 : getEndpoints CovEx.x.g 14 = .ok (4, 6) := by decide +kernel
  rw [g1] at e1
  cases e1
  rw [g2] at e2
  cases e2
  rw [g3] at e3
  cases e3

end Verif

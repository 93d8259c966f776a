import Verif.Lemmas.MmPaths

/-!
# C208: transit paths and park-and-ride paths survive saving and loading
-/

namespace Verif
open Text Graph Io MmPt

/-- C208: for every transit network (parallel links allowed) and every table of transit paths that are walks between
their ends, writing the table and reading the file back succeeds and gives the same paths. -/
theorem C208_transit_paths (g : G) (t : Tab PathRec) (h : ∀ o ∈ t, ∀ d ∈ o.2, ∀ p ∈ d.2, BusOk g o.1 d.1 p)
    (hne : rowsOfTab t ≠ []) :
    ∃ text t', saveBus t = .ok text ∧ loadBus g (rowsOfTab t).length (some text) = .ok (some t') ∧
      SamePaths (fun p => (p.nodes, p.links)) (·.id) t t' := by
  have hrow : ∀ q ∈ rowsOfTab t, BusOk g q.1 q.2.1 q.2.2 := by
    intro q hq
    obtain ⟨o, ho, d, hd, p, hp, rfl⟩ := MmPt.mem_rows hq
    exact h o ho d hd p hp
  have hsave : saveBus t = .ok (busHeader ++ textOf ((rowsOfTab t).map busWords)) :=
    save_fold busLine busWords _ _ fun q hq => busLine_eq q (hrow q hq).long
  have hrows : ∀ ws ∈ (rowsOfTab t).map busWords, RowOk ws := by
    intro ws hws
    obtain ⟨q, _, rfl⟩ := List.mem_map.1 hws
    exact rowOk_ints _ _
  obtain ⟨s', e1, e2⟩ := push_fold (fun k (p : PathRec) => ⟨k, p.nodes, p.links⟩) (fun s : St PathRec => s) (busRow g)
    (fun q => lineOf (busWords q)) (rowsOfTab t) ⟨fun _ _ => none, 0⟩
    (fun q hq s => ⟨_, busRow_eq (hrow q hq) s, rfl⟩)
  refine ⟨_, s'.table, hsave, ?_, same_of_picks (num := fun k p => ⟨k, p.nodes, p.links⟩) (fun _ _ => rfl) (fun _ _ => rfl) t
    s'.table fun o d => by rw [e2 o d]; simp⟩
  have hpos : 0 < (rowsOfTab t).length := List.length_pos_iff.2 hne
  unfold loadBus
  rw [if_neg (by omega)]
  simp only [Int.toNat_natCast]
  have hl := lineLoop_file (busRow g) busHeader (by decide +kernel) (by decide +kernel) ((rowsOfTab t).map busWords) hrows
    ⟨fun _ _ => none, 0⟩
  rw [List.length_map, List.map_map] at hl
  rw [hl, show lineOf ∘ busWords = fun q => lineOf (busWords q) from rfl, e1]
  rfl

/-- Nodes 1, 2, 3; links 20 and 21 from 1 to 2 and 22 from 2 to 3. -/
def mpRide : G := run empty [.addNode 1, .addNode 2, .addNode 3, .addLink 1 2 20, .addLink 1 2 21, .addLink 2 3 22]

def mpBus : Tab PathRec := [(1, [(3, [⟨7, [1, 2, 3], [20, 22]⟩, ⟨8, [1, 2, 3], [21, 22]⟩]), (2, [⟨3, [1, 2], [21]⟩])])]

private theorem mp20 : getEndpoints mpRide 20 = .ok (1, 2) := by decide +kernel
private theorem mp21 : getEndpoints mpRide 21 = .ok (1, 2) := by decide +kernel
private theorem mp22 : getEndpoints mpRide 22 = .ok (2, 3) := by decide +kernel

theorem mpBusOk : ∀ o ∈ mpBus, ∀ d ∈ o.2, ∀ p ∈ d.2, BusOk mpRide o.1 d.1 p := by
  intro o ho d hd p hp
  simp only [mpBus, List.mem_cons, List.not_mem_nil, or_false] at ho
  subst ho
  simp only [List.mem_cons, List.not_mem_nil, or_false] at hd
  rcases hd with rfl | rfl <;> simp only [List.mem_cons, List.not_mem_nil, or_false] at hp
  · rcases hp with rfl | rfl
    · exact ⟨⟨2, mp20, 3, mp22, rfl⟩, by simp, by simp [Sp.walkNodes, mp20, mp22], by simp [IntOk]⟩
    · exact ⟨⟨2, mp21, 3, mp22, rfl⟩, by simp, by simp [Sp.walkNodes, mp21, mp22], by simp [IntOk]⟩
  · subst hp
    exact ⟨⟨2, mp21, rfl⟩, by simp, by simp [Sp.walkNodes, mp21], by simp [IntOk]⟩

example : rowsOfTab mpBus ≠ [] ∧
    saveBus mpBus = .ok "#OriginNodeID DestNodeID <transit link IDs in MultiGraph>\n1 3 20 22\n1 3 21 22\n1 2 21\n".toList ∧
    ((saveBus mpBus).bind fun text => (loadBus mpRide 3 (some text)).bind fun t => .ok (t.map fun t => (t 1 3, t 1 2, t 2 3))) =
      .ok (some (some [⟨0, [1, 2, 3], [20, 22]⟩, ⟨1, [1, 2, 3], [21, 22]⟩], some [⟨2, [1, 2], [21]⟩], none)) := by
  decide +kernel

/-- C208, part: for every driving network, every transit network and every table of park-and-ride paths whose drives
have no parallel links and are at the destination in the middle only at their ends, writing the table and reading the
file back succeeds and gives the same paths.  What is missing are the other paths: see the theorems below. -/
theorem C208_park_and_ride_paths_partial (ops : List Op) (tg : G) (t : Tab PnrRec)
    (h : ∀ o ∈ t, ∀ d ∈ o.2, ∀ p ∈ d.2, PnrOk (run empty ops) tg o.1 d.1 p) (hne : rowsOfTab t ≠ []) (fuel : ℕ)
    (hf : sizeLinks (run empty ops) < fuel) :
    ∃ text t', savePnr t = .ok text ∧ loadPnr fuel (run empty ops) tg (rowsOfTab t).length (some text) = .ok (some t') ∧
      SamePaths PnrRec.content (·.id) t t' := by
  have hrow : ∀ q ∈ rowsOfTab t, PnrOk (run empty ops) tg q.1 q.2.1 q.2.2 := by
    intro q hq
    obtain ⟨o, ho, d, hd, p, hp, rfl⟩ := MmPt.mem_rows hq
    exact h o ho d hd p hp
  have hsave : savePnr t = .ok (pnrHeader ++ textOf ((rowsOfTab t).map pnrWords)) := by
    refine save_fold pnrLine pnrWords _ _ fun q hq => pnrLine_eq q ?_ (hrow q hq).ride.long
    obtain ⟨r, hr⟩ := walkNodes_head (run empty ops) q.1 q.2.2.driveLinks
    rw [show q.2.2.driveNodes = _ from (hrow q hq).drive.nodes, hr]
    simp
  have hrows : ∀ ws ∈ (rowsOfTab t).map pnrWords, RowOk ws := by
    intro ws hws
    obtain ⟨q, _, rfl⟩ := List.mem_map.1 hws
    exact rowOk_ints _ _
  obtain ⟨s', e1, e2⟩ := push_fold (fun k (p : PnrRec) => { p with id := k }) PnrSt.st (pnrRow fuel (run empty ops) tg)
    (fun q => lineOf (pnrWords q)) (rowsOfTab t) ⟨⟨fun _ _ => none, 0⟩, none, none⟩
    (fun q hq s => pnrRow_eq ops fuel hf (hrow q hq) s)
  refine ⟨_, s'.st.table, hsave, ?_, same_of_picks (num := fun k p => { p with id := k }) (fun _ _ => rfl) (fun _ _ => rfl) t
    s'.st.table fun o d => by rw [e2 o d]; simp⟩
  have hpos : 0 < (rowsOfTab t).length := List.length_pos_iff.2 hne
  unfold loadPnr
  rw [if_neg (by omega)]
  simp only [Int.toNat_natCast]
  have hl := lineLoop_file (pnrRow fuel (run empty ops) tg) pnrHeader (by decide +kernel) (by decide +kernel)
    ((rowsOfTab t).map pnrWords) hrows ⟨⟨fun _ _ => none, 0⟩, none, none⟩
  rw [List.length_map, List.map_map] at hl
  rw [hl, show lineOf ∘ pnrWords = fun q => lineOf (pnrWords q) from rfl, e1]
  rfl

/-- Nodes 5, 6, 1; links 10 from 5 to 6 and 11 from 6 to 1. -/
def mpOps : List Op := [.addNode 5, .addNode 6, .addNode 1, .addLink 5 6 10, .addLink 6 1 11]

def mpPnr : Tab PnrRec := [(5, [(3, [⟨7, 90, 1, [5, 6, 1], [10, 11], [1, 2, 3], [21, 22]⟩])]),
  (6, [(2, [⟨1, 90, 1, [6, 1], [11], [1, 2], [20]⟩])])]

theorem mpPnrOk : ∀ o ∈ mpPnr, ∀ d ∈ o.2, ∀ p ∈ d.2, PnrOk (run empty mpOps) mpRide o.1 d.1 p := by
  have e10 : getEndpoints (run empty mpOps) 10 = .ok (5, 6) := by decide +kernel
  have e11 : getEndpoints (run empty mpOps) 11 = .ok (6, 1) := by decide +kernel
  have only : ∀ l, l ∈ linkIds (run empty mpOps) → l = 10 ∨ l = 11 := by
    have : linkIds (run empty mpOps) = [10, 11] := by decide +kernel
    rw [this]; simp
  have one : ∀ l ∈ ([10, 11] : List ℤ), ∀ l', getEndpoints (run empty mpOps) l' = getEndpoints (run empty mpOps) l → l' = l := by
    intro l hl l' h
    have hin : l' ∈ linkIds (run empty mpOps) := by
      by_contra hn
      rw [(C05_endpoints_unknown mpOps l').1 hn] at h
      simp only [List.mem_cons, List.not_mem_nil, or_false] at hl
      rcases hl with rfl | rfl
      · rw [e10] at h; simp at h
      · rw [e11] at h; simp at h
    simp only [List.mem_cons, List.not_mem_nil, or_false] at hl
    rcases only l' hin with rfl | rfl <;> rcases hl with rfl | rfl <;> first | rfl | (rw [e10, e11] at h; simp at h)
  intro o ho d hd p hp
  simp only [mpPnr, List.mem_cons, List.not_mem_nil, or_false] at ho
  rcases ho with rfl | rfl <;> simp only [List.mem_cons, List.not_mem_nil, or_false] at hd <;> subst hd <;>
    simp only [List.mem_cons, List.not_mem_nil, or_false] at hp <;> subst hp
  · exact ⟨⟨⟨6, e10, 1, e11, rfl⟩, by simp, by simp [Sp.walkNodes, e10, e11], fun l hl => one l (by simpa using hl), by simp [IntOk]⟩,
      by simp, ⟨⟨2, mp21, 3, mp22, rfl⟩, by simp, by simp [Sp.walkNodes, mp21, mp22], by simp [IntOk]⟩, by simp [IntOk]⟩
  · exact ⟨⟨⟨1, e11, rfl⟩, by simp, by simp [Sp.walkNodes, e11], fun l hl => one l (by simp at hl; simp [hl]), by simp [IntOk]⟩,
      by simp, ⟨⟨2, mp20, rfl⟩, by simp, by simp [Sp.walkNodes, mp20], by simp [IntOk]⟩, by simp [IntOk]⟩

example : rowsOfTab mpPnr ≠ [] ∧ sizeLinks (run empty mpOps) < 9 ∧
    (savePnr mpPnr).bind (fun text => .ok (text.drop pnrHeader.length)) = .ok "5 3 90 1 5 6 1 21 22\n6 2 90 1 6 1 20\n".toList ∧
    ((savePnr mpPnr).bind fun text => (loadPnr 9 (run empty mpOps) mpRide 2 (some text)).bind fun t =>
      .ok (t.map fun t => (t 5 3, t 6 2))) =
      .ok (some (some [⟨0, 90, 1, [5, 6, 1], [10, 11], [1, 2, 3], [21, 22]⟩], some [⟨1, 90, 1, [6, 1], [11], [1, 2], [20]⟩])) := by
  decide +kernel

/-- C208 is false for a park-and-ride path whose drive is at the destination in the middle before it ends: the nodes of
the rest of the drive are read as transit links.  Here the drive is 5, 1, 6, 1 and node 6 has the number of a transit
link (of another one there would be an error). -/
theorem C208_false_drive_through_destination :
    ∃ (dops tops : List Op) (t : Tab PnrRec),
      (∀ o ∈ t, ∀ d ∈ o.2, ∀ p ∈ d.2, PathOk (run empty dops) o.1 p.mid ⟨0, p.driveNodes, p.driveLinks⟩ ∧
        BusOk (run empty tops) p.mid d.1 ⟨0, p.rideNodes, p.rideLinks⟩ ∧ IntOk p.lot) ∧
      rowsOfTab t ≠ [] ∧
      ((savePnr t).bind fun text => (loadPnr 20 (run empty dops) (run empty tops) (rowsOfTab t).length (some text)).bind fun t' =>
        .ok (t'.map fun t' => (t' 5 3).map fun ps => ps.map fun p => (p.driveNodes, p.rideLinks))) =
        .ok (some (some [([5, 1], [6, 1, 22])])) ∧
      (pathsFor t 5 3).map (fun p => (p.driveNodes, p.rideLinks)) = [([5, 1, 6, 1], [22])] := by
  refine ⟨[.addNode 5, .addNode 6, .addNode 1, .addLink 5 1 10, .addLink 1 6 11, .addLink 6 1 12],
    [.addNode 1, .addNode 2, .addNode 3, .addLink 1 2 6, .addLink 2 1 1, .addLink 1 3 22],
    [(5, [(3, [⟨0, 90, 1, [5, 1, 6, 1], [10, 11, 12], [1, 3], [22]⟩])])], ?_, by decide, by decide +kernel, by decide +kernel⟩
  set g := run empty [.addNode 5, .addNode 6, .addNode 1, .addLink 5 1 10, .addLink 1 6 11, .addLink 6 1 12] with hg
  have e10 : getEndpoints g 10 = .ok (5, 1) := by rw [hg]; decide +kernel
  have e11 : getEndpoints g 11 = .ok (1, 6) := by rw [hg]; decide +kernel
  have e12 : getEndpoints g 12 = .ok (6, 1) := by rw [hg]; decide +kernel
  have only : ∀ l, l ∈ linkIds g → l = 10 ∨ l = 11 ∨ l = 12 := by
    have : linkIds g = [10, 11, 12] := by rw [hg]; decide +kernel
    rw [this]; simp
  have one : ∀ l ∈ ([10, 11, 12] : List ℤ), ∀ l', getEndpoints g l' = getEndpoints g l → l' = l := by
    intro l hl l' h
    have hin : l' ∈ linkIds g := by
      by_contra hn
      rw [hg] at hn h
      rw [(C05_endpoints_unknown _ l').1 hn, ← hg] at h
      simp only [List.mem_cons, List.not_mem_nil, or_false] at hl
      rcases hl with rfl | rfl | rfl
      · rw [e10] at h; simp at h
      · rw [e11] at h; simp at h
      · rw [e12] at h; simp at h
    simp only [List.mem_cons, List.not_mem_nil, or_false] at hl
    rcases only l' hin with rfl | rfl | rfl <;> rcases hl with rfl | rfl | rfl <;>
      first | rfl | (simp only [e10, e11, e12] at h; simp at h)
  have f22 : getEndpoints (run empty [.addNode 1, .addNode 2, .addNode 3, .addLink 1 2 6, .addLink 2 1 1, .addLink 1 3 22]) 22 =
      .ok (1, 3) := by decide +kernel
  intro o ho d hd p hp
  simp only [List.mem_cons, List.not_mem_nil, or_false] at ho
  subst ho
  simp only [List.mem_cons, List.not_mem_nil, or_false] at hd
  subst hd
  simp only [List.mem_cons, List.not_mem_nil, or_false] at hp
  subst hp
  exact ⟨⟨⟨1, e10, 6, e11, 1, e12, rfl⟩, by simp, by simp [Sp.walkNodes, e10, e11, e12], fun l hl => one l (by simpa using hl),
    by simp [IntOk]⟩, ⟨⟨3, f22, rfl⟩, by simp, by simp [Sp.walkNodes, f22], by simp [IntOk]⟩, by simp [IntOk]⟩

/-- C208: rows with fewer words than a path can have are left out without an error, so a table with a park-and-ride path
that starts where it parks comes back without it. -/
theorem C208_false_short_row (fuel : ℕ) (dg tg : G) (o d lot mid l : ℤ) (s : PnrSt) :
    ∃ line, pnrLine (o, d, ⟨0, lot, mid, [mid], [], [], [l]⟩) = .ok (line ++ ['\n']) ∧ pnrRow fuel dg tg s line = .ok s := by
  refine ⟨_, pnrLine_eq _ (by simp) (by simp), ?_⟩
  unfold pnrRow pnrWords
  rw [split_line (rowOk_ints _ _)]
  rfl

/-- C208: a row with a transit link that the network does not have is an error. -/
theorem C208_unknown_link (ops : List Op) (o d : ℤ) (ls : List ℤ) (s : St PathRec) (ho : IntOk o) (hd : IntOk d)
    (hl : ∀ l ∈ ls, IntOk l) (h : ∃ l ∈ ls, l ∉ linkIds (run empty ops)) :
    ∃ e, busRow (run empty ops) s (lineOf ((o :: d :: ls).map toStr)) = .throw e := by
  have key : ∀ ls : List ℤ, (∃ l ∈ ls, l ∉ linkIds (run empty ops)) → ∃ e, nodesOf (run empty ops) ls = .throw e := by
    have miss : ∀ l, l ∉ linkIds (run empty ops) → ∃ e, getEndpoints (run empty ops) l = .throw e :=
      fun l hl => ⟨_, (C05_endpoints_unknown ops l).1 hl⟩
    intro ls
    induction ls with
    | nil => rintro ⟨l, hl, _⟩; cases hl
    | cons l ls ih =>
      rintro ⟨k, hk, hn⟩
      by_cases hin : l ∈ linkIds (run empty ops)
      · rcases List.mem_cons.1 hk with rfl | hk
        · exact absurd hin hn
        · obtain ⟨f, t, e, _⟩ := (C05_endpoints_unknown ops l).2 hin
          obtain ⟨m, hm⟩ := ih ⟨k, hk, hn⟩
          obtain ⟨a, as, rfl⟩ := List.exists_cons_of_ne_nil (List.ne_nil_of_mem hk)
          exact ⟨m, by rw [nodesOf, e, Res.bind_ok', hm]; rfl⟩
      · obtain ⟨m, hm⟩ := miss l hin
        cases ls with
        | nil => exact ⟨m, by rw [nodesOf, hm]; rfl⟩
        | cons a as => exact ⟨m, by rw [nodesOf, hm]; rfl⟩
  obtain ⟨m, hm⟩ := key ls h
  obtain ⟨k, hk, _⟩ := h
  obtain ⟨a, as, rfl⟩ := List.exists_cons_of_ne_nil (List.ne_nil_of_mem hk)
  have hst := stois_toStr (a :: as) hl
  refine ⟨m, ?_⟩
  unfold busRow
  rw [split_line (rowOk_ints _ _)]
  simp only [List.map_cons] at hst ⊢
  rw [stoi_toStr o ho, Res.bind_ok', stoi_toStr d hd, Res.bind_ok', hst, Res.bind_ok', hm]
  rfl

example : (23 : ℤ) ∉ linkIds mpRide ∧ lineOf (([1, 3, 20, 23] : List ℤ).map toStr) = "1 3 20 23".toList := by
  decide +kernel

end Verif

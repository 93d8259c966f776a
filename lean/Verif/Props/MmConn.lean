import Verif.Lemmas.MmConn

/-!
# C190, C191: the car parks of destinations, the check of transit and the connectivity by mode

`x.drive` and `x.transit` are the graphs of driving and of bus and walking links; `Good` says that they were built by calls
of the graph's interface, that origins, destinations and car parks are nodes of the driving graph (origins are no other
kind) and that links have positive numbers.  `Reach` is a way in a graph, `Rides` and `Possible` are built on it
(`Spec/MmConn.lean`).
-/

namespace Verif
open Graph Sp Path MmConn

/-! ## C190 -/

open Classical in
/-- C190: the car parks that a destination gets are, in their order, those from which it can be reached by transit;
they are appended to what the destination already has. -/
theorem C190_lots {x : Net} {ops1 ops2 : List Op} (h : Good x ops1 ops2) (hn : x.dests.Nodup) (v : ℤ → List ℤ) :
    ∃ v', (∃ N, ∀ n ≥ N, findLots n x v = .ok v') ∧
      (∀ d ∈ x.dests, v' d = v d ++ x.lots.filter fun p => decide (Rides x p d)) ∧ ∀ d ∉ x.dests, v' d = v d := by
  rcases findLots_spec (T := fun _ => False) h hn v with ⟨v', h1, h2⟩ | ⟨_, hf, _⟩
  · refine ⟨v', h2, fun d hd => ?_, fun d hd => ?_⟩
    · rw [h1]
      simp [hd]
    · rw [h1]
      simp [hd]
  · exact hf.elim

/-- C190, what is proved of the check: with the car parks that were found and if every destination with demand is in the
transit graph, the check succeeds exactly if every pair with bus demand has a way by transit and every destination with
park-and-ride demand has a car park from which it can be reached by transit.  Missing: the way by car to the car park,
and destinations that are not in the transit graph. -/
theorem C190_check_partial {x : Net} {ops1 ops2 : List Op} (h : Good x ops1 ops2) (bus pnr : ℤ → ℤ → Bool)
    (lots : ℤ → List ℤ) (hl : ∀ d ∈ x.dests, ∀ p, p ∈ lots d ↔ p ∈ x.lots ∧ Rides x p d)
    (hin : ∀ o ∈ x.origins, ∀ d ∈ x.dests, (bus o d = true ∨ pnr o d = true) → d ∈ nodeIds x.transit) :
    ∃ b, (∃ N, ∀ n ≥ N, checkTransit n x bus pnr lots = .ok b) ∧
      (b = true ↔ ∀ o ∈ x.origins, ∀ d ∈ x.dests, (bus o d = true → Possible x .transit o d) ∧
        (pnr o d = true → ∃ p ∈ x.lots, Rides x p d)) := by
  rcases checkDests_spec (T := fun _ => False) h bus pnr lots x.dests fun _ hd => hd with ⟨b, h1, h2⟩ | ⟨_, hf, _⟩
  · refine ⟨b, h2, h1.trans ⟨fun g o ho d hd => ⟨fun hb => ?_, fun hp => ?_⟩, fun g d hd hdt o ho => ⟨fun hb => ?_, fun hp => ?_⟩⟩⟩
    · have hdt := hin o ho d hd (Or.inl hb)
      have := (g d hd hdt o ho).1 hb
      exact ⟨this.1, hdt, this.2⟩
    · have hdt := hin o ho d hd (Or.inr hp)
      obtain ⟨p, hp⟩ := List.exists_mem_of_ne_nil _ ((g d hd hdt o ho).2 hp)
      exact ⟨p, (hl d hd p).1 hp⟩
    · have := (g o ho d hd).1 hb
      exact ⟨this.1, this.2.2⟩
    · obtain ⟨p, hp⟩ := (g o ho d hd).2 hp
      exact List.ne_nil_of_mem ((hl d hd p).2 hp)
  · exact hf.elim

/-- C190 is false of the check when destinations are not in the transit graph: if none is, the check succeeds whatever
the demand. -/
theorem C190_false_outside (x : Net) (n : ℕ) (bus pnr : ℤ → ℤ → Bool) (lots : ℤ → List ℤ)
    (h : ∀ d ∈ x.dests, d ∉ nodeIds x.transit) : checkTransit n x bus pnr lots = .ok true := by
  have : ∀ ds : List ℤ, (∀ d ∈ ds, d ∈ x.dests) → checkDests n x bus pnr lots ds = .ok true := by
    intro ds
    induction ds with
    | nil => intro _; rfl
    | cons d ds ih =>
      intro hs
      rw [checkDests, if_neg (h d (hs d (by simp)))]
      exact ih fun e he => hs e (by simp [he])
  exact this x.dests fun _ hd => hd

/-! ## C191 -/

/-- C191: if every pair with demand can be served by a configured mode, the map that is made has an entry for exactly the
pairs with demand, and in it a flag for exactly the configured modes, which is set exactly if the mode is possible. -/
theorem C191_right {x : Net} {ops1 ops2 : List Op} (h : Good x ops1 ops2) (hn : x.dests.Nodup) (modes : List Mode)
    (demand : ℤ → ℤ → Bool)
    (hall : ∀ o ∈ x.origins, ∀ d ∈ x.dests, demand o d = true → ∃ m ∈ modes, Possible x m o d) :
    ∃ c, (∃ N, ∀ n ≥ N, connectivity n x modes demand = .ok c) ∧ Right x modes demand c := by
  rcases connectivity_spec h hn modes demand with ⟨c, h1, h2⟩ | ⟨m, ⟨_, o, ho, d, hd, hdem, hno⟩, _⟩
  · refine ⟨c, h2, fun o d => ⟨fun hS => ?_, fun hS => ?_⟩⟩
    · refine ⟨flagsOf x modes o d, by rw [h1.1]; simp [connOf, hS], fun m => ⟨fun hm => ?_, fun hm => ?_⟩⟩
      · simp [flagsOf, hm]
      · simp [flagsOf, hm]
    · rw [h1.1, connOf, if_neg hS]
  · obtain ⟨m, hm, hp⟩ := hall o ho d hd hdem
    exact (hno m hm hp).elim

/-- C191: if some pair with demand can be served by no configured mode, an exception is raised. -/
theorem C191_cut {x : Net} {ops1 ops2 : List Op} (h : Good x ops1 ops2) (hn : x.dests.Nodup) (modes : List Mode)
    (demand : ℤ → ℤ → Bool) {o d : ℤ} (ho : o ∈ x.origins) (hd : d ∈ x.dests) (hdem : demand o d = true)
    (hno : ∀ m ∈ modes, ¬ Possible x m o d) :
    ∃ N, ∀ n ≥ N, connectivity n x modes demand = .throw "No mode available for OD" := by
  rcases connectivity_spec h hn modes demand with ⟨c, h1, h2⟩ | ⟨m, ⟨rfl, _⟩, h2⟩
  · obtain ⟨m, hm, hp⟩ := h1.2 o d ⟨ho, hd, hdem⟩
    exact (hno m hm hp).elim
  · exact h2

/-! ## A network -/

namespace MmConnEx

/-- Origin 1 drives to 5 over 3, and to the car park 4; origin 2 can only use transit. -/
def ops1 : List Op :=
  [.addNode 1, .addNode 2, .addNode 3, .addNode 4, .addNode 5, .addNode 6, .addLink 1 3 1, .addLink 3 4 2, .addLink 3 5 3]

/-- By transit 5 is reached from 4 and 2. -/
def ops2 : List Op := [.addNode 2, .addNode 4, .addNode 5, .addLink 4 5 10, .addLink 2 5 11]

def net : Net := { drive := run empty ops1, transit := run empty ops2, origins := [1, 2], dests := [5], lots := [3, 4] }

def all : List Mode := [.driving, .transit, .pnr]

theorem good : Good net ops1 ops2 where
  drive := rfl
  transit := rfl
  origins := by decide +kernel
  dests := by decide +kernel
  lots := by decide +kernel
  apartD := by decide +kernel
  apartL := by decide +kernel
  posD := by decide +kernel
  posT := by decide +kernel

/-- The lots of the destination and the flags of both pairs. -/
example : ((findLots 20 net fun _ => [9]).bind fun v => Res.ok (v 5, v 1)) = .ok ([9, 4], [9]) := by decide +kernel

example : ((connectivity 20 net all fun _ _ => true).bind fun c =>
    Res.ok ((c 1 5).map fun f => all.map f, (c 2 5).map fun f => all.map f, (c 1 6).isSome)) =
    .ok (some [some true, some false, some true], some [some false, some true, some false], false) := by
  decide +kernel

/-- Both pairs can be served by some mode, but not both by driving. -/
theorem served : ∀ o ∈ net.origins, ∀ d ∈ net.dests, true = true → ∃ m ∈ all, Possible net m o d := by
  intro o ho d hd _
  obtain rfl : d = 5 := by simpa [net] using hd
  obtain rfl | rfl : o = 1 ∨ o = 2 := by simpa [net] using ho
  · exact ⟨.driving, by decide, [1, 3], 3, by decide +kernel, 5, by decide +kernel, rfl⟩
  · exact ⟨.transit, by decide, by decide +kernel, by decide +kernel, [11], 5, by decide +kernel, rfl⟩

example : ∃ c, (∃ N, ∀ n ≥ N, connectivity n net all (fun _ _ => true) = .ok c) ∧ Right net all (fun _ _ => true) c :=
  C191_right good (by decide) all _ served

example : (connectivity 20 net [.driving] fun _ _ => true).isOk = false := by decide +kernel

example : ((findLots 20 net fun _ => []).bind fun v => checkTransit 20 net (fun o _ => o == 2) (fun o _ => o == 1) v) =
    .ok true := by decide +kernel

example : ((findLots 20 net fun _ => []).bind fun v => checkTransit 20 net (fun o _ => o == 1) (fun o _ => o == 1) v) =
    .ok false := by decide +kernel

/-- The same network with a transit link of number 0. -/
def zero : Net := { net with transit := run empty [.addNode 2, .addNode 4, .addNode 5, .addLink 4 5 0, .addLink 2 5 11] }

/-- The same network with origin 2 only, which no road leaves. -/
def far : Net := { net with origins := [2] }

end MmConnEx

/-- C190 and C191 are false of links with number 0, which are allowed: the destination can be reached by transit from the
car park, but the car park is not found and the flag of park-and-ride is not set. -/
theorem C190_false_number_zero :
    Possible MmConnEx.zero .pnr 1 5 ∧
      ((findLots 20 MmConnEx.zero fun _ => []).bind fun v => Res.ok (v 5)) = .ok [] ∧
      ((connectivity 20 MmConnEx.zero MmConnEx.all fun _ _ => true).bind fun c =>
        Res.ok ((c 1 5).map fun f => f .pnr)) = .ok (some (some false)) := by
  refine ⟨⟨4, by decide, ⟨[1, 2], 3, by decide +kernel, 4, by decide +kernel, rfl⟩, by decide, by decide +kernel, by decide +kernel, [0], 5, ?_, rfl⟩, ?_, ?_⟩
  · decide +kernel
  · decide +kernel
  · decide +kernel

/-- C190 is false of the check for park-and-ride: it succeeds although no car park can be reached by car. -/
theorem C190_false_pnr :
    (∀ ls, ¬ Walk MmConnEx.far.drive 2 ls 4) ∧
      ((findLots 20 MmConnEx.far fun _ => []).bind fun v => Res.ok (v 5)) = .ok [4] ∧
      ((findLots 20 MmConnEx.far fun _ => []).bind fun v =>
        checkTransit 20 MmConnEx.far (fun _ _ => false) (fun _ _ => true) v) = .ok true := by
  refine ⟨?_, by decide +kernel, by decide +kernel⟩
  intro ls h
  cases ls with
  | nil => exact absurd (show (2 : ℤ) = 4 from h) (by decide)
  | cons l ls =>
    obtain ⟨t, e, -⟩ := h
    have hl := mem_of_ends MmConnEx.ops1 e (by decide +kernel)
    have hnone : ∀ l ∈ linkIds (run empty MmConnEx.ops1),
        ((getEndpoints (run empty MmConnEx.ops1) l).bind fun p => Res.ok p.1) ≠ .ok 2 := by decide +kernel
    refine hnone l hl ?_
    change ((getEndpoints MmConnEx.far.drive l).bind fun p => Res.ok p.1) = _
    rw [e]
    rfl

end Verif

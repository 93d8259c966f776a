import Verif.Lemmas.Spill
import Verif.Props.Record

/-! # C152: what the spillback indicator says -/

namespace Verif
open Ults Curve MNet Rec Spill

/-! ## C152 -/

namespace SpillEx

/-- Attributes of links: the middle link counts a truck as `f` cars, the last link lets little through. -/
def args (f : ℚ) (l : ℕ) : MLnk.Args :=
  if l = 12 then { MNetEx.mAt with capCar := 1 / 40, capTruck := 1 / 40 }
  else if l = 11 then { MNetEx.mAt with factor := f }
  else MNetEx.mAt

/-- The middle link is a cell transmission link, the others are point queues. -/
def kind (l : ℕ) : MLnk.Kind := if l = 11 then .ctm else .pq

/-- The network of C01 for two classes, with more demand. -/
def cfg : MNet.Cfg where
  net :=
    { scalar := 4
      assignFreq := 3
      totalAssign := 4
      linkIds := [10, 11, 12]
      nodeIds := [1, 2, 3, 4]
      node := fun n => if n = 1 then .origin [10] else if n = 2 then .fwj [10] [11] else
        if n = 3 then .fwj [11] [12] else .dest [12]
      toNode := fun l => if l = 10 then 2 else if l = 11 then 3 else 4
      outLinks := fun n => if n = 1 then [10] else if n = 2 then [11] else if n = 3 then [12] else []
      originIds := [100]
      origin := fun _ => ⟨1, 3, [], fun _ => none, []⟩
      destIds := [200]
      destNode := fun _ => 4 }
  factor := 2
  dem _ := ⟨[(200, fun _ => 8 / 4)], [(200, fun _ => 4 / 4)], fun _ => none, fun _ => none, [], []⟩
  attrs _ := []

/-- A new link. -/
def mk (f : ℚ) (l : ℕ) : MLnk.Link ℕ :=
  match (MLnk.mkLink (kind l) (args f l) : Res (MLnk.Link ℕ)) with
  | .ok x => x
  | _ => .pq ⟨args f l, 1, [], 0, 0, .empty⟩

/-- Links with all curves. -/
def links (f : ℚ) (l : ℕ) : MNet.LinkSt := ⟨mk f l, some install, some install, some install, some install⟩

/-- A loading of some intervals. -/
def run (f : ℚ) (n : ℕ) : Res (State × ℕ × ℕ) := loadMany cfg (List.replicate n MNetEx.orc) 0 0 (State.init (links f))

theorem cfg_ok : cfg.net.Ok := by
  refine ⟨by decide, by decide, ?_, ?_, ?_, ?_⟩
  · intro n hn
    have h : n = 1 ∨ n = 2 ∨ n = 3 ∨ n = 4 := by simpa [cfg] using hn
    rcases h with rfl | rfl | rfl | rfl <;> simp [cfg, Net.Node.ins]
  · intro n hn
    have h : n = 1 ∨ n = 2 ∨ n = 3 ∨ n = 4 := by simpa [cfg] using hn
    rcases h with rfl | rfl | rfl | rfl <;> simp [cfg, Net.Node.outs]
  · intro o _; simp [cfg]
  · intro d _; simp [cfg]

theorem orc_ok : MNetEx.orc.Ok cfg := by
  refine ⟨?_, ?_⟩
  · intro _ l; exact List.reverse_perm l
  · intro n k
    by_cases h : n = 1
    · subst h; simp [MNetEx.orc, cfg, Net.Node.ins]
    · by_cases h2 : n = 2
      · subst h2; simp [MNetEx.orc, cfg, Net.Node.ins, List.range_succ]
      · by_cases h3 : n = 3
        · subst h3; simp [MNetEx.orc, cfg, Net.Node.ins, List.range_succ]
        · simp [MNetEx.orc, cfg, Net.Node.ins, h, h2, h3, List.range_succ]

theorem made {f : ℚ} (hf : f = 4 ∨ f = 16 / 5) (l : ℕ) : MLnk.mkLink (kind l) (args f l) = .ok (mk f l) := by
  have h : ∀ f ∈ [(4 : ℚ), 16 / 5], ∀ k ∈ [10, 11, 12],
      ((MLnk.mkLink (kind k) (args f k) : Res (MLnk.Link ℕ)).bind fun _ => .ok ()) = .ok () := by decide +kernel
  have hk : ∃ k ∈ [10, 11, 12], kind l = kind k ∧ args f l = args f k := by
    by_cases h1 : l = 11
    · exact ⟨11, by simp, by rw [h1], by rw [h1]⟩
    · by_cases h2 : l = 12
      · exact ⟨12, by simp, by rw [h2], by rw [h2]⟩
      · exact ⟨10, by simp, by simp [kind, h1], by simp [args, h1, h2]⟩
  obtain ⟨k, hk, e1, e2⟩ := hk
  have h := h f (by rcases hf with rfl | rfl <;> simp) k hk
  rw [Res.bind_eq_ok'] at h
  obtain ⟨x, hx, _⟩ := h
  unfold mk
  rw [e1, e2, hx]

theorem fresh {f : ℚ} (hf : f = 4 ∨ f = 16 / 5) : Fresh (State.init (links f)) :=
  ⟨links f, rfl, fun l => ⟨⟨kind l, args f l, made hf l⟩, fun b => Or.inr (by cases b <;> exact ⟨rfl, rfl⟩)⟩⟩

end SpillEx

/-- C152: after every loading `get_link_spillback` returns 0 or 1 for each registered link, in the order of
registration.  It is 1 only if at the end of some interval the link held more vehicles, in car equivalents, than its
jam density allows, it is never 1 for a point queue, and if the link counts a truck as a whole number of cars it is 1
whenever there was such an interval. -/
theorem C152_spillback (c : Cfg) (hc : c.net.Ok) (hsc : c.net.scalar ≠ 0) (s : State) (hs : Fresh s)
    (os : List StepOracle) (hos : ∀ o ∈ os, o.Ok c) (assign : ℕ) (r : State × ℕ × ℕ)
    (hr : loadMany c os 0 assign s = .ok r) (regs : List ℕ) (hregs : ∀ l ∈ regs, l ∈ c.net.linkIds) :
    (linkSpillback r.1 regs).length = regs.length ∧
    ∀ (i l : ℕ), regs[i]? = some l → ∃ b, (linkSpillback r.1 regs)[i]? = some b ∧ (b = 0 ∨ b = 1) ∧
      (pointQueue (s.links l).link → b = 0) ∧
      (b = 1 → ∃ t < os.length, ∃ after, loadMany c (os.take (t + 1)) 0 assign s = .ok after ∧ Overfull after.1 l) ∧
      (¬ pointQueue (s.links l).link → (∃ k : ℕ, (attrs (s.links l).link).factor = k) →
        (b = 1 ↔ ∃ t < os.length, ∃ after, loadMany c (os.take (t + 1)) 0 assign s = .ok after ∧
          Overfull after.1 l)) := by
  refine ⟨by simp [linkSpillback], ?_⟩
  intro i l hl
  obtain ⟨I, _⟩ := run_flag hc hsc hs os hos r hr
  obtain ⟨_, _, _, i4, i5, i6⟩ := I l (hregs l (List.mem_of_getElem? hl))
  have e : isSpillback r.1 l = 1 ↔ (r.1.links l).link.com.spill = true := by
    unfold isSpillback
    split <;> simp_all
  refine ⟨isSpillback r.1 l, by simp [linkSpillback, hl], ?_, ?_, ?_, ?_⟩
  · unfold isSpillback; split <;> simp
  · intro hp
    unfold isSpillback
    rw [i4 hp]; rfl
  · exact fun h => i5 (e.1 h)
  · exact fun hp hk => ⟨fun h => i5 (e.1 h), fun h => e.2 (i6 hp hk h)⟩

/-- The hypotheses hold of the network of the example, with whole and with fractional factor. -/
example : SpillEx.cfg.net.Ok ∧ SpillEx.cfg.net.scalar ≠ 0 ∧ Fresh (State.init (SpillEx.links 4)) ∧
    (∀ o ∈ List.replicate 12 MNetEx.orc, o.Ok SpillEx.cfg) := by
  refine ⟨SpillEx.cfg_ok, by decide, SpillEx.fresh (.inl rfl), ?_⟩
  intro o ho
  rw [List.eq_of_mem_replicate ho]
  exact SpillEx.orc_ok

instance (s : State) (l : ℕ) : Decidable (Overfull s l) := by unfold Overfull; infer_instance

/-- What the example shows of a loading: the indicators of the three links and the volumes of the middle link. -/
def SpillEx.show' (f : ℚ) (n : ℕ) : Option (List ℤ × ℚ) :=
  match SpillEx.run f n with
  | .ok r => some (linkSpillback r.1 [10, 11, 12], volume r.1 11)
  | _ => none

/-- A truck counts as four cars.  The middle link may hold 30 m × 0.1 cars/m × 4 = 12 car equivalents.  After eight
intervals it holds ten, after twelve sixteen, and after thirteen its indicator is still 1. -/
example : SpillEx.show' 4 8 = some ([0, 0, 0], 10) ∧ SpillEx.show' 4 12 = some ([0, 1, 0], 16) ∧
    SpillEx.show' 4 13 = some ([0, 1, 0], 14) := by decide +kernel

/-- C152: with a conversion factor that is not a whole number the count is cut to whole cars after each cell, and
spillback can go unnoticed: a truck counts as 3.2 cars, after twelve intervals the middle link holds four trucks, 12.8
car equivalents where 12 are allowed, and its indicator is 0. -/
theorem C152_fractional_factor : ∃ (c : Cfg) (s : State) (os : List StepOracle) (r : State × ℕ × ℕ),
    c.net.Ok ∧ c.net.scalar ≠ 0 ∧ Fresh s ∧ (∀ o ∈ os, o.Ok c) ∧ loadMany c os 0 0 s = .ok r ∧
    11 ∈ c.net.linkIds ∧ Overfull r.1 11 ∧ linkSpillback r.1 [11] = [0] := by
  have h : (match SpillEx.run (16 / 5) 12 with
    | .ok r => decide (linkSpillback r.1 [11] = [0]) && decide (Overfull r.1 11)
    | _ => false) = true := by decide +kernel
  cases e : SpillEx.run (16 / 5) 12 with
  | ok r =>
    rw [e] at h
    simp only [Bool.and_eq_true, decide_eq_true_eq] at h
    refine ⟨SpillEx.cfg, _, _, r, SpillEx.cfg_ok, by decide, SpillEx.fresh (.inr rfl), ?_, e, by decide, h.2, h.1⟩
    intro o ho
    rw [List.eq_of_mem_replicate ho]
    exact SpillEx.orc_ok
  | throw m => rw [e] at h; simp at h
  | ub => rw [e] at h; simp at h
  | diverge => rw [e] at h; simp at h

end Verif

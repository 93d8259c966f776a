import Verif.Model.Realtime
import Mathlib.Data.List.Forall2
import Mathlib.Data.List.Nodup

/-!
# What the real-time loading should do

Specifications of C172-C182, apart from the model's own functions.
-/

namespace Verif.Rt
open Lnk

/-- All vehicles on a link. -/
def onLink (l : Link Veh) : List Veh := l.finished ++ l.incoming ++ l.travelling

/-- All vehicles on the links of a network. -/
def onLinks (s : Shot) : List Veh := s.links.flatMap fun l => onLink l.2

/-- A vehicle that knows its link, its next link, its ends and its way. -/
def Complete (s : Shot) (v : Veh) : Prop :=
  (∃ c ∈ s.links.map Prod.fst, v.cur = some c) ∧ (∃ x ∈ s.links.map Prod.fst, v.next = some x) ∧
    v.dest ∈ s.dests ∧ v.origin ∈ s.origins ∧ ∃ ls, s.tracker v.id = some ls

instance (s : Shot) (v : Veh) : Decidable (Complete s v) :=
  decidable_of_iff
    (((s.links.map Prod.fst).any fun c => decide (v.cur = some c)) = true ∧
      ((s.links.map Prod.fst).any fun c => decide (v.next = some c)) = true ∧
      v.dest ∈ s.dests ∧ v.origin ∈ s.origins ∧ (s.tracker v.id).isSome = true)
    (by simp only [Complete, List.any_eq_true, decide_eq_true_eq, Option.isSome_iff_exists])

/-- Vehicle `w` of `s'` stands for `v` of `s`: the same release, kind, place, next link, origin and destination, and
the same links left to drive. -/
def Same (s s' : Shot) (v w : Veh) : Prop :=
  w.start = v.start ∧ w.adaptive = v.adaptive ∧ w.cur = v.cur ∧ w.next = v.next ∧ w.origin = v.origin ∧
    w.dest = v.dest ∧ s'.tracker w.id = s.tracker v.id

/-- Link `b` has the parameters of `a`, and its vehicles stand in the same places in the same order. -/
def CopyOf (R : Veh → Veh → Prop) : Link Veh → Link Veh → Prop
  | .pq a, .pq b =>
    (a.lanes, a.length, a.ffs, a.hold, a.cap) = (b.lanes, b.length, b.ffs, b.hold, b.cap) ∧
      (a.scalar, a.unit, a.maxStamp) = (b.scalar, b.unit, b.maxStamp) ∧
      List.Forall₂ R a.finished b.finished ∧ List.Forall₂ R a.incoming b.incoming ∧
      List.Forall₂ (fun x y => R x.1 y.1 ∧ x.2 = y.2) a.queue b.queue
  | .ctm a, .ctm b =>
    (a.lanes, a.length, a.ffs, a.hold, a.cap) = (b.lanes, b.length, b.ffs, b.hold, b.cap) ∧
      (a.scalar, a.numCells) = (b.scalar, b.numCells) ∧
      List.Forall₂ R a.finished b.finished ∧ List.Forall₂ R a.incoming b.incoming ∧
      List.Forall₂ (fun x y : Cell Veh => (x.hold, x.cap, x.scalar, x.wave) = (y.hold, y.cap, y.scalar, y.wave) ∧
        List.Forall₂ R x.queue y.queue) a.cells b.cells
  | _, _ => False

/-- Point queues and cell transmission links. -/
def Copied : Link Veh → Bool
  | .pq _ => true
  | .ctm _ => true
  | _ => false

/-- Portions: not negative and one in total. -/
def Portions (ps : List Pth) : Prop := (∀ P ∈ ps, 0 ≤ P.p) ∧ (ps.map Pth.p).sum = 1

/-- The portions of every pair of nodes with paths. -/
def AllPortions (tbl : List Od) : Prop := ∀ e ∈ tbl, e.paths ≠ [] → Portions e.paths

/-- The path with number `ij.2` of the pair with number `ij.1`. -/
def At (tbl : List Od) (ij : ℕ × ℕ) (P : Pth) : Prop := ∃ e, tbl[ij.1]? = some e ∧ e.paths[ij.2]? = some P

/-- What an alternative of a sign gains with the best portions: over its paths, demand times the difference of the best
and the real portion. -/
def gain (D : ℤ → ℤ → ℚ) (tbl : List Od) (ijs : List (ℕ × ℕ)) : ℚ :=
  (ijs.map fun ij =>
    match (tbl[ij.1]?).bind fun e => e.paths[ij.2]? with
    | some P => (P.best - P.real) * D (P.nodes.headD 0) (P.nodes.getLastD 0)
    | none => 0).sum

/-- The demand is known and every path listed has nodes. -/
def Known (dem : ℤ → ℤ → Res ℚ) (D : ℤ → ℤ → ℚ) (tbl : List Od) (ijs : List (ℕ × ℕ)) : Prop :=
  ∀ ij ∈ ijs, ∃ P, At tbl ij P ∧ P.nodes ≠ [] ∧
    dem (P.nodes.headD 0) (P.nodes.getLastD 0) = .ok (D (P.nodes.headD 0) (P.nodes.getLastD 0))

/-- The calls that change a sign. -/
inductive SignCall where
  | ratio (dem : ℤ → ℤ → Res ℚ) (tbl : List Od)
  | detour (dem : ℤ → ℤ → Res ℚ) (tbl : List Od)

/-- One call. -/
def SignCall.run (s : Sign) : SignCall → Res Sign
  | .ratio dem tbl => updateRatio dem tbl s
  | .detour dem tbl => makeDetour dem tbl s

/-- The vehicles met at the entrances of links, in order, with the time. -/
def met (h : List (ℤ × List Seen)) : List (ℤ × Seen) := h.flatMap fun e => e.2.map fun v => (e.1, v)

/-- The last meeting of vehicle `v` in a list. -/
def lastMet (v : ℕ) (h : List (ℤ × Seen)) : Option (ℤ × Seen) := (h.filter fun e => e.2.id = v).getLast?

/-- The times vehicles took for link `l`: from being met at `l` to being met at the next link, `unit` seconds an
interval; the first list holds the meetings so far, the second those to come. -/
def measured (unit : ℚ) (l : ℤ) : List (ℤ × Seen) → List (ℤ × Seen) → List ℚ
  | _, [] => []
  | past, e :: r =>
    (match lastMet e.2.id past with
      | some f => if f.2.link = l then [((e.1 - f.1 : ℤ) : ℚ) * unit] else []
      | none => []) ++ measured unit l (past ++ [e]) r

/-- No vehicle is met twice in a row at the same link. -/
def Moves : List (ℤ × Seen) → List (ℤ × Seen) → Prop
  | _, [] => True
  | past, e :: r => (∀ f, lastMet e.2.id past = some f → f.2.link ≠ e.2.link) ∧ Moves (past ++ [e]) r

/-- Links hang at the nodes where the graph has them start and end, once, and nothing else hangs there. -/
def Hooked (n : Net) : Prop :=
  (∀ l ∈ n.links, ∃ e, n.ends l = some e ∧ l ∈ n.outs e.1 ∧ l ∈ n.ins e.2) ∧
    (∀ v, (n.outs v).Nodup ∧ (n.ins v).Nodup) ∧
    (∀ v, ∀ l ∈ n.outs v, ∃ b, n.ends l = some (v, b)) ∧ ∀ v, ∀ l ∈ n.ins v, ∃ a, n.ends l = some (a, v)

/-- What a sign must show for its detour: roads slower than sixty miles an hour are exits; on faster roads, the travel
time in whole minutes if it is above the time at free flow, a warning otherwise. -/
def Says (roads : ℤ → Option Road) (s : ℤ × Sign) (m : ℤ × Msg) : Prop :=
  m.1 = s.1 ∧ ∃ r, roads s.2.detour = some r ∧
    (r.ffs < 80 / 3 → m.2 = .exit s.2.detour) ∧
    (80 / 3 ≤ r.ffs → r.tt ≤ r.length / r.ffs → m.2 = .care) ∧
    (80 / 3 ≤ r.ffs → r.length / r.ffs < r.tt →
      ∃ k : ℤ, m.2 = .minutes k ∧ 60 * (k : ℚ) ≤ r.tt ∧ r.tt < 60 * ((k : ℚ) + 1))

end Verif.Rt

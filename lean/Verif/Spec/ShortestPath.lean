import Verif.Model.ShortestPath
import Mathlib.Algebra.BigOperators.Group.List.Basic

/-! # What a shortest path is -/

namespace Verif.Sp
open Graph

/-- The links `ls` lead, one after the other, from node `u` to node `v`. -/
def Walk (g : G) : ℤ → List ℤ → ℤ → Prop
  | u, [], v => u = v
  | u, l :: ls, v => ∃ t, getEndpoints g l = .ok (u, t) ∧ Walk g t ls v

/-- The total cost of a sequence of links. -/
def walkCost (w : ℤ → Cost) (ls : List ℤ) : Cost := (ls.map w).sum

/-- `c` is the least total cost of getting from `u` to `v`: no walk is cheaper, and some walk costs
`c`, unless there is no walk (of finite cost) and `c` is infinite. -/
def Least (g : G) (w : ℤ → Cost) (u v : ℤ) (c : Cost) : Prop :=
  (∀ ls, Walk g u ls v → c ≤ walkCost w ls) ∧ (c = ⊤ ∨ ∃ ls, Walk g u ls v ∧ walkCost w ls = c)

/-- The cost map gives every link of the graph its cost `w`, and costs are not negative.  The link
number -1, which the code uses for "no link", is not in the graph. -/
structure Costs (g : G) (cost : ℤ → Option Cost) (w : ℤ → Cost) : Prop where
  some : ∀ l ∈ linkIds g, cost l = some (w l)
  nonneg : ∀ l ∈ linkIds g, 0 ≤ w l
  noLink : -1 ∉ linkIds g

/-- The node sequence of a walk. -/
def walkNodes (g : G) : ℤ → List ℤ → List ℤ
  | u, [] => [u]
  | u, l :: ls =>
    u :: match getEndpoints g l with
      | .ok e => walkNodes g e.2 ls
      | _ => []

end Verif.Sp

namespace Verif.Sp
open Graph

/-! ## Time-dependent costs

Link `l` entered in interval `t` costs `w l t` and takes `τ l t` intervals; there are `M` intervals,
and the last one stands for all later times. -/

/-- Travel times are counted in whole intervals: at least one, and rounded up unless the fraction is
negligible (relative tolerance `1e-4`). -/
def ticks (x : ℚ) : ℕ :=
  if x < 1 then 1
  else if |x - ⌊x⌋| ≤ 1 / 10000 * max |x| |(⌊x⌋ : ℚ)| then ⌊x⌋.toNat
  else ⌊x⌋.toNat + 1

/-- The interval in which a vehicle entering in interval `t` and travelling `x` intervals arrives. -/
def arrive (M t : ℕ) (x : ℚ) : ℕ := min (t + ticks x) (M - 1)

/-- The cost of a sequence of links for a departure in interval `t`. -/
def tdCost (M : ℕ) (w : ℤ → ℕ → Cost) (τ : ℤ → ℕ → ℚ) : ℕ → List ℤ → Cost
  | _, [] => 0
  | t, l :: ls => w l t + tdCost M w τ (arrive M t (τ l t)) ls

/-- The travel time of a sequence of links for a departure in interval `t`. -/
def tdTime (M : ℕ) (τ : ℤ → ℕ → ℚ) : ℕ → List ℤ → ℚ
  | _, [] => 0
  | t, l :: ls => τ l t + tdTime M τ (arrive M t (τ l t)) ls

/-- `c` is the least cost from `u` to `v` for a departure in interval `t`. -/
def TdLeast (g : G) (M : ℕ) (w : ℤ → ℕ → Cost) (τ : ℤ → ℕ → ℚ) (u v : ℤ) (t : ℕ) (c : Cost) : Prop :=
  (∀ ls, Walk g u ls v → c ≤ tdCost M w τ t ls) ∧ (c = ⊤ ∨ ∃ ls, Walk g u ls v ∧ tdCost M w τ t ls = c)

/-- The tables give every link of the graph its cost and travel time in each of the `M` intervals;
costs are not negative and interval numbers stay in the range of `int`. -/
structure Tables (g : G) (M : ℕ) (cost : ℤ → Option (ℕ → Cost)) (tt : ℤ → Option (ℕ → ℚ))
    (w : ℤ → ℕ → Cost) (τ : ℤ → ℕ → ℚ) : Prop where
  cost : ∀ l ∈ linkIds g, cost l = some (w l)
  tt : ∀ l ∈ linkIds g, tt l = some (τ l)
  nonneg : ∀ l ∈ linkIds g, ∀ t < M, 0 ≤ w l t
  range : ∀ l ∈ linkIds g, ∀ t < M, τ l t + M ≤ 2147483646
  noLink : -1 ∉ linkIds g

/-- The links `ls` are the choices of the tree from node `v` in interval `t` on. -/
def Follows (g : G) (M : ℕ) (τ : ℤ → ℕ → ℚ) (tree : ℤ → ℕ → ℤ) : ℤ → ℕ → List ℤ → Prop
  | _, _, [] => True
  | v, t, l :: ls => tree v t = l ∧ ∃ u, getEndpoints g l = .ok (v, u) ∧
      Follows g M τ tree u (arrive M t (τ l t)) ls

/-- Cost of a walk with the costs of its turns, from link `l` to the next link. -/
def turnCost (w : ℤ → Cost) (turn : ℤ → ℤ → Cost) : List ℤ → Cost
  | [] => 0
  | [l] => w l
  | l :: l' :: ls => w l + turn l l' + turnCost w turn (l' :: ls)

end Verif.Sp

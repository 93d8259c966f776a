import Verif.Model.MmPaths

/-!
# Model of `MNM_IO_Multimodal::load_bus_path_table`, `multimodal.cpp:8947-9133`

The paths of buses are in one file and their stops in another one.  `IAssert` and `printf` do nothing.
-/

namespace Verif.MmRt
open Text Graph Io

/-- `multimodal.h` `MNM_BusPath`: `m_path_ID`, `m_node_vec`, `m_link_vec`, `m_busstop_vec`. -/
structure BusRec where
  id : ℕ
  nodes : List ℤ
  links : List ℤ
  stops : List ℤ
deriving DecidableEq

/-- What a virtual stop is told: the nodes of `m_origin` and `m_dest`, and `m_total_bus`. -/
structure Served where
  origin : ℤ
  dest : ℤ
  total : ℤ
deriving DecidableEq

/-- What the reader looks up: the driving network, the kinds of its nodes, `num_release_interval`, `m_flow_scalar` of the
origins, the bus demand of a pair of nodes and a route, and for each stop number whether it is a virtual stop. -/
structure Env where
  g : G
  kind : Store ℤ NodeKind
  num : ℤ
  scalar : ℚ
  demand : ℤ → ℤ → ℤ → Option (List ℚ)
  virtualStop : ℤ → Option Bool

/-- The table so far, the path counter, `_link_ID` (at first not initialised: `none`) and what the stops were told. -/
structure St where
  table : ℤ → ℤ → ℤ → Option BusRec
  counter : ℕ
  last : Option ℤ
  served : ℤ → Option Served

/-- `round` of the C library: to the nearest whole number, halves away from 0. -/
def roundC (x : ℚ) : ℤ := if 0 ≤ x then ⌊x + 1 / 2⌋ else ⌈x - 1 / 2⌉

/-- `multimodal.cpp:9024-9029`. -/
def sumDemand (scalar : ℚ) (v : List ℚ) : ℚ := (v.map fun x => (⌊x * scalar⌋ : ℚ) / scalar).sum

/-- `multimodal.cpp:9008-9031`; `none` when the totals are not asked for.  A node that is not an origin (destination) and
a missing demand are undefined. -/
def total (E : Env) (o d r : ℤ) : Res (Option ℤ) :=
  if E.num ≤ 0 then .ok none
  else match E.kind.get o with
    | none => .throw "No such node"
    | some ko =>
      if ko ≠ .origin then .ub
      else match E.kind.get d with
        | none => .throw "No such node"
        | some kd =>
          if kd ≠ .dest then .ub
          else match E.demand o d r with
            | none => .ub
            | some v => if v.length < E.num.toNat then .ub else .ok (some (roundC (sumDemand E.scalar (v.take E.num.toNat))))

/-- `multimodal.cpp:9072-9093`: the stops of the route, which are told the ends of the route and its total. -/
def readStops (E : Env) (o d : ℤ) (tot : Option ℤ) : (ℤ → Option Served) → List Str → Res (List ℤ × (ℤ → Option Served))
  | f, [] => .ok ([], f)
  | f, w :: ws =>
    (stoi w).bind fun k =>
      match tot with
      | none => (readStops E o d none f ws).bind fun r => .ok (k :: r.1, r.2)
      | some n =>
        match E.virtualStop k with
        | none => .throw "No such bus stop"
        | some false => .ub
        | some true => (readStops E o d (some n) (upd f k (some ⟨o, d, n⟩)) ws).bind fun r => .ok (k :: r.1, r.2)

/-- `multimodal.cpp:9002-9117`, one line of each file.  Without nodes, the number of nodes minus one is huge and the loop
over the links reads outside of the vector. -/
def row (fuel : ℕ) (E : Env) (s : St) (pl rl : Str) : Res St :=
  match split pl ' ', split rl ' ' with
  | w0 :: w1 :: w2 :: ws, _ :: _ :: _ :: vs =>
    (stoi w0).bind fun o => (stoi w1).bind fun d => (stoi w2).bind fun r =>
      (total E o d r).bind fun tot =>
        match s.table o d r with
        | some _ => .ok s
        | none =>
          (stois ws).bind fun ns =>
            (readStops E o d tot s.served vs).bind fun q =>
              if ns = [] then .ub
              else (findLinks fuel E.g s.last ns).bind fun l =>
                .ok ⟨fun o' d' r' => if o' = o ∧ d' = d ∧ r' = r then some ⟨s.counter, ns, l.1, q.1⟩ else s.table o' d' r',
                  s.counter + 1, l.2, q.2⟩
  | _, _ => .ok s

/-- `multimodal.cpp:8995-9001`: a line of each file at a time. -/
def loop (fuel : ℕ) (E : Env) : ℕ → In → In → St → Res St
  | 0, _, _, s => .ok s
  | n + 1, i, j, s =>
    let i1 := getline i
    let j1 := getline j
    (row fuel E s (trim i1.line) (trim j1.line)).bind fun s' =>
      loop fuel E n { i1 with line := trim i1.line } { j1 with line := trim j1.line } s'

/-- The whole function; `none` for the null pointer. -/
def load (fuel : ℕ) (E : Env) (served : ℤ → Option Served) (num : ℤ) (paths routes : Option Str) : Res (Option St) :=
  if num ≤ 0 then .ok none
  else match paths, routes with
    | some a, some b =>
      (loop fuel E num.toNat (getline (In.open a)) (getline (In.open b)) ⟨fun _ _ _ => none, 0, none, served⟩).bind fun s =>
        .ok (some s)
    | _, _ => .throw "Can't open bus path table file"

end Verif.MmRt

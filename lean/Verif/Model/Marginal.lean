import Verif.Model.Curve
import Verif.Model.Link

/-!
# Model of queue dissipation times and marginal costs

`macposts/_ext/dta.cpp:1041-1050` (congestion marks), `macposts/_ext/dta.cpp:1060-1212`
`get_link_queue_dissipated_time`, `src/dso.cpp:66-282` `get_link_marginal_cost`,
`src/dta_gradient_utls.cpp:448-515` slopes of cumulative curves.  All arrays of a link are taken to be allocated for
this run; texts on the console are left out.
-/

namespace Verif.Marg
open Ults Curve Lnk

variable {V : Type}

/-- The sum of `dta_gradient_utls.cpp:467-472`, `502-507` over the listed `i`. -/
def slopeSum (c : Curve) (start : ℚ) : List ℕ → Res ℚ
  | [] => .ok 0
  | i :: is =>
    (getResult c (start + i)).bind fun a => (getResult c (start + i + 1)).bind fun b =>
      (slopeSum c start is).bind fun r => .ok (b - a + r)

/-- `dta_gradient_utls.cpp:448-481` `get_arrival_cc_slope`, `483-516` `get_departure_cc_slope` on an installed curve;
`none` is a result that is not a number (division by zero). -/
def slope (c : Curve) (start stop : ℚ) : Res (Option ℚ) :=
  (back c).bind fun b =>
    if start > b.1 then .ok (some 0)
    else
      (toInt stop).bind fun e => (toInt start).bind fun s =>
        (slopeSum c start (List.range (e - s).toNat)).bind fun r => .ok (divO r (e - s : ℤ))

/-- A link with its curves. -/
structure DLink (V : Type) where
  link : Link V
  nIn : Curve
  nOut : Curve

/-- The congestion marks of one link, `_ext/dta.cpp:1043-1045`, `dso.cpp:54-56`: the travel times against
`get_link_freeflow_tt_loading`. -/
def marks (f : ℤ) (tt : List ℚ) : List Bool := tt.map fun x : ℚ => decide (x > f)

/-- Reading an array of a link. -/
def rd {α : Type} (xs : List α) (i : ℕ) : Res α :=
  match xs[i]? with
  | none => .ub
  | some x => .ok x

/-- The search of `_ext/dta.cpp:1095-1105`: the first of the listed `k` with `congested[k - 1] && !congested[k]`. -/
def endScan (cong : List Bool) : List ℕ → Res (Option ℕ)
  | [] => .ok none
  | k :: ks =>
    (rd cong (k - 1)).bind fun a =>
      if a then (rd cong k).bind fun b => if b then endScan cong ks else .ok (some k)
      else endScan cong ks

/-- `_ext/dta.cpp:1085-1112`: the end of the congestion, `late` if it does not end. -/
def congEnd (cong : List Bool) (T late i : ℕ) : Res ℕ :=
  if i = T - 1 then .ok late
  else (endScan cong (List.range' (i + 1) (T - (i + 1)))).bind fun r => .ok (r.getD late)

/-- Capacity (vehicles) that a rate is compared with, `_ext/dta.cpp:1143-1153`: `floor (cap * flow_scalar)` where
`cap` is the `m_flow_cap` of a cell times the unit time. -/
def capVeh (unit scalar : ℚ) (cell : Option (Cell V)) : Res ℤ :=
  match cell with
  | none => .ub
  | some c => .ok ⌊c.cap * unit * scalar⌋

/-- Comparing a rate that may not be a number. -/
def rateEq (r : Option ℚ) (scalar : ℚ) (cap : ℤ) : Bool :=
  match r with
  | none => false
  | some r => approxEq (r * scalar) cap tol

/-- See `rateEq`. -/
def rateLt (r : Option ℚ) (scalar : ℚ) (cap : ℤ) : Bool :=
  match r with
  | none => false
  | some r => approxLt (r * scalar) cap tol

/-- `_ext/dta.cpp:1083-1203`, the body for one interval; also `dso.cpp:133-252` for the lift-up time `i`.  `late` is
the value for a congestion that does not end, `fn` the name in the exceptions, `f` the free-flow time of the link in
intervals. -/
def dissOne (fn : String) (T late : ℕ) (unit scalar : ℚ) (l : DLink V) (f : ℤ) (cong : List Bool) (tt : List ℚ)
    (i : ℕ) : Res ℕ :=
  (rd cong i).bind fun c =>
    if c then congEnd cong T late i
    else
      (rd tt i).bind fun x =>
        if approxEq x f tol then
          match l.link with
          | .ctm k =>
            (slope l.nOut (i + f : ℤ) (i + f + 1 : ℤ)).bind fun r =>
              (capVeh unit scalar k.cells.getLast?).bind fun cap =>
                if rateEq r scalar cap then congEnd cong T late i else .ok i
          | .pq _ => .ok i
          | _ => .throw (fn ++ ", Link type not implemented")
        else .throw (fn ++ ", Link travel time less than fftt")

/-- A row computed entry by entry for the listed intervals. -/
def rowOf (g : ℕ → Res ℕ) : List ℕ → Res (List ℕ)
  | [] => .ok []
  | i :: is => (g i).bind fun x => (rowOf g is).bind fun r => .ok (x :: r)

/-- `_ext/dta.cpp:1060-1212` `get_link_queue_dissipated_time` for one link. -/
def dissipated (T : ℕ) (unit scalar : ℚ) (l : DLink V) (cong : List Bool) (tt : List ℚ) : Res (List ℕ) :=
  rowOf (fun i => (l.link.ffttLoading).bind fun f =>
    dissOne "Dta::get_link_queue_dissipated_time" T T unit scalar l f cong tt i) (List.range T)

/-! ## Marginal costs -/

/-- The search of `dso.cpp:90-125` over the listed `j`: the first interval in which the link takes in less than its
capacity; `none` if there is none. -/
def liftScan (unit scalar : ℚ) (l : DLink V) : List ℕ → Res (Option ℕ)
  | [] => .ok none
  | j :: js =>
    match l.link with
    | .ctm k =>
      (slope l.nIn (j : ℤ) (j + 1 : ℤ)).bind fun r =>
        (capVeh unit scalar k.cells.head?).bind fun cap =>
          if rateLt r scalar cap then .ok (some j) else liftScan unit scalar l js
    | .pq _ => .ok (some j)
    | _ => .throw "MNM_Dso::get_link_marginal_cost, Link type not implemented"

/-- The arrays of one link while `get_link_marginal_cost` goes over the intervals: dissipation times, travel times
and costs. -/
structure Row where
  diss : ℕ → ℕ
  tt : List ℚ
  cost : List ℚ

/-- `dso.cpp:86-269`: one interval.  The travel times are overwritten while later intervals still read them. -/
def marginalStep (T : ℕ) (unit scalar : ℚ) (l : DLink V) (f : ℤ) (cong : List Bool) (s : Row) (i : ℕ) : Res Row :=
  (liftScan unit scalar l (List.range' i (T - i))).bind fun j =>
    let lift := j.getD T
    (match j with
      | none => Res.ok (2 * T)
      | some j => dissOne "MNM_Dso::get_link_marginal_cost" T (2 * T) unit scalar l f cong s.tt j).bind fun d =>
      if i < s.tt.length ∧ i < s.cost.length then
        .ok ⟨fun k => if k = i then d else s.diss k, s.tt.set i ((d : ℤ) - lift + f : ℤ),
          s.cost.set i ((d : ℤ) - lift + f : ℤ)⟩
      else .ub

/-- `dso.cpp:66-282` `get_link_marginal_cost` for one link. -/
def marginal (T : ℕ) (unit scalar : ℚ) (l : DLink V) (cong : List Bool) (tt cost : List ℚ) : Res Row :=
  (l.link.ffttLoading).bind fun f =>
    Res.foldlM (marginalStep T unit scalar l f cong) ⟨fun _ => 0, tt, cost⟩ (List.range T)

end Verif.Marg

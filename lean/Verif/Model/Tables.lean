import Verif.Model.Curve

/-!
# Model of the tables of the Python interface

`macposts/dta.py` `_get_ccs`, `macposts/_ext/dta.cpp` registration and dynamic assignment ratios,
`src/dta_gradient_utls.cpp` `add_dar_records`, `src/cc_tree.cpp`.
-/

namespace Verif.Tab
open Curve Ults

/-! ## Tables of cumulative curves -/

/-- `ccs[ticks, col] = cc[:, 1]` for one tick, `dta.py:48-49`: the time is truncated; a negative index
counts from the end; an index out of range raises `IndexError`. -/
def setTick (col : List (Option ℚ)) (r : ℚ × ℚ) : Res (List (Option ℚ)) :=
  let k := trunc r.1
  if 0 ≤ k then (if k < col.length then .ok (col.set k.toNat (some r.2)) else .throw "IndexError")
  else (if -k ≤ col.length then .ok (col.set (col.length - (-k).toNat) (some r.2)) else .throw "IndexError")

/-- `np.maximum.accumulate`, `dta.py:54`. -/
def runMax : ℕ → List ℕ → List ℕ
  | _, [] => []
  | m, i :: is => max m i :: runMax (max m i) is

/-- `dta.py:52-55`: the index of the last number so far (0 if there is none), and the copy from there.
`none` is NaN. -/
def forwardFill (col : List (Option ℚ)) : List (Option ℚ) :=
  let idxs := runMax 0 (col.zipIdx.map fun p => if p.1.isSome then p.2 else 0)
  (col.zip idxs).map fun p => if p.1.isSome then p.1 else (col[p.2]?).join

/-- One column of `dta.py:41-56` `_get_ccs`: `T` is `get_cur_loading_interval ()`.  (The columns do not
influence each other.) -/
def ccColumn (T : ℕ) (c : Curve) : Res (List (Option ℚ)) :=
  (Res.foldlM setTick (List.replicate (T + 1) none) c).bind fun col => .ok (forwardFill col)

/-! ## Registration -/

/-- `_ext/dta.cpp:1213-1249` `register_links` (the check `find != end` on the vector; the message is the
code's).  `known` is membership in the link factory, whose `get_link` raises for other numbers
(`factory.cpp`).  On an exception the vector keeps the links pushed so far, which is not modelled. -/
def registerLinks (known : ℤ → Bool) (ids : List ℤ) : Res (List ℤ) :=
  Res.foldlM (fun vec i =>
    if !known i then .throw "Error, MNM_Link_Factory::get_link, link does not exist"
    else if i ∈ vec then .throw "Error, Dta::register_links, link does not exist"
    else .ok (vec ++ [i])) [] ids

/-- `_ext/dta.cpp:1263-1300` `register_paths`: `m_path_vec` and `m_path_map` (from paths, named by their
number, to indices; `insert` keeps the first entry). -/
def registerPaths (known : ℤ → Bool) (ids : List ℤ) : Res (List ℤ × Store ℤ ℕ) :=
  Res.foldlM (fun (s : List ℤ × Store ℤ ℕ) i =>
    if !known i then .throw "Dta::register_paths: No such path"
    else .ok (s.1 ++ [i], s.2.insert i s.1.length)) ([], []) ids

/-! ## Trees of curves and assignment ratios -/

/-- `dlink.h` `m_record`: a curve for every path and departure interval.  The two levels of maps are one
map here, with pairs as keys; the order of its entries is arbitrary. -/
abbrev Tree := Store (ℤ × ℤ) Curve

/-- `cc_tree.cpp:27-52` `add_flow`. -/
def addFlow (tr : Tree) (time flow : ℚ) (path dep : ℤ) : Res Tree :=
  match tr.get (path, dep) with
  | none => (addIncrement install (time, flow)).bind fun c => .ok (tr.insert (path, dep) c)
  | some c => (addIncrement c (time, flow)).bind fun c => .ok (tr.set (path, dep) c)

/-- An entry of the matrix: row, column, value; the value is `none` when it is not a finite number
(division by zero). -/
structure Cell where
  row : ℤ
  col : ℤ
  value : Option ℚ
deriving DecidableEq, Repr

/-- `tmp_flow / f_ptr[_y]`: reading outside `f` is undefined. -/
def portion (f : List ℚ) (y : ℤ) (flow : ℚ) : Res (Option ℚ) :=
  if y < 0 then .ub
  else match f[y.toNat]? with
    | none => .ub
    | some d => .ok (if d = 0 then none else some (flow / d))

/-- `dta_gradient_utls.cpp:391-445` `add_dar_records_eigen` on a link with an installed tree: `reg` is
`path_map`. -/
def darCells (tr : Tree) (reg : Store ℤ ℕ) (start stop : ℚ) (link interval numLink numPath : ℕ) (f : List ℚ) :
    Res (List Cell) :=
  Res.foldlM (fun acc e =>
    match reg.get e.1.1 with
    | none => .ok acc
    | some idx =>
      (getResult e.2 stop).bind fun b => (getResult e.2 start).bind fun a =>
        if b - a > dblEps then
          let y : ℤ := idx + numPath * e.1.2
          (portion f y (b - a)).bind fun v => .ok (acc ++ [⟨link + numLink * interval, y, v⟩])
        else .ok acc) [] tr

/-- The checks of one period, `_ext/dta.cpp:2232-2249`; `cur` is `get_cur_loading_interval ()`. -/
def checkPeriod (cur : ℤ) (p : ℤ × ℤ) : Res Unit :=
  if p.2 ≤ p.1 then .throw "end time is smaller than or equal to start time"
  else if p.1 ≥ cur then .throw "input start intervals exceeds the total loading intervals - 1"
  else if p.2 > cur then .throw "input end intervals exceeds the total loading intervals"
  else .ok ()

/-- The inner loop of `_ext/dta.cpp:2230-2257` for one link. -/
def darLink (cur : ℤ) (periods : List (ℤ × ℤ)) (reg : Store ℤ ℕ) (numLink numPath : ℕ) (f : List ℚ) (tr : Tree)
    (link : ℕ) : Res (List Cell) :=
  Res.foldlM (fun acc (p : (ℤ × ℤ) × ℕ) =>
    (checkPeriod cur p.1).bind fun _ =>
      (darCells tr reg p.1.1 p.1.2 link p.2 numLink numPath f).bind fun cs => .ok (acc ++ cs)) [] periods.zipIdx

/-- `_ext/dta.cpp:2192-2264` `get_complete_dar_matrix` up to the list of triplets.  (Building the sparse
matrix adds up triplets with the same row and column and is undefined for rows or columns outside the
matrix, which has `num_intervals * #links` rows and `num_intervals * #paths` columns.) -/
def darMatrix (cur : ℤ) (trees : List Tree) (periods : List (ℤ × ℤ)) (reg : Store ℤ ℕ) (f : List ℚ) :
    Res (List Cell) :=
  Res.foldlM (fun acc (p : Tree × ℕ) =>
    (darLink cur periods reg trees.length reg.length f p.1 p.2).bind fun cs => .ok (acc ++ cs)) []
    trees.zipIdx

end Verif.Tab

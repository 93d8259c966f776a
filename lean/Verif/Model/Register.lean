import Verif.Model.Graph
import Mathlib.Data.Finset.Card
import Mathlib.Data.Finset.Insert
import Mathlib.Data.List.Dedup
import Mathlib.Data.Finset.Dedup

/-! # Model of the registration of links and paths, of the numbering of paths over all modes and of the
translation between link and node sequences (`macposts/_ext/dta.cpp`, `mcdta.cpp`, `mmdta.cpp`,
`multimodal.cpp:14800-14968`)

Links and paths are their numbers (every number has one object). -/

namespace Verif.Reg
open Graph

/-- What a call leaves behind, and whether it returned (`true`) or raised an exception (`false`): an
exception does not undo what was written before. -/
structure Call (σ : Type) where
  state : σ
  ok : Bool
deriving DecidableEq

/-! ## Links -/

/-- The classes of links that `dynamic_cast` tells apart. -/
inductive LinkKind where
  | plain | multiclass | walking | bus
deriving DecidableEq

/-- `dta.cpp:1233-1249`, `mcdta.cpp:526-549`, `mmdta.cpp:1176-1200, 1219-1244, 1263-1287, 1357-1381`:
the loop over the given links.  `kind` is the link factory (`none`: `get_link` throws) and `fits` the
test of the class. -/
def linkLoop (kind : ℤ → Option LinkKind) (fits : LinkKind → Bool) : List ℤ → List ℤ → Call (List ℤ)
  | regs, [] => ⟨regs, true⟩
  | regs, l :: ls =>
    match kind l with
    | none => ⟨regs, false⟩
    | some k =>
      if !fits k then ⟨regs, false⟩
      else if l ∈ regs then ⟨regs, false⟩
      else linkLoop kind fits (regs ++ [l]) ls

/-- `dta.cpp:1213-1251`, `mcdta.cpp:510-551`, `mmdta.cpp:1160-1289, 1341-1383` `register_links` and its
variants for driving, walking, bus and bus driving links; the argument is an array of one dimension. -/
def registerLinks (kind : ℤ → Option LinkKind) (fits : LinkKind → Bool) (old given : List ℤ) :
    Call (List ℤ) :=
  linkLoop kind fits (if 0 < old.length then [] else old) given

/-! ## Paths of a network with one class and of a network with cars and trucks -/

/-- `dta.cpp:100-104` `m_path_vec` and `m_path_map`. -/
structure Paths where
  vec : List ℤ
  index : Store ℤ ℕ
deriving DecidableEq

/-- `dta.cpp:1280-1295`: the loop; `i` is the loop counter and `known` says which numbers
`m_ID_path_mapping` has. -/
def pathLoop (known : ℤ → Bool) : ℕ → Paths → List ℤ → Call Paths
  | _, s, [] => ⟨s, true⟩
  | i, s, p :: ps =>
    if known p then pathLoop known (i + 1) ⟨s.vec ++ [p], s.index.insert p i⟩ ps else ⟨s, false⟩

/-- `dta.cpp:1264-1298` `register_paths`. -/
def registerPaths (known : ℤ → Bool) (s : Paths) (given : List ℤ) : Call Paths :=
  pathLoop known 0 (if 0 < s.vec.length then ⟨[], []⟩ else s) given

/-- `mcdta.cpp:265-270` `m_path_vec` and `m_path_set`. -/
structure McPaths where
  vec : List ℤ
  set : Finset ℤ
deriving DecidableEq

/-- `mcdta.cpp:2350-2364`: the loop. -/
def mcLoop (known : ℤ → Bool) : List ℤ → List ℤ → Call (List ℤ)
  | vec, [] => ⟨vec, true⟩
  | vec, p :: ps => if known p then mcLoop known (vec ++ [p]) ps else ⟨vec, false⟩

/-- `mcdta.cpp:2334-2367` `register_paths`: the set is filled at the end. -/
def registerMc (known : ℤ → Bool) (s : McPaths) (given : List ℤ) : Call McPaths :=
  let s0 : McPaths := if 0 < s.vec.length then ⟨[], ∅⟩ else s
  let r := mcLoop known s0.vec given
  if r.ok then ⟨⟨r.state, r.state.toFinset⟩, true⟩ else ⟨⟨r.state, s0.set⟩, false⟩

/-! ## Paths of a multimodal network -/

/-- The types of paths. -/
inductive Mode where
  | driving | transit | pnr | bus
deriving DecidableEq

/-- `mmdta.cpp:300-350`: `m_path_vec_driving`, `m_path_set_driving`, `m_pathID_set_driving` and the like
for the other modes. -/
structure MmPaths where
  vec : List ℤ
  set : Finset ℤ
  ids : Finset ℤ
deriving DecidableEq

/-- `mmdta.cpp:1965-1986, 2014-2035, 2063-2083, 2111-2131`: the loop. -/
def mmLoop (kind : ℤ → Option Mode) (m : Mode) : MmPaths → List ℤ → Call MmPaths
  | s, [] => ⟨s, true⟩
  | s, p :: ps =>
    match kind p with
    | none => ⟨s, false⟩
    | some k =>
      if k ≠ m then ⟨s, false⟩
      else mmLoop kind m { s with vec := s.vec ++ [p], ids := insert p s.ids } ps

/-- `mmdta.cpp:1950-2142` `register_paths_driving`, `_bustransit`, `_pnr` and `_bus`; `num` is the
number of such paths.  The set of numbers is not cleared when paths are registered again. -/
def registerMm (kind : ℤ → Option Mode) (m : Mode) (num : ℤ) (s : MmPaths) (given : List ℤ) :
    Call MmPaths :=
  let r := mmLoop kind m (if 0 < s.vec.length then { s with vec := [], set := ∅ } else s) given
  if r.ok then
    let s' : MmPaths := { r.state with set := r.state.vec.toFinset }
    if s'.set.card ≠ s'.vec.length ∨ s'.ids.card ≠ s'.vec.length ∨ (s'.vec.length : ℤ) ≠ num then
      ⟨s', false⟩
    else ⟨s', true⟩
  else r

/-- `mmdta.cpp:1863-1947` `register_paths`: paths of all modes; `num` is the sum of the four numbers. -/
def registerAll (known : ℤ → Bool) (num : ℤ) (s : McPaths) (given : List ℤ) : Call McPaths :=
  let r := registerMc known s given
  if r.ok then
    if r.state.set.card ≠ r.state.vec.length ∨ (r.state.vec.length : ℤ) ≠ num then ⟨r.state, false⟩
    else r
  else r

/-! ## Numbers of paths over all modes -/

/-- A pair of origin and destination of the passenger path table: whether the path table of a mode has
the pair, and the path set of the mode (numbers as in the file of the mode; `none`: no such set). -/
structure PairPaths where
  has : Mode → Bool
  sets : Mode → Option (List ℤ)

/-- `m_ID_path_mapping`: number ↦ type and number in the file of the type; and the count of paths. -/
structure Mapping where
  dict : ℤ → Option (Mode × ℤ)
  count : ℤ

/-- `multimodal.cpp:14866, 14899-14901, 14945-14946`: what is added to the numbers of a mode. -/
def offset (n : Mode → ℤ) : Mode → ℤ
  | .driving => 0
  | .transit => n .driving
  | .pnr => n .driving + n .transit
  | .bus => n .driving + n .transit + n .pnr

/-- `multimodal.cpp:14836-14844, 14864-14873, 14888-14915, 14943-14951`: one path. -/
def enter (n : Mode → ℤ) (m : Mode) (s : Mapping) (id : ℤ) : Mapping :=
  ⟨upd s.dict (id + offset n m) (some (m, id)), s.count + 1⟩

/-- `multimodal.cpp:14823-14921`: the paths of a pair and a mode; a missing path set is dereferenced. -/
def enterMode (n : Mode → ℤ) (pr : PairPaths) (s : Mapping) (m : Mode) : Res Mapping :=
  if pr.has m then
    match pr.sets m with
    | none => .ub
    | some ids => .ok (ids.foldl (enter n m) s)
  else .ok s

/-- `multimodal.cpp:14819-14925`: the three modes of a pair. -/
def enterPair (n : Mode → ℤ) (s : Mapping) (pr : PairPaths) : Res Mapping :=
  Res.foldlM (enterMode n pr) s [.driving, .transit, .pnr]

/-- `multimodal.cpp:14800-14968` `get_ID_path_mapping_all_mode`, for the pairs of the passenger path
table and the bus routes in the order of the hash maps. -/
def mapping (n : Mode → ℤ) (pairs : List PairPaths) (buses : List ℤ) : Res Mapping :=
  (Res.foldlM (enterPair n) ⟨fun _ => none, 0⟩ pairs).bind fun s =>
    let s' := buses.foldl (enter n .bus) s
    if s'.count ≠ n .driving + n .transit + n .pnr + n .bus then .throw "path count is wrong"
    else .ok s'

/-! ## Sequences of links and of nodes -/

/-- The body of the loop of `link_seq_to_node_seq`. -/
def endStep (g : G) (acc : List ℤ) (l : ℤ) : Res (List ℤ) :=
  (getEndpoints g l).bind fun e => .ok (acc ++ [e.2])

/-- `mmdta.cpp:3470-3526` `link_seq_to_node_seq_driving` and `_bustransit`; the first link is read even if
there is none. -/
def linksToNodes (g : G) : List ℤ → Res (List ℤ)
  | [] => .ub
  | l :: ls => (getEndpoints g l).bind fun e => Res.foldlM (endStep g) [e.1] (l :: ls)

/-- The first connection that leads to `v` (`mmdta.cpp:3554-3564, 3602-3613`). -/
def linkTo (g : G) (v : ℤ) (cs : List ℤ) : Option ℤ :=
  cs.find? fun c => match getEndpoints g c with | .ok e => e.2 == v | _ => false

/-- `mmdta.cpp:3552-3571, 3600-3620`: the loop over the nodes.  The memory of the result is not
initialised: `junk i` is what entry `i` holds before. -/
def nodeLoop (fuel : ℕ) (g : G) (junk : ℕ → ℤ) : ℕ → List ℤ → Res (List ℤ)
  | i, u :: v :: ns =>
    (connections fuel g u .out).bind fun cs =>
      let r := (linkTo g v cs).getD (junk i)
      if r < 0 then .throw "link does not exist"
      else (nodeLoop fuel g junk (i + 1) (v :: ns)).bind fun rs => .ok (r :: rs)
  | _, _ => .ok []

/-- `mmdta.cpp:3528-3623` `node_seq_to_link_seq_driving` and `_bustransit`. -/
def nodesToLinks (fuel : ℕ) (g : G) (junk : ℕ → ℤ) (ns : List ℤ) : Res (List ℤ) :=
  if ns.length < 2 then .throw "length must not be less than 2" else nodeLoop fuel g junk 0 ns

end Verif.Reg

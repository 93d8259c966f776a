import Verif.Model.Readers
import Verif.Model.Realtime

/-!
# Model of the files of real-time loadings (`src/io.cpp:265-408, 963-1003`)

Origins and destinations are read once without nodes (`realtime_dta.cpp:30`) and attached to the nodes of each new copy of
the network (`155`, `327`, `638`, `849`) from the same file; message signs are read once (`42`).  The same
simplifications as in `Verif.Model.Readers`.
-/

namespace Verif.Rtf
open Text Rd

/-- `io.cpp:367-382`, `386-401`, one row, with `make_origin` and `make_destination`: the numbers in the factory. -/
def numberRow (s : List ℤ) (line : Str) : Res (List ℤ) :=
  match split line ' ' with
  | [w0, w1] => (stoi w0).bind fun id => (stoi w1).bind fun _ => .ok (if id ∈ s then s else s ++ [id])
  | _ => .ok s

/-- `io.cpp:343-408` `build_od_factory` without nodes: the numbers of origins and destinations. -/
def buildNumbers (fuel : ℕ) (no nd : ℤ) : Option Str → Res (List ℤ × List ℤ)
  | none => .ok ([], [])
  | some content =>
    (readLoop numberRow fuel no.toNat (In.open content) []).bind fun r =>
      (readLoop numberRow fuel nd.toNat r.2 []).bind fun q => .ok (r.1, q.1)

/-- `m_origin_node` of each origin (`m_dest_node` of each destination), and what each node was hooked to last. -/
structure Hooks where
  node : ℤ → Option ℤ
  at' : ℤ → Option ℤ

/-- `io.cpp:299-312` (origins), `324-337` (destinations), one row.  `known` are the numbers in the factory.  Using a node of
another kind is undefined. -/
def hookRow (want : Io.NodeKind) (known : List ℤ) (err : String) (kind : Store ℤ Io.NodeKind) (s : Hooks) (line : Str) :
    Res Hooks :=
  match split line ' ' with
  | [w0, w1] =>
    (stoi w0).bind fun id => (stoi w1).bind fun n =>
      if id ∈ known then
        match kind.get n with
        | none => .throw noNode
        | some k => if k = want then .ok ⟨upd s.node id (some n), upd s.at' n (some id)⟩ else .ub
      else .throw err
  | _ => .ok s

/-- `io.cpp:288-313`: the loop over the origins splits the line before it is trimmed. -/
def rawLoop {σ : Type} (body : σ → Str → Res σ) : ℕ → ℕ → In → σ → Res (σ × In)
  | _, 0, i, s => .ok (s, i)
  | 0, _ + 1, _, _ => .diverge
  | fuel + 1, n + 1, i, s =>
    let i1 := getline i
    let l := trim i1.line
    if l = [] ∨ l.head? = some '#' then rawLoop body fuel (n + 1) { i1 with line := l } s
    else (body s i1.line).bind fun s' => rawLoop body fuel n { i1 with line := l } s'

/-- `io.cpp:265-341` `hook_up_od_node`; `s` is how origins and destinations were hooked before. -/
def hookUp (fuel : ℕ) (no nd : ℤ) (origins dests : List ℤ) (kind : Store ℤ Io.NodeKind) (s : Hooks × Hooks) :
    Option Str → Res (Hooks × Hooks)
  | none => .ok s
  | some content =>
    (rawLoop (hookRow .origin origins noOrigin kind) fuel no.toNat (In.open content) s.1).bind fun r =>
      (readLoop (hookRow .dest dests noDest kind) fuel nd.toNat r.2 s.2).bind fun q => .ok (r.1, q.1)

/-- `io.cpp:981-997`, one row, with `vms.cpp:127-133` `make_link_vms`. -/
def signRow (ends : ℤ → Option (ℤ × ℤ)) (outOf : ℤ → List ℤ) (s : Store ℤ Rt.Sign) (line : Str) : Res (Store ℤ Rt.Sign) :=
  match split line ' ' with
  | [w0, w1] =>
    (stoi (trim w0)).bind fun id => (stoi (trim w1)).bind fun l =>
      (Rt.mkSign ends outOf l).bind fun v => .ok (s.insert id v)
  | _ => .throw "failed to build vms"

/-- `io.cpp:963-1003` `build_vms_facotory`. -/
def buildSigns (fuel : ℕ) (num : ℤ) (ends : ℤ → Option (ℤ × ℤ)) (outOf : ℤ → List ℤ) : Option Str → Res (Store ℤ Rt.Sign)
  | none => .ok []
  | some content => (readLoop (signRow ends outOf) fuel num.toNat (In.open content) []).bind fun r => .ok r.1

end Verif.Rtf

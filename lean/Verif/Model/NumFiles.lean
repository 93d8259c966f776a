import Verif.Model.Readers

/-!
# Model of the readers of numbers: `read_int_float`, `read_int`, `read_float` and `build_workzone_list`

`io.cpp:1006-1151`.  `std::stof` is read as `std::stod` (rounding to single precision is left out); numbers of values that are not
of type `int` are left out.
-/

namespace Verif.NumF
open Text Io Rd

/-- What the four functions share: the first line is the number of lines to read; without the file nothing happens:
`io.cpp:1010-1043`, `1049-1070`, `1077-1108`, `1117-1149`. -/
def readCounted {σ : Type} (body : σ → Str → Res σ) (s : σ) : Option Str → Res σ
  | none => .ok s
  | some content =>
    let i := getline (In.open content)
    (stoi (trim i.line)).bind fun n => (countLoop body n.toNat i s).bind fun r => .ok r.1

/-- `io.cpp:1025-1040`: one line of `read_int_float`; `insert` keeps an entry that is there. -/
def pairRow (m : ℤ → Option ℚ) (line : Str) : Res (ℤ → Option ℚ) :=
  match split line ' ' with
  | [a, b] => (stoi (trim a)).bind fun k => (stod (trim b)).bind fun x => .ok (match m k with | some _ => m | none => upd m k (some x))
  | _ => .throw "failed to build read_int_float"

/-- `io.cpp:1006-1044` `read_int_float`. -/
def readPairs (m : ℤ → Option ℚ) (file : Option Str) : Res (ℤ → Option ℚ) := readCounted pairRow m file

/-- `io.cpp:1046-1071` `read_int`. -/
def readInts (v : List ℤ) (file : Option Str) : Res (List ℤ) :=
  readCounted (fun v line => (stoi (trim line)).bind fun k => .ok (v ++ [k])) v file

/-- `io.cpp:1074-1110` `read_float`. -/
def readFloats (v : List (List ℚ)) (file : Option Str) : Res (List (List ℚ)) :=
  readCounted (fun v line => (stods ((split line ' ').map trim)).bind fun x => .ok (v ++ [x])) v file

/-- `io.cpp:1130-1145`: one line of `build_workzone_list`. -/
def zoneRow (v : List ℤ) (line : Str) : Res (List ℤ) :=
  match split line ' ' with
  | [a] => (stoi (trim a)).bind fun k => .ok (v ++ [k])
  | _ => .throw "failed to build workzone"

/-- `io.cpp:1112-1151` `build_workzone_list`. -/
def readZones (v : List ℤ) (file : Option Str) : Res (List ℤ) := readCounted zoneRow v file

end Verif.NumF

import Verif.Model.Readers

/-!
# Model of saving and loading the flows of paths (the buffers of a path table)

`path.cpp:160-175` `buffer_to_string`, `path.cpp:703-774` `save_path_table` with buffers, `io.cpp:818-961` `load_path_table`
with buffers.  Numbers are written by `std::to_string (double)` and read by `std::stof`; rounding to single precision when
they are read is left out.
-/

namespace Verif.FlowF
open Text Io Rd Graph

/-- The nearest natural number, the even one of two (how `printf ("%f")` rounds). -/
def near (y : ℚ) : ℕ :=
  let f := ⌊y⌋.toNat
  if y - f < 1 / 2 then f
  else if 1 / 2 < y - f then f + 1
  else if f % 2 = 0 then f else f + 1

/-- The last `k` decimal digits. -/
def fix : ℕ → ℕ → Str
  | 0, _ => []
  | k + 1, r => fix k (r / 10) ++ [Char.ofNat (48 + r % 10)]

/-- `std::to_string (double)`, that is `printf ("%f")`: six decimals (the sign of a number that is rounded to zero stays). -/
def dec (x : ℚ) : Str :=
  let m := near (|x| * 1000000)
  (if x < 0 then ['-'] else []) ++ (decGo (m / 1000000 + 1) (m / 1000000) [] ++ '.' :: fix 6 (m % 1000000))

/-- `path.cpp:160-175` `buffer_to_string`. -/
def bufferToString (b : List ℚ) : Str :=
  if b = [] then ['\n'] else (b.flatMap fun x => dec x ++ [' ']).dropLast ++ ['\n']

/-- The file of buffers that `save_path_table` writes next to the file of the table; `bs` are the buffers of the paths in the
order in which the paths are written. -/
def saveBuffers (bs : List (List ℚ)) : Str := bs.flatMap bufferToString

/-- What `load_path_table` keeps while it reads, with the file of buffers, and the buffers of the paths by path number. -/
structure FlowSt where
  base : LoadSt
  buf : In
  flows : ℕ → List ℚ

/-- `io.cpp:868-943`, one row with its buffer.  The loop that looks for the next line of the buffers tests the line of the
path, so that it always takes the next one, blank or not. -/
def flowRow (fuel : ℕ) (g : G) (s : FlowSt) (line : Str) : Res FlowSt :=
  let j := getline s.buf
  let l := trim j.line
  match split line ' ' with
  | _ :: _ :: _ =>
    (pathRow fuel g s.base line).bind fun b => (stods (split l ' ')).bind fun v =>
      .ok ⟨b, { j with line := l }, if split l ' ' = [] then s.flows else upd s.flows s.base.counter v⟩
  | _ => .ok { s with buf := { j with line := l } }

/-- `load_path_table` with buffers; the file of buffers is not checked for being open (a file that is not is not good). -/
def loadFlows (fuel : ℕ) (g : G) (num : ℤ) (file buffers : Option Str) :
    Res (Option ((ℤ → ℤ → Option (List PathRec)) × (ℕ → List ℚ))) :=
  if num ≤ 0 then .ok none
  else match file with
    | none => .throw "failed to open path table file"
    | some content =>
      (readLoop (flowRow fuel g) fuel num.toNat (In.open content)
        ⟨⟨fun _ _ => none, 0, none⟩, (match buffers with | some b => In.open b | none => ⟨[], false, []⟩), fun _ => []⟩).bind
        fun r => .ok (some (r.1.base.table, r.1.flows))

end Verif.FlowF

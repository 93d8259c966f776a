import Verif.Basic
import Mathlib.Data.Rat.Floor
import Verif.Model.Ults

/-!
# Model of the text handling: `MNM_IO` helpers, the standard conversions, input files

A string is a list of characters.
-/

namespace Verif.Text

abbrev Str := List Char

/-- `std::isspace` in the C locale (used in `io.h:114,124` and by `std::stoi`). -/
def isSpace (c : Char) : Bool :=
  c == ' ' || c == '\t' || c == '\n' || c == '\x0b' || c == '\x0c' || c == '\r'

/-- `io.h:110-116` `ltrim`. -/
def ltrim (s : Str) : Str := s.dropWhile isSpace

/-- `io.h:118-126` `rtrim`. -/
def rtrim (s : Str) : Str := (s.reverse.dropWhile isSpace).reverse

/-- `io.h:128-129` `trim`. -/
def trim (s : Str) : Str := ltrim (rtrim s)

/-- The loop of `io.cpp:1240-1256` `split`; the position `start` is the remaining text.  `fuel`
bounds the number of words (the length of the text always suffices). -/
def splitGo (sep : Char) : ℕ → Str → List Str
  | 0, _ => []
  | fuel + 1, s =>
    match s.dropWhile (· == sep) with
    | [] => []
    | c :: r =>
      let w := (c :: r).takeWhile (· != sep)
      match (c :: r).dropWhile (· != sep) with
      | [] => [w]
      | _ :: r' => w :: splitGo sep fuel r'

/-- `io.cpp:1240-1256` `split`. -/
def split (s : Str) (sep : Char) : List Str := splitGo sep (s.length + 1) s

/-- Value of a string of decimal digits. -/
def digitsVal (s : Str) : ℕ := s.foldl (fun a c => 10 * a + (c.toNat - 48)) 0

/-- An optional sign: is it a minus, and what follows. -/
def sign : Str → Bool × Str
  | '-' :: r => (true, r)
  | '+' :: r => (false, r)
  | r => (false, r)

/-- `std::stoi` (base 10): skips blanks, reads a sign and digits, ignores what follows; raises
`std::invalid_argument` without digits and `std::out_of_range` outside the range of `int`. -/
def stoi (s : Str) : Res ℤ :=
  let r := sign (s.dropWhile isSpace)
  let ds := r.2.takeWhile Char.isDigit
  if ds = [] then .throw "invalid_argument"
  else
    let v : ℤ := if r.1 then -(digitsVal ds : ℤ) else digitsVal ds
    if -2147483648 ≤ v ∧ v ≤ 2147483647 then .ok v else .throw "out_of_range"

/-- The exponent part of a decimal number, `e` or `E`, sign, digits; no exponent otherwise. -/
def expPart : Str → ℤ
  | [] => 0
  | c :: r =>
    if c == 'e' || c == 'E' then
      let q := sign r
      let ds := q.2.takeWhile Char.isDigit
      if q.1 then -(digitsVal ds : ℤ) else digitsVal ds
    else 0

/-- `std::strtod` on decimal numbers: blanks, sign, digits, point, digits, exponent; `none` when
there is no number.  Simplified: no hexadecimal numbers, `inf` or `nan`, no rounding to a double and
no range errors. -/
def strtod (s : Str) : Option ℚ :=
  let q := sign (s.dropWhile isSpace)
  let ip := q.2.takeWhile Char.isDigit
  let r := q.2.dropWhile Char.isDigit
  let fp := match r with | '.' :: r' => r'.takeWhile Char.isDigit | _ => []
  let r2 := match r with | '.' :: r' => r'.dropWhile Char.isDigit | _ => r
  if ip = [] ∧ fp = [] then none
  else
    let m : ℚ := (digitsVal (ip ++ fp) : ℚ) / 10 ^ fp.length * (10 : ℚ) ^ expPart r2
    some (if q.1 then -m else m)

/-- `std::stod`, `std::stof`. -/
def stod (s : Str) : Res ℚ :=
  match strtod s with
  | none => .throw "invalid_argument"
  | some x => .ok x

/-- `atof`. -/
def atof (s : Str) : ℚ := (strtod s).getD 0

/-- Decimal digits of a number, least significant digit produced first. -/
def decGo : ℕ → ℕ → Str → Str
  | 0, _, acc => acc
  | fuel + 1, n, acc =>
    let acc' := Char.ofNat (48 + n % 10) :: acc
    if n / 10 = 0 then acc' else decGo fuel (n / 10) acc'

/-- `std::to_string (int)`. -/
def toStr (n : ℤ) : Str :=
  if n < 0 then '-' :: decGo (n.natAbs + 1) n.natAbs [] else decGo (n.natAbs + 1) n.natAbs []

/-! ## Input files -/

/-- An open `std::ifstream` together with the string variable that `std::getline` writes: what is
still to be read, whether the stream is `good ()`, and the contents of the variable. -/
structure In where
  rest : Str
  good : Bool
  line : Str
deriving DecidableEq

/-- `std::getline (file, line)`: a stream that is not good leaves the variable as it is; otherwise
the variable receives the text up to the next newline, and reaching the end of the file makes the
stream not good. -/
def getline (i : In) : In :=
  if i.good then
    let w := i.rest.takeWhile (· != '\n')
    match i.rest.dropWhile (· != '\n') with
    | [] => ⟨[], false, w⟩
    | _ :: r => ⟨r, true, w⟩
  else i

/-- `std::getline (file, line)` as a condition: it fails when nothing could be read. -/
def getlineOk (i : In) : Bool := i.good && !i.rest.isEmpty

/-- A file that has just been opened, with an empty string variable. -/
def In.open (content : Str) : In := ⟨content, true, []⟩

/-- The loop shared by the input readers (for example `io.cpp:29-37`, `io.cpp:110-118`,
`io.cpp:366-375`, `io.cpp:555-563`, `io.cpp:620-629`, `io.cpp:859-867`): read a line, trim it in
place, skip it without counting when it is empty or starts with `#`, otherwise count it and process
it.  `n` is the number of rows still to be read. -/
def readLoop {σ : Type} (body : σ → Str → Res σ) : ℕ → ℕ → In → σ → Res (σ × In)
  | _, 0, i, s => .ok (s, i)
  | 0, _ + 1, _, _ => .diverge
  | fuel + 1, n + 1, i, s =>
    let i1 := getline i
    let l := trim i1.line
    if l = [] ∨ l.head? = some '#' then readLoop body fuel (n + 1) { i1 with line := l } s
    else (body s l).bind fun s' => readLoop body fuel n { i1 with line := l } s'

end Verif.Text

import Verif.Model.Readers
import Verif.Spec.Io

/-! # What tables with a first line are meant to say -/

namespace Verif.Rd
open Text Io

/-- A file with a first line (the names of the columns) and rows of words. -/
def fileOf (head : Str) (rows : List (List Str)) : Str := head ++ '\n' :: textOf rows

/-- The lines of a file; a final newline does not start another line. -/
def fileLines (content : Str) : List Str :=
  if (linesOf content).getLast? = some [] then (linesOf content).dropLast else linesOf content

/-- What is found in line `k` (from 0) of a file; after the last line, the last one again. -/
def lineAt (content : Str) (k : ℕ) : Str := (linesOf content).getD k ((linesOf content).getLastD [])

/-- A file of rows without a newline at the end and without a first line. -/
def bareOf (rows : List (List Str)) : Str := (textOf rows).dropLast

/-- The last value given to a key, else the one it had. -/
def lastOf {α β : Type} (key : α → ℤ) (val : α → β) (rows : List α) (old : β) (k : ℤ) : β :=
  ((rows.reverse.find? fun r => key r = k).map val).getD old

/-- A row `link toll` of a toll file means this toll for this link. -/
def TollOk (q : Str → ℚ) (r : ℤ × Str) : Prop := IntOk r.1 ∧ WordOk r.2 ∧ stod r.2 = .ok (q r.2)

/-- Words that are numbers. -/
def NumsOk (q : Str → ℚ) (ws : List Str) : Prop := ∀ w ∈ ws, WordOk w ∧ stod w = .ok (q w)

/-- A row of a time-dependent attribute file of a two-class loading: interval, link, type, length (miles), speed
(miles per hour), lane capacity (per hour), lane jam density (per mile) of cars, lanes, the same for trucks, conversion
factor, toll. -/
structure AttrLine where
  interval : ℤ
  link : ℤ
  type : Str
  length : Str
  ffsCar : Str
  capCar : Str
  holdCar : Str
  lanes : ℤ
  ffsTruck : Str
  capTruck : Str
  holdTruck : Str
  factor : Str
  toll : Str

def AttrLine.words (r : AttrLine) : List Str :=
  [toStr r.interval, toStr r.link, r.type, r.length, r.ffsCar, r.capCar, r.holdCar, toStr r.lanes, r.ffsTruck, r.capTruck,
    r.holdTruck, r.factor, r.toll]

/-- The words of the row are what they should be; the toll is a whole number. -/
def AttrLine.Ok (q : Str → ℚ) (n : Str → ℤ) (r : AttrLine) : Prop :=
  IntOk r.interval ∧ IntOk r.link ∧ IntOk r.lanes ∧ WordOk r.type ∧
  NumsOk q [r.length, r.ffsCar, r.capCar, r.holdCar, r.ffsTruck, r.capTruck, r.holdTruck, r.factor] ∧
  WordOk r.toll ∧ stoi r.toll = .ok (n r.toll)

/-- What the row says, in metres, seconds and vehicles. -/
def AttrLine.meaning (q : Str → ℚ) (n : Str → ℤ) (r : AttrLine) : Attr2 :=
  ⟨r.type, q r.length * 1600, q r.ffsCar * 1600 / 3600, q r.capCar / 3600, q r.holdCar / 1600, r.lanes,
    q r.ffsTruck * 1600 / 3600, q r.capTruck / 3600, q r.holdTruck / 1600, q r.factor, n r.toll⟩

/-- A row of a link file of a two-class loading. -/
structure LinkLine2 where
  id : ℤ
  kind : MLnk.Kind
  length : Str
  ffsCar : Str
  capCar : Str
  holdCar : Str
  lanes : ℤ
  ffsTruck : Str
  capTruck : Str
  holdTruck : Str
  factor : Str

/-- How a link type is written. -/
def kindWord2 : MLnk.Kind → Str
  | .pq => "PQ".toList
  | .ctm => "CTM".toList
  | .lq => "LQ".toList

def LinkLine2.words (r : LinkLine2) : List Str :=
  [toStr r.id, kindWord2 r.kind, r.length, r.ffsCar, r.capCar, r.holdCar, toStr r.lanes, r.ffsTruck, r.capTruck,
    r.holdTruck, r.factor]

def LinkLine2.Ok (q : Str → ℚ) (r : LinkLine2) : Prop :=
  IntOk r.id ∧ IntOk r.lanes ∧
  NumsOk q [r.length, r.ffsCar, r.capCar, r.holdCar, r.ffsTruck, r.capTruck, r.holdTruck, r.factor]

/-- The arguments of the link, in metres, seconds and vehicles. -/
def LinkLine2.meaning (q : Str → ℚ) (unit scalar : ℚ) (r : LinkLine2) : MLnk.Args :=
  { lanes := r.lanes
    length := q r.length * 1600
    holdCar := q r.holdCar / 1600
    holdTruck := q r.holdTruck / 1600
    capCar := q r.capCar / 3600
    capTruck := q r.capTruck / 3600
    ffsCar := q r.ffsCar * 1600 / 3600
    ffsTruck := q r.ffsTruck * 1600 / 3600
    unit := unit
    factor := q r.factor
    scalar := scalar }

end Verif.Rd

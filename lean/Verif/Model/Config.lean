import Verif.Model.Text

/-! # Model of the configuration file, `ConfigFile` and `MNM_ConfReader` of `ults.cpp` -/

namespace Verif.Text

/-- The delimiters of `ults.cpp:191` `trim`. -/
def isDelim (c : Char) : Bool := c == ' ' || c == '\t' || c == '\r' || c == '\n'

/-- `ults.cpp:190-204` `trim (source, " \t\r\n")`. -/
def ctrim (s : Str) : Str :=
  ((s.reverse.dropWhile isDelim).reverse).dropWhile isDelim

/-- What the constructor keeps while reading: `inSection` and `content_` (a `std::map`). -/
structure Conf where
  sec : Str
  content : Store Str Str

/-- `ults.cpp:216-235`, one line.  `line.substr (1, line.find (']') - 1)`: the text up to the first
`]` or to the end.  Without `=`, `posEqual` is -1, so the name is the whole line and the value is the
whole line, too. -/
def confLine (c : Conf) (raw : Str) : Conf :=
  let line := ctrim raw
  match line with
  | [] => c
  | h :: r =>
    if h == '#' || h == ';' then c
    else if h == '[' then { c with sec := ctrim (r.takeWhile (· != ']')) }
    else
      let name := ctrim (line.takeWhile (· != '='))
      let value := match line.dropWhile (· != '=') with
        | [] => ctrim line
        | _ :: v => ctrim v
      { c with content := c.content.set (c.sec ++ '/' :: name) value }

/-- `ults.cpp:206-236` `ConfigFile::ConfigFile`: `while (std::getline (file, line))`.  `line` is the
same variable all the time, but it is overwritten before it is used. -/
def confLoop : ℕ → In → Conf → Res Conf
  | 0, _, _ => .diverge
  | fuel + 1, i, c =>
    if getlineOk i then confLoop fuel (getline i) (confLine c (getline i).line) else .ok c

/-- The constructor on a file with the given content. -/
def parseConf (fuel : ℕ) (content : Str) : Res (Store Str Str) :=
  (confLoop fuel (In.open content) ⟨[], []⟩).bind fun c => .ok c.content

/-- `ults.cpp:238-248` `ConfigFile::Value (section, entry)`. -/
def confValue (m : Store Str Str) (sec entry : Str) : Res Str :=
  match m.get (sec ++ '/' :: entry) with
  | none => .throw "invalid_argument"
  | some v => .ok v

/-- `ults.cpp:250-280` `ConfigFile::Value (section, entry, value)`: the handler catches
`const char *` only, and `Value` throws `std::invalid_argument`. -/
def confValueDefault (m : Store Str Str) (sec entry : Str) (_value : Str) : Res Str :=
  match confValue m sec entry with
  | .throw e => if e = "const char *" then .ok _value else .throw e
  | r => r

/-- `ults.cpp:297-302` `get_int`: the text goes through `atof` (`ults.cpp:188`) and is converted to
`int`. -/
def getInt (m : Store Str Str) (key entry : Str) : Res ℤ :=
  (confValue m key entry).bind fun v => Ults.toInt (atof v)

/-- `ults.cpp:304-309` `get_float`. -/
def getFloat (m : Store Str Str) (key entry : Str) : Res ℚ :=
  (confValue m key entry).bind fun v => .ok (atof v)

/-- `ults.cpp:311-316` `get_string`. -/
def getString (m : Store Str Str) (key entry : Str) : Res Str := confValue m key entry

end Verif.Text

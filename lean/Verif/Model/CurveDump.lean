import Verif.Model.EvRecords

/-!
# Model of `MNM_IO::dump_cumulative_curve`

`io.cpp:1153-1183`.  The text written; failures to open the file are left out.  The links come in the order of the hash map.
-/

namespace Verif.CvD
open Text

/-- A link with the curves it has: `m_link_ID`, `m_N_in`, `m_N_out` (`dlink.h`). -/
structure Lk where
  id : ℤ
  ins : Option Curve.Curve
  outs : Option Curve.Curve

/-- `io.cpp:1169-1174` and `1175-1180`: the text of one curve, if the link has it. -/
def oneCurve (id : ℤ) (word : Str) : Option Curve.Curve → Res Str
  | none => .ok []
  | some c => (EvRec.curveText c).bind fun s => .ok (toStr id ++ ',' :: (word ++ ',' :: (s ++ ['\n'])))

/-- `io.cpp:1163-1181`: the links in turn, the curve of arrivals before that of departures. -/
def dump (links : List Lk) : Res Str :=
  Res.foldlM (fun acc l => (oneCurve l.id ['i', 'n'] l.ins).bind fun a => (oneCurve l.id ['o', 'u', 't'] l.outs).bind fun b =>
    .ok (acc ++ a ++ b)) [] links

end Verif.CvD

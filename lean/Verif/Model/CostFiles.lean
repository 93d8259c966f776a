import Verif.Model.FlowFiles

/-!
# Model of saving the travel times and disutilities of paths

`path.cpp:703-780` `save_path_table` with costs, `path.cpp:121-132` `time_vec_to_string` and `path.cpp:147-158`
`disutility_vec_to_string`.
-/

namespace Verif.CostF
open Text Io FlowF

/-- `path.cpp:121-132` `time_vec_to_string`, `134-145` `cost_vec_to_string` and `147-158` `disutility_vec_to_string`: `pop_back` of
an empty string is undefined. -/
def vecText (v : List ℚ) : Res Str :=
  let s := v.flatMap fun x => dec x ++ [' ']
  if s = [] then .ub else .ok (s.dropLast ++ ['\n'])

/-- What is saved of a path: its nodes, the times and the disutilities. -/
structure CostRec where
  nodes : List ℤ
  times : List ℚ
  dis : List ℚ

/-- The files of the table, of the times and of the disutilities. -/
structure Files where
  table : Str
  times : Str
  dis : Str

/-- `path.cpp:751-764`: one path. -/
def costRow (f : Files) (p : CostRec) : Res Files :=
  (nodeVecToString p.nodes).bind fun n => (vecText p.times).bind fun t => (vecText p.dis).bind fun d =>
    .ok ⟨f.table ++ n, f.times ++ t, f.dis ++ d⟩

/-- `path.cpp:703-780` `save_path_table` with costs and without buffers; `ps` are the paths in the order of the maps. -/
def saveCosts (ps : List CostRec) : Res Files := Res.foldlM costRow ⟨[], [], []⟩ ps

end Verif.CostF

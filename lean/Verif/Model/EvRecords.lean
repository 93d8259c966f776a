import Verif.Model.FlowFiles
import Verif.Model.Curve
import Verif.Spec.Io

/-!
# Model of the records that charging stations save: `MNM_Charging_Station::save_waiting_time_record`
(`ev_traffic.cpp:470-500`), `save_cc` (`ev_traffic.cpp:452-468`), `MNM_Cumulative_Curve::to_string` (`dlink.cpp:1296-1308`).

The texts written; failures to open the files are left out.
-/

namespace Verif.EvRec
open Text Io FlowF

def waitHeader : Str := "loading_interval,waiting_time_in_second".toList

def chargedHeader : Str := "loading_interval,cum_vehicle_charged".toList

/-- `ev_traffic.cpp:489-494`, one interval; the product is one of integers. -/
def waitRow (unit : ℤ) (rec : List (ℤ × ℤ)) (acc : Str) (k : ℤ) : Res Str :=
  match rec.find? fun x => decide (x.1 = k) with
  | none => .ub
  | some x =>
    if -2147483648 ≤ x.2 * unit ∧ x.2 * unit ≤ 2147483647 then .ok (acc ++ (toStr x.1 ++ ',' :: (toStr (x.2 * unit) ++ ['\n'])))
    else .ub

/-- `ev_traffic.cpp:470-500`; `rec` is `m_waiting_time_record` in the order of the hash map. -/
def saveWaits (unit : ℤ) (rec : List (ℤ × ℤ)) : Res Str :=
  (Res.foldlM (waitRow unit rec) (waitHeader ++ ['\n']) ((rec.map (·.1)).mergeSort fun a b => decide (a ≤ b))).bind fun s =>
    .ok s.dropLast

/-- `int (double)` as a conversion, within range. -/
def cut (t : ℚ) : ℤ := if 0 ≤ t then ⌊t⌋ else ⌈t⌉

/-- `dlink.cpp:1296-1308` `to_string`; `pop_back` on an empty string is undefined. -/
def curveText (c : Curve.Curve) : Res Str :=
  match (Curve.arrange c).flatMap fun r => toStr (cut r.1) ++ ',' :: (dec r.2 ++ ['\n']) with
  | [] => .ub
  | a :: s => .ok (a :: s).dropLast

/-- `ev_traffic.cpp:452-468`. -/
def saveCharged (c : Curve.Curve) : Res Str := (curveText c).bind fun s => .ok (chargedHeader ++ '\n' :: s)

end Verif.EvRec

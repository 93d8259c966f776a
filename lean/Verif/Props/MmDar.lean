import Verif.Lemmas.MmDar
import Verif.Props.MTrees
import Verif.Props.TransitExample

/-! # C183: assignment ratios of passengers -/

namespace Verif
open Tr Tab

private theorem lax183 {c : Cfg} (hc : c.Wf) (R : Routes) : Hyp c R False := ⟨hc, by simp⟩

/-- C183, the passengers that enter link `l`, as what its tree should know of them. -/
def enteringPax (pnr : ℕ → ℕ) (c : Cfg) (s : State) (l : ℕ) : List Item :=
  (s.log.filter fun e => decide (e.dst = some l)).map fun e =>
    ⟨(e.t : ℚ) + 1, 1 / c.scalar, route pnr s e.veh, (s.pax e.veh).assign⟩

private theorem key_route (pnr : ℕ → ℕ) (s : State) (p : ℕ) : Net.pathKey (card pnr s p).path = route pnr s p := by
  unfold card route
  cases (s.pax p).pnr
  · simp only [Bool.false_eq_true, if_false]
    cases (s.pax p).path <;> rfl
  · rfl

private theorem items_entering (pnr : ℕ → ℕ) (c : Cfg) (s : State) (l : ℕ) :
    Net.itemsOf c.scalar (card pnr s) (onto l) s.log = enteringPax pnr c s l := by
  unfold Net.itemsOf enteringPax onto
  refine List.map_congr_left fun e _ => ?_
  simp only [Net.itemOf, key_route]
  rfl

/-- C183: installing trees on the links `ls` neither disturbs nor stops a loading; and after the loading the tree of a
link that does not lead out of a parking lot is the record of all passengers that have entered it, in the order in which
they entered, each with its path and departure interval. -/
theorem C183_trees (c : Cfg) (hc : c.Wf) (hσ : 0 < c.scalar) (R : Routes) (orcs : List Orc) (hok : ∀ o ∈ orcs, o.Ok R)
    (hT : orcs.length < 10000) (pnr : ℕ → ℕ) (ls : List ℕ) (r : State) (now : ℕ × ℕ) :
    (loadMany c orcs 0 0 (State.init c) = .ok (r, now) ↔
      ∃ f, loadManyT c pnr orcs 0 0 (State.init c, plant ls) = .ok ((r, f), now)) ∧
    ∀ f, loadManyT c pnr orcs 0 0 (State.init c, plant ls) = .ok ((r, f), now) →
      (∀ l, l ∉ ls → f l = none) ∧
      ∀ l ∈ ls, ∃ tr, f l = some tr ∧ (¬ c.outOfLot l → record (enteringPax pnr c r l) = .ok tr) ∧
        ∃ part, part.Sublist (enteringPax pnr c r l) ∧ record part = .ok tr := by
  have full : Full c R False 0 (State.init c) := Full.init c R False
  have G : Going c R False 0 (State.init c) := ⟨full.inv, full.more, by simp [Settled, State.init]⟩
  have key := fun h => loadManyT_ok (pnr := pnr) (ls := ls) (lax183 hc R) hσ orcs 0 0 _ _ (r, now) hok (by omega) G
    (grown_init c pnr ls _) h
  refine ⟨⟨fun h => ?_, ?_⟩, ?_⟩
  · obtain ⟨f, h1, _⟩ := key h
    exact ⟨f, h1⟩
  · rintro ⟨f, h⟩
    exact loadManyT_load _ _ _ _ _ h
  · intro f h
    obtain ⟨f', h1, _, h3⟩ := key (loadManyT_load _ _ _ _ _ h)
    rw [h] at h1
    simp only [Res.ok.injEq, Prod.mk.injEq, true_and, and_true] at h1
    subst h1
    obtain ⟨seen, g1, g2, g3⟩ := h3.tree
    refine ⟨h3.none, fun l hl => ?_⟩
    obtain ⟨tr, q1, q2⟩ := g3 l hl
    refine ⟨tr, q1, fun hlot => ?_, _, ?_, q2⟩
    · rw [← items_entering]
      unfold Net.itemsOf
      rw [← g2 l hlot]
      exact q2
    · rw [← items_entering]
      exact (g1.filter _).map _

/-- The movements after a loading are fit for a tree. -/
private theorem legal183 (c : Cfg) (hc : c.Wf) (hσ : 0 < c.scalar) (R : Routes) (orcs : List Orc) (hok : ∀ o ∈ orcs, o.Ok R)
    (hT : orcs.length < 10000) (pnr : ℕ → ℕ) (r : State) (now : ℕ × ℕ)
    (h : loadMany c orcs 0 0 (State.init c) = .ok (r, now)) (l : ℕ) : LegalItems (enteringPax pnr c r l) := by
  have f := load_full (lax183 hc R) hok h
  rw [← items_entering]
  exact Net.itemsOf_legal hσ _ _ (fun e he => by have := f.past e he; omega) f.more.curves.order

theorem entering_pax (pnr : ℕ → ℕ) (c : Cfg) (s : State) (l : ℕ) (path dep : ℤ) (a z : ℕ) :
    entering (enteringPax pnr c s l) path dep a z = (entered pnr s l path dep a z : ℚ) / c.scalar := by
  unfold entering enteringPax entered
  generalize s.log = log
  induction log with
  | nil => simp
  | cons e log ih =>
    rw [List.countP_cons, Nat.cast_add, add_div, ← ih, List.filter_cons]
    have h1 : ((a : ℚ) < (e.t : ℚ) + 1) ↔ a ≤ e.t := by
      rw [← Nat.lt_succ_iff]; exact_mod_cast Iff.rfl
    have h2 : ((e.t : ℚ) + 1 ≤ (z : ℚ)) ↔ e.t < z := by
      rw [← Nat.succ_le_iff]; exact_mod_cast Iff.rfl
    by_cases hp : e.dst = some l
    · rw [if_pos (by simpa using hp), List.map_cons, List.filter_cons]
      by_cases hq : route pnr s e.veh = path ∧ (s.pax e.veh).assign = dep ∧ a ≤ e.t ∧ e.t < z
      · rw [if_pos (by simp only [h1, h2]; simpa using hq), if_pos (by simp; tauto), List.map_cons, List.sum_cons]
        simp; ring
      · rw [if_neg (by simp only [h1, h2]; simpa using hq), if_neg (by simp; tauto)]
        simp
    · rw [if_neg (by simpa using hp), if_neg (by simp; tauto)]
      simp

private theorem foldlM_congr183 {α β : Type} {f g : β → α → Res β} : ∀ (L : List α) (b : β),
    (∀ x ∈ L, ∀ b, f b x = g b x) → Res.foldlM f b L = Res.foldlM g b L
  | [], _, _ => rfl
  | x :: L, b, h => by
    rw [Res.foldlM_cons, Res.foldlM_cons, h x (by simp)]
    cases g b x with
    | ok v => rw [Res.ok_bind, Res.ok_bind]; exact foldlM_congr183 L v fun y hy => h y (by simp [hy])
    | _ => rfl

/-- C183: `get_passenger_dar_matrix_bustransit` and `get_passenger_dar_matrix_pnr` list, link by link and period by period, every
registered path and departure interval of which passengers have entered the link in the period, each once, with the flow of
these passengers.  Proved for links that do not lead out of a parking lot. -/
theorem C183_records_partial (c : Cfg) (hc : c.Wf) (hσ : 0 < c.scalar ∧ c.scalar < 4503599627370496) (R : Routes)
    (orcs : List Orc) (hok : ∀ o ∈ orcs, o.Ok R) (hT : orcs.length < 10000) (pnr : ℕ → ℕ) (buses walks : List ℕ)
    (r : State) (f : Grove) (now : ℕ × ℕ)
    (h : loadManyT c pnr orcs 0 0 (State.init c, plant (buses ++ walks)) = .ok ((r, f), now))
    (hlot : ∀ l ∈ buses ++ walks, ¬ c.outOfLot l) (hpath : ∀ e ∈ r.log, 0 ≤ route pnr r e.veh)
    (reg : List ℤ) (periods : List (ℕ × ℕ)) (hp : ∀ p ∈ periods, p.1 < p.2 ∧ p.2 ≤ orcs.length) :
    ∃ block : ℕ → ℕ × ℕ → List MNet.DarRec,
      Tr.darRecords orcs.length buses walks f (periods.map fun p => ((p.1 : ℤ), (p.2 : ℤ))) reg
        = .ok ((buses ++ walks).flatMap fun l => periods.flatMap (block l)) ∧
      ∀ l ∈ buses ++ walks, ∀ p ∈ periods, ((block l p).map fun x => (x.path, x.assign)).Nodup ∧
        ∀ x : MNet.DarRec, x ∈ block l p ↔ x.link = l ∧ x.start = p.1 ∧ x.path ∈ reg ∧
          0 < entered pnr r l x.path x.assign p.1 p.2 ∧
          x.flow = (entered pnr r l x.path x.assign p.1 p.2 : ℚ) / c.scalar := by
  have hload := loadManyT_load _ _ _ _ _ h
  have hleg := legal183 c hc hσ.1 R orcs hok hT pnr r now hload
  have htr := ((C183_trees c hc hσ.1 R orcs hok hT pnr (buses ++ walks) r now).2 f h).2
  let tree : ℕ → Tab.Tree := fun l => (f l).getD []
  have ht : ∀ l ∈ buses ++ walks, f l = some (tree l) ∧ record (enteringPax pnr c r l) = .ok (tree l) := by
    intro l hl
    obtain ⟨tr, h1, h2, _⟩ := htr l hl
    have := h2 (hlot l hl)
    simp [tree, h1, this]
  let block : ℕ → ℕ × ℕ → List MNet.DarRec := fun l p => (tree l).flatMap fun e =>
      if e.1.1 ∈ reg ∧ entering (enteringPax pnr c r l) e.1.1 e.1.2 p.1 p.2 > Curve.dblEps then
        [⟨e.1.1, e.1.2, l, p.1, entering (enteringPax pnr c r l) e.1.1 e.1.2 p.1 p.2⟩] else []
  have hone : ∀ l ∈ buses ++ walks, ∀ p ∈ periods,
      Tr.addDarRecords reg l (f l) ((p.1 : ℤ), (p.2 : ℤ)) = .ok (block l p) := by
    intro l hl p hpp
    have := hp p hpp
    rw [(ht l hl).1]
    have e1 := MNet.addDarRecords_eq (hleg l) (ht l hl).2 (s := p.1) (t := p.2) (by omega) (by omega) reg l
    rw [← e1]
    unfold Tr.addDarRecords MNet.addDarRecords
    refine foldlM_congr183 _ _ fun x hx b => ?_
    obtain ⟨_, hkey⟩ := MNet.tree_key (hleg l) (ht l hl).2
    obtain ⟨i, hi, hik⟩ := (hkey x.1).1 (List.mem_map_of_mem hx)
    obtain ⟨e, he, rfl⟩ := List.mem_map.1 hi
    have h0 := hpath e (List.mem_of_mem_filter he)
    have : ¬ x.1.1 < 0 := by rw [← hik]; simpa using h0
    unfold Tr.darRec
    rw [if_neg this]
  refine ⟨block, ?_, ?_⟩
  · have hper : ∀ l ∈ buses ++ walks, ∀ (ps : List (ℕ × ℕ)), (∀ p ∈ ps, p ∈ periods) → ∀ acc,
        Res.foldlM (fun acc p => (checkPeriod orcs.length p).bind fun _ =>
          (Tr.addDarRecords reg l (f l) p).bind fun rs => .ok (acc ++ rs)) acc (ps.map fun p => ((p.1 : ℤ), (p.2 : ℤ)))
        = .ok (acc ++ ps.flatMap (block l)) := by
      intro l hl ps
      induction ps with
      | nil => intro _ acc; simp
      | cons p ps ih =>
        intro hps acc
        have h1 := hp p (hps p (by simp))
        have hck : checkPeriod orcs.length ((p.1 : ℤ), (p.2 : ℤ)) = .ok () := by
          unfold checkPeriod
          simp only
          rw [if_neg (by omega), if_neg (by omega), if_neg (by omega)]
        rw [List.map_cons, Res.foldlM_cons, hck, Res.bind_ok', hone l hl p (hps p (by simp)), Res.bind_ok',
          Res.ok_bind, ih fun q hq => hps q (by simp [hq])]
        simp
    have hall : ∀ ks : List ℕ, (∀ l ∈ ks, l ∈ buses ++ walks) → ∀ acc,
        Res.foldlM (fun acc l => Res.foldlM (fun acc p => (checkPeriod orcs.length p).bind fun _ =>
          (Tr.addDarRecords reg l (f l) p).bind fun rs => .ok (acc ++ rs)) acc (periods.map fun p => ((p.1 : ℤ), (p.2 : ℤ))))
          acc ks = .ok (acc ++ ks.flatMap fun l => periods.flatMap (block l)) := by
      intro ks
      induction ks with
      | nil => intro _ acc; simp
      | cons l ks ih =>
        intro hks acc
        rw [Res.foldlM_cons, hper l (hks l (by simp)) periods (fun _ h => h), Res.ok_bind,
          ih fun q hq => hks q (by simp [hq])]
        simp
    have := hall (buses ++ walks) (fun _ h => h) []
    rw [List.nil_append] at this
    exact this
  · intro l hl p hpp
    obtain ⟨hnd, hkey⟩ := MNet.tree_key (hleg l) (ht l hl).2
    constructor
    · have : ((block l p).map fun x => (x.path, x.assign)).Sublist (tree l).keys := by
        simp only [block, Store.keys]
        generalize tree l = tr
        induction tr with
        | nil => simp
        | cons e tr ih =>
          rw [List.flatMap_cons, List.map_append, List.map_cons]
          split
          · exact List.Sublist.cons_cons _ ih
          · exact List.Sublist.cons _ ih
      exact hnd.sublist this
    · intro x
      simp only [block, List.mem_flatMap]
      constructor
      · rintro ⟨e, he, hx⟩
        split at hx
        · rename_i hc'
          rw [List.mem_singleton] at hx
          subst hx
          simp only
          rw [entering_pax, share_pos hσ] at hc'
          exact ⟨trivial, trivial, hc'.1, hc'.2, entering_pax _ _ _ _ _ _ _ _⟩
        · cases hx
      · rintro ⟨rfl, h2, h3, h4, h5⟩
        have : (x.path, x.assign) ∈ (tree x.link).keys := by
          rw [hkey]
          unfold entered at h4
          rw [List.countP_pos_iff] at h4
          obtain ⟨e, he, hd⟩ := h4
          simp only [decide_eq_true_eq] at hd
          refine ⟨⟨(e.t : ℚ) + 1, 1 / c.scalar, route pnr r e.veh, (r.pax e.veh).assign⟩, ?_, ?_⟩
          · unfold enteringPax
            exact List.mem_map.2 ⟨e, List.mem_filter.2 ⟨he, by simp only [decide_eq_true_eq]; tauto⟩, rfl⟩
          · simp only [Prod.mk.injEq]; tauto
        obtain ⟨e, he, hek⟩ := List.mem_map.1 this
        refine ⟨e, he, ?_⟩
        have e1 : e.1.1 = x.path := by rw [hek]
        have e2 : e.1.2 = x.assign := by rw [hek]
        rw [e1, e2, entering_pax, if_pos ⟨h3, (share_pos hσ _).2 h4⟩, List.mem_singleton, ← h5, ← h2]

/-- C183: asking for the ratios of a link whose tree was not installed throws. -/
theorem C183_not_installed (reg : List ℤ) (l : ℕ) (p : ℤ × ℤ) :
    Tr.addDarRecords reg l none p = .throw "link cumulative curve tree is not installed" := rfl

namespace DarEx
open Tr Curve

/-- The paths of the passengers of `Tr.Ex` that came by car. -/
def pnr : ℕ → ℕ := fun _ => 4

/-- The loading of `Tr.Ex` with trees on the bus link 2 and the walking link 4. -/
def run : Res ((State × Grove) × ℕ × ℕ) := loadManyT (Ex.cfg true) pnr Ex.days 0 0 (State.init (Ex.cfg true), plant ([2] ++ [4]))

example : (run.bind fun r => Tr.darRecords 12 [2] [4] r.1.2 [(0, 12), (0, 6)] [0, 4]) =
    .ok [⟨0, 0, 2, 0, 2⟩, ⟨4, 0, 2, 0, 1⟩, ⟨0, 0, 2, 0, 2⟩, ⟨4, 0, 2, 0, 1⟩, ⟨0, 0, 4, 0, 2⟩, ⟨4, 0, 4, 0, 1⟩] := by
  decide +kernel

example : (run.bind fun r => .ok (r.1.1.log.all fun e => decide (0 ≤ route pnr r.1.1 e.veh))) = .ok true := by
  decide +kernel

example : ¬ (Ex.cfg true).outOfLot 2 ∧ ¬ (Ex.cfg true).outOfLot 4 ∧ (Ex.cfg true).outOfLot 5 := by
  simp [Cfg.outOfLot, Ex.cfg]

/-- Another network: link 0 leads from the origin to a destination with a parking lot, link 5 from there to another
destination, to which two passengers go. -/
def cfg : Cfg :=
  { Ex.cfg true with
    link := fun l => if l = 0 then ⟨.normal, 1, 20, .destination⟩ else ⟨.normal, 1, 30, .destination⟩
    linkIds := [0, 5], origin := fun _ => ⟨1, 6, [(1, fun _ => 2)]⟩, destIds := [0, 1]
    dest := fun d => if d = 0 then ⟨20, [0], some 0⟩ else ⟨30, [5], none⟩
    pstopIds := [], vstopIds := [] }

/-- An interval of this network. -/
def orc : Orc :=
  { Ex.orc [] [] with pt := ⟨fun o d => if o = 1 ∧ d = 30 then some [(0, 1)] else none, fun _ => [0, 5]⟩ }

/-- Six intervals of this network, with trees on both links. -/
def pass : Res ((State × Grove) × ℕ × ℕ) :=
  loadManyT cfg pnr (List.replicate 6 orc) 0 0 (State.init cfg, plant ([] ++ [0, 5]))

theorem wf : cfg.Wf := by
  refine ⟨?_, ?_, ?_, ?_, ?_, ?_, ?_⟩ <;> simp [cfg, Ex.cfg, Ex.link, Kind.walking]

end DarEx

open DarEx Curve in
/-- C183 is false of passengers that walk on through a destination with a parking lot: both passengers enter link 5, the
cumulative curve of the link and its tree disagree, and there is no record of them. -/
theorem C183_false_through_destinations :
    (pass.bind fun r => (getResult (r.1.1.nIn 5) 6).bind fun a => (getResult (r.1.1.nIn 0) 6).bind fun b =>
      (Tr.darRecords 6 [] [0, 5] r.1.2 [(0, 6)] [0]).bind fun rs =>
      .ok (a, b, entered pnr r.1.1 5 0 0 0 6, rs)) = .ok (2, 2, 2, [⟨0, 0, 0, 0, 2⟩]) := by
  decide +kernel

end Verif

import Verif.Lemmas.Record
import Verif.Props.MNet

/-! # C118 to C120: what a loading puts on record -/

namespace Verif
open Ults Curve MNet Rec
open Net (Event)

/-! ## C118 -/

namespace RecEx

/-- Attributes of links: link 12 has less capacity than the others. -/
def args (l : ℕ) : MLnk.Args := if l = 12 then { MNetEx.mAt with capCar := 1 / 4, capTruck := 1 / 8 } else MNetEx.mAt

/-- Links 11 and 12 are cell transmission links, the others point queues. -/
def kind (l : ℕ) : MLnk.Kind := if l = 11 ∨ l = 12 then .ctm else .pq

/-- Origin node 1, a point queue, junction 2, a cell transmission link, junction 3, a cell transmission link with less
capacity, junction 4, another point queue, destination node 5. -/
def cfg : MNet.Cfg where
  net :=
    { scalar := 4
      assignFreq := 3
      totalAssign := 2
      linkIds := [10, 11, 12, 13]
      nodeIds := [1, 2, 3, 4, 5]
      node := fun n => if n = 1 then .origin [10] else if n = 2 then .fwj [10] [11] else
        if n = 3 then .fwj [11] [12] else if n = 4 then .fwj [12] [13] else .dest [13]
      toNode := fun l => if l = 10 then 2 else if l = 11 then 3 else if l = 12 then 4 else 5
      outLinks := fun n => if n = 1 then [10] else if n = 2 then [11] else if n = 3 then [12] else
        if n = 4 then [13] else []
      originIds := [100]
      origin := fun _ => ⟨1, 3, [], fun _ => none, []⟩
      destIds := [200]
      destNode := fun _ => 5 }
  factor := 2
  dem _ := ⟨[(200, fun k => if k = 0 then 3 / 4 else 1 / 2)], [(200, fun _ => 2 / 4)], fun _ => none,
    fun _ => none, [], []⟩
  attrs _ := []

/-- A new link. -/
def mk (l : ℕ) : MLnk.Link ℕ :=
  match (MLnk.mkLink (kind l) (args l) : Res (MLnk.Link ℕ)) with
  | .ok x => x
  | _ => .pq ⟨args l, 1, [], 0, 0, .empty⟩

/-- Links with all curves. -/
def links (l : ℕ) : MNet.LinkSt := ⟨mk l, some install, some install, some install, some install⟩

/-- The only path uses all links. -/
def orc : MNet.StepOracle := { MNetEx.orc with
  routing := .biclass none ⟨fun _ _ => some [(5, 1)], fun _ => [10, 11, 12, 13]⟩
    ⟨fun _ _ => some [(5, 1)], fun _ => [10, 11, 12, 13]⟩ }

/-- A loading of fourteen intervals. -/
def run : Res ((State × Books) × ℕ × ℕ) :=
  loadManyR cfg (List.replicate 14 orc) 0 0 (State.init links, Books.empty)

theorem cfg_ok : cfg.net.Ok := by
  refine ⟨by decide, by decide, ?_, ?_, ?_, ?_⟩
  · intro n hn
    have h : n = 1 ∨ n = 2 ∨ n = 3 ∨ n = 4 ∨ n = 5 := by simpa [cfg] using hn
    rcases h with rfl | rfl | rfl | rfl | rfl <;> simp [cfg, Net.Node.ins]
  · intro n hn
    have h : n = 1 ∨ n = 2 ∨ n = 3 ∨ n = 4 ∨ n = 5 := by simpa [cfg] using hn
    rcases h with rfl | rfl | rfl | rfl | rfl <;> simp [cfg, Net.Node.outs]
  · intro o _; simp [cfg]
  · intro d _; simp [cfg]

theorem orc_ok : orc.Ok cfg := by
  refine ⟨?_, ?_⟩
  · intro _ l; exact List.reverse_perm l
  · intro n k
    by_cases h : n = 1
    · subst h; simp [orc, MNetEx.orc, cfg, Net.Node.ins]
    · by_cases h2 : n = 2
      · subst h2; simp [orc, MNetEx.orc, cfg, Net.Node.ins, List.range_succ]
      · by_cases h3 : n = 3
        · subst h3; simp [orc, MNetEx.orc, cfg, Net.Node.ins, List.range_succ]
        · by_cases h4 : n = 4
          · subst h4; simp [orc, MNetEx.orc, cfg, Net.Node.ins, List.range_succ]
          · simp [orc, MNetEx.orc, cfg, Net.Node.ins, h, h2, h3, h4, List.range_succ]

theorem made (l : ℕ) : MLnk.mkLink (kind l) (args l) = .ok (mk l) := by
  have h : ∀ k ∈ [MLnk.Kind.ctm, MLnk.Kind.pq], ∀ b ∈ [true, false],
      ((MLnk.mkLink k (if b then { MNetEx.mAt with capCar := 1 / 4, capTruck := 1 / 8 } else MNetEx.mAt)
        : Res (MLnk.Link ℕ)).bind fun _ => .ok ()) = .ok () := by
    decide +kernel
  have h := h (kind l) (by unfold kind; split <;> simp) (decide (l = 12)) (by by_cases e : l = 12 <;> simp [e])
  rw [Res.bind_eq_ok'] at h
  obtain ⟨x, hx, _⟩ := h
  have e : args l = if decide (l = 12) = true then { MNetEx.mAt with capCar := 1 / 4, capTruck := 1 / 8 } else MNetEx.mAt := by
    simp [args]
  rw [← e] at hx
  unfold mk
  rw [hx]

theorem fresh : Fresh (State.init links) :=
  ⟨links, rfl, fun l => ⟨⟨kind l, args l, made l⟩, fun b => Or.inr (by cases b <;> exact ⟨rfl, rfl⟩)⟩⟩

theorem uniform : Uniform cfg 1 (State.init links) := by
  intro l _
  refine ⟨kind l, args l, made l, ?_, ?_⟩ <;> (unfold args; split <;> rfl)

end RecEx

/-- The hypotheses about the network, and the loading of the example runs. -/
example : RecEx.cfg.net.Ok ∧ RecEx.cfg.net.scalar ≠ 0 ∧ Fresh (State.init RecEx.links) ∧
    (∀ o ∈ List.replicate 14 RecEx.orc, o.Ok RecEx.cfg) ∧ Uniform RecEx.cfg 1 (State.init RecEx.links) ∧
    (∀ l x, (((State.init RecEx.links).links l).nIn x).isSome) := by
  refine ⟨RecEx.cfg_ok, by decide, RecEx.fresh, ?_, RecEx.uniform, fun l x => by cases x <;> rfl⟩
  intro o ho
  rw [List.eq_of_mem_replicate ho]
  exact RecEx.orc_ok


theorem places_len {c : Cfg} {s : State} (h : MCore c s) : (s.places c).length = s.vehMap.length :=
  (List.perm_iff_count.2 fun v => h.place v).length_eq

theorem length_flatMap_sum {f : ℕ → List ℕ} : ∀ ls : List ℕ, (ls.flatMap f).length = (ls.map fun l => (f l).length).sum
  | [] => rfl
  | a :: ls => by simp [List.flatMap_cons, length_flatMap_sum ls]

theorem sum_filter_le' {f g : ℕ → ℕ} (p : ℕ → Bool) : ∀ ls : List ℕ, (∀ l ∈ ls, f l ≤ g l) →
    ((ls.filter p).map f).sum ≤ (ls.map g).sum
  | [], _ => by simp
  | a :: ls, hfg => by
    have := sum_filter_le' p ls fun l hl => hfg l (by simp [hl])
    have := hfg a (by simp)
    rw [List.filter_cons]
    split <;> simp only [List.map_cons, List.sum_cons] <;> omega

/-- C118: after every loading `get_enroute_and_queue_veh_stats_agg` returns one row per interval.  Its first entry is
the number of vehicles in the network at the end of the interval (those released and not yet arrived), its second the
number of vehicles in the exit queues, and its third the difference, all in flow units; the queues are those on record
for the links that are not point queues, and never hold more vehicles than there are in the network. -/
theorem C118_vehicles_under_way (c : Cfg) (hc : c.net.Ok) (hsc : c.net.scalar ≠ 0) (s : State) (hs : Fresh s)
    (os : List StepOracle) (hos : ∀ o ∈ os, o.Ok c) (assign : ℕ) (r : (State × Books) × ℕ × ℕ)
    (h : loadManyR c os 0 assign (s, Books.empty) = .ok r) :
    ∃ rows, enrouteStats c r.2.1 r.1.2 = .ok rows ∧ rows.length = os.length ∧
      ∀ i < os.length, ∃ after, ∃ e q : ℕ, loadMany c (os.take (i + 1)) 0 assign s = .ok after ∧
        rows[i]? = some ((e : ℚ) / c.net.scalar, (q : ℚ) / c.net.scalar, ((e - q : ℕ) : ℚ) / c.net.scalar) ∧
        e = (after.1.places c).length ∧ after.1.numVeh = e + after.1.finished ∧
        q = ((c.net.linkIds.filter fun l => !Rec.isPq (s.links l).link).map fun l => (r.1.2.queue l).getD i 0).sum ∧
        q ≤ e := by
  obtain ⟨I, _, _, hn⟩ := run_inv hc hsc hs os hos r h
  refine ⟨_, by unfold enrouteStats; rw [if_neg (by rw [I.lenE, hn]; simp), if_neg (by rw [I.lenN, hn]; simp)],
    by simp [hn], ?_⟩
  intro i hi
  obtain ⟨before, after, q, f1, f2, E⟩ := I.entry i hi
  have hos' : ∀ o ∈ os.take (i + 1), o.Ok c := fun o ho => hos o (List.mem_of_mem_take ho)
  have M := (loadMany_inv hc hsc (os.take (i + 1)) 0 assign s after hos' (fresh_inv hs) f2).1
  have hq : ((c.net.linkIds.filter fun l => !Rec.isPq (s.links l).link).map fun l => (r.1.2.queue l).getD i 0)
      = ((c.net.linkIds.filter fun l => !Rec.isPq (before.1.links l).link).map fun l => q false l + q true l) := by
    obtain ⟨b0, h0⟩ := loadManyR_ok _ _ _ _ Books.empty _ f1
    have I0 := (run_inv hc hsc hs _ (fun o ho => hos o (List.mem_of_mem_take ho)) _ h0).1
    have e : (c.net.linkIds.filter fun l => !Rec.isPq (s.links l).link)
        = c.net.linkIds.filter fun l => !Rec.isPq (before.1.links l).link := by
      apply List.filter_congr
      intro l hl
      rw [(I0.same l hl).pq]
    rw [e]
    apply List.map_congr_left
    intro l hl
    rw [List.getD_eq_getElem?_getD, E.queue l (List.mem_of_mem_filter hl)]
    rfl
  have hle : ((c.net.linkIds.filter fun l => !Rec.isPq (before.1.links l).link).map fun l => q false l + q true l).sum
      ≤ (after.1.places c).length := by
    refine le_trans (sum_filter_le' (g := fun l => (after.1.on l).length) _ _ ?_) ?_
    · intro l hl
      rw [← cls_add after.1.truck]
      have := E.on l hl false
      have := E.on l hl true
      omega
    · unfold State.places
      rw [List.length_append, length_flatMap_sum c.net.linkIds]
      omega
  have he : after.1.enroute = ((after.1.places c).length : ℤ) := by
    rw [places_len M.toMCore]; exact M.toMCore.view.enroute
  refine ⟨after, (after.1.places c).length, _, f2, ?_, rfl, ?_, rfl, by rw [hq]; exact hle⟩
  · rw [hq]
    have hlt : i < r.2.1 := by rw [hn]; exact hi
    rw [List.getElem?_map, List.getElem?_range hlt]
    simp only [Option.map_some, Option.some.injEq]
    rw [List.getD_eq_getElem?_getD, List.getD_eq_getElem?_getD, E.enroute, E.queueNum, he]
    simp only [Option.getD_some]
    push_cast [Nat.cast_sub hle]
    rfl
  · rw [places_len M.toMCore]; exact M.toMCore.view.len.symm

/-- C118: what the queue on record for a link and an interval means.  `get_queue_veh_each_link` returns it in flow
units, and it is the number of vehicles that had reached the end of the link before the interval and did not leave it
in the interval; the records of cars and trucks say the same of their class and add up to it, and these vehicles are
on the link at the end of the interval. -/
theorem C118_queue_of_a_link (c : Cfg) (hc : c.net.Ok) (hsc : c.net.scalar ≠ 0) (s : State) (hs : Fresh s)
    (os : List StepOracle) (hos : ∀ o ∈ os, o.Ok c) (assign : ℕ) (r : (State × Books) × ℕ × ℕ)
    (h : loadManyR c os 0 assign (s, Books.empty) = .ok r) (l : ℕ) (hl : l ∈ c.net.linkIds) (i : ℕ)
    (hi : i < os.length) :
    ∃ before after, ∃ q : Bool → ℕ, loadMany c (os.take i) 0 assign s = .ok before ∧
      loadMany c (os.take (i + 1)) 0 assign s = .ok after ∧
      queueEntry c r.1.2 i l = .ok (((q false + q true : ℕ) : ℚ) / c.net.scalar) ∧
      ∀ x, (r.1.2.queueOf x l)[i]? = some (q x) ∧
        ((before.1.fin l).countP fun v => after.1.truck v == x) = q x + leftIn after.1 x l i ∧
        q x ≤ (after.1.on l).countP fun v => after.1.truck v == x := by
  obtain ⟨I, _, _, hn⟩ := run_inv hc hsc hs os hos r h
  obtain ⟨before, after, q, f1, f2, E⟩ := I.entry i hi
  refine ⟨before, after, fun x => q x l, f1, f2, ?_, fun x => ⟨E.queueOf l hl x, E.fin l hl x, E.on l hl x⟩⟩
  unfold queueEntry
  rw [if_neg (by simpa using hl), if_neg (by omega)]
  simp only [Int.toNat_natCast, E.queue l hl]

theorem mapR_ok {α β : Type} {f : α → Res β} {g : α → β} : ∀ {as : List α}, (∀ a ∈ as, f a = .ok (g a)) →
    mapR f as = .ok (as.map g)
  | [], _ => rfl
  | a :: as, h => by
    simp only [mapR, h a (by simp), Res.bind_ok', mapR_ok (as := as) fun x hx => h x (by simp [hx]), List.map_cons]

theorem mapR_throw {α β : Type} {f : α → Res β} (hf : ∀ a, (∃ b, f a = .ok b) ∨ ∃ m, f a = .throw m) :
    ∀ {as : List α}, (∃ a ∈ as, ∃ m, f a = .throw m) → ∃ m, mapR f as = .throw m
  | [], h => by simp at h
  | a :: as, h => by
    rcases hf a with ⟨b, hb⟩ | ⟨m, hm⟩
    · have : ∃ x ∈ as, ∃ m, f x = .throw m := by
        obtain ⟨x, hx, m, hm⟩ := h
        rcases List.mem_cons.1 hx with rfl | hx
        · rw [hb] at hm; simp at hm
        · exact ⟨x, hx, m, hm⟩
      obtain ⟨m, hm⟩ := mapR_throw hf this
      exact ⟨m, by simp [mapR, hb, hm]⟩
    · exact ⟨m, by simp [mapR, hm]⟩

/-- C118: for links of the network and intervals of the loading, `get_queue_veh_each_link` returns one row per link
with one entry per interval; asked for an interval that has not been simulated or, with an interval to look at, for a
link that does not exist, it throws. -/
theorem C118_queues (c : Cfg) (hc : c.net.Ok) (hsc : c.net.scalar ≠ 0) (s : State) (hs : Fresh s)
    (os : List StepOracle) (hos : ∀ o ∈ os, o.Ok c) (assign : ℕ) (r : (State × Books) × ℕ × ℕ)
    (h : loadManyR c os 0 assign (s, Books.empty) = .ok r) (links : List ℕ) (intervals : List ℤ)
    (ht0 : ∀ t ∈ intervals, 0 ≤ t) :
    ((∀ l ∈ links, l ∈ c.net.linkIds) → (∀ t ∈ intervals, t < os.length) →
      ∃ rows, queueEach c r.2.1 r.1.2 links intervals = .ok rows ∧ rows.length = links.length ∧
        ∀ i (hi : i < links.length) j (hj : j < intervals.length), ∃ row x, rows[i]? = some row ∧
          row.length = intervals.length ∧ row[j]? = some x ∧
          queueEntry c r.1.2 intervals[j] links[i] = .ok x) ∧
    (((∃ t ∈ intervals, (os.length : ℤ) ≤ t) ∨ ((∃ l ∈ links, l ∉ c.net.linkIds) ∧ intervals ≠ [])) →
      ∃ m, queueEach c r.2.1 r.1.2 links intervals = .throw m) := by
  obtain ⟨I, _, _, hn⟩ := run_inv hc hsc hs os hos r h
  have entry : ∀ l ∈ c.net.linkIds, ∀ t : ℤ, 0 ≤ t → t < os.length →
      queueEntry c r.1.2 t l = .ok ((((r.1.2.queue l).getD t.toNat 0 : ℕ) : ℚ) / c.net.scalar) := by
    intro l hl t h0 h1
    unfold queueEntry
    rw [if_neg (by simpa using hl), if_neg (by omega)]
    have : t.toNat < (r.1.2.queue l).length := by rw [I.lenQ l hl]; omega
    rw [List.getElem?_eq_getElem this, List.getD_eq_getElem?_getD, List.getElem?_eq_getElem this]
    rfl
  refine ⟨?_, ?_⟩
  · intro hl ht
    have e1 : ∀ t ∈ intervals, (if t ≥ (r.2.1 : ℤ) then
        Res.throw "input start intervals exceeds the total loading intervals - 1"
        else mapR (queueEntry c r.1.2 t) links)
        = .ok (links.map fun l => (((r.1.2.queue l).getD t.toNat 0 : ℕ) : ℚ) / c.net.scalar) := by
      intro t htm
      have := ht t htm
      rw [if_neg (by rw [hn]; omega)]
      exact mapR_ok fun l hl' => entry l (hl l hl') t (ht0 t htm) (ht t htm)
    refine ⟨_, by unfold queueEach; rw [mapR_ok e1]; rfl, by simp, ?_⟩
    intro i hi j hj
    refine ⟨_, _, by rw [List.getElem?_map, List.getElem?_range hi]; rfl, by simp, ?_,
      entry _ (hl _ (List.getElem_mem hi)) _ (ht0 _ (List.getElem_mem hj)) (ht _ (List.getElem_mem hj))⟩
    simp [List.getElem?_map, List.getElem?_eq_getElem hj, List.getElem?_eq_getElem hi]
  · intro hbad
    have total : ∀ t : ℤ, 0 ≤ t → t < os.length → ∀ l, (∃ x, queueEntry c r.1.2 t l = .ok x) ∨
        ∃ m, queueEntry c r.1.2 t l = .throw m := by
      intro t h0 h1 l
      by_cases hl : l ∈ c.net.linkIds
      · exact Or.inl ⟨_, entry l hl t h0 h1⟩
      · exact Or.inr ⟨_, by unfold queueEntry; rw [if_pos hl]⟩
    have row : ∀ t : ℤ, 0 ≤ t → t < os.length → ∀ ls, (∃ x, mapR (queueEntry c r.1.2 t) ls = .ok x) ∨
        ∃ m, mapR (queueEntry c r.1.2 t) ls = .throw m := by
      intro t h0 h1 ls
      induction ls with
      | nil => exact Or.inl ⟨_, rfl⟩
      | cons a ls ih =>
        rcases total t h0 h1 a with ⟨x, hx⟩ | ⟨m, hm⟩
        · rcases ih with ⟨y, hy⟩ | ⟨m, hm⟩
          · exact Or.inl ⟨x :: y, by simp only [mapR, hx, hy, Res.bind_ok']⟩
          · exact Or.inr ⟨m, by simp [mapR, hx, hm]⟩
        · exact Or.inr ⟨m, by simp [mapR, hm]⟩
    have whole : ∀ ts : List ℤ, (∀ t ∈ ts, 0 ≤ t) →
        ((∃ t ∈ ts, (os.length : ℤ) ≤ t) ∨ ((∃ l ∈ links, l ∉ c.net.linkIds) ∧ ts ≠ [])) →
        ∃ m, mapR (fun t : ℤ => if t ≥ (r.2.1 : ℤ) then
          Res.throw "input start intervals exceeds the total loading intervals - 1"
          else mapR (queueEntry c r.1.2 t) links) ts = .throw m := by
      intro ts
      induction ts with
      | nil => intro _ h; simp at h
      | cons t ts ih =>
        intro h0 hb
        by_cases hlt : (os.length : ℤ) ≤ t
        · exact ⟨_, by simp only [mapR]; rw [if_pos (by rw [hn]; exact hlt)]; rfl⟩
        · have hneg : ¬ t ≥ (r.2.1 : ℤ) := by rw [hn]; exact hlt
          rcases hb with ⟨t', ht', hge⟩ | ⟨⟨l, hl, hlb⟩, _⟩
          · have ht'' : t' ∈ ts := by
              rcases List.mem_cons.1 ht' with rfl | h
              · exact absurd hge hlt
              · exact h
            obtain ⟨m, hm⟩ := ih (fun x hx => h0 x (by simp [hx])) (Or.inl ⟨t', ht'', hge⟩)
            rcases row t (h0 t (by simp)) (by omega) links with ⟨x, hx⟩ | ⟨m', hm'⟩
            · exact ⟨m, by simp only [mapR]; rw [if_neg hneg, hx, Res.bind_ok', hm]; rfl⟩
            · exact ⟨m', by simp only [mapR]; rw [if_neg hneg, hm']; rfl⟩
          · obtain ⟨m, hm⟩ := mapR_throw (total t (h0 t (by simp)) (by omega)) (as := links)
              ⟨l, hl, _, by unfold queueEntry; rw [if_pos hlb]⟩
            exact ⟨m, by simp only [mapR]; rw [if_neg hneg, hm]; rfl⟩
    obtain ⟨m, hm⟩ := whole intervals ht0 hbad
    exact ⟨m, by unfold queueEach; rw [hm]; rfl⟩

/-- C118 says nothing of negative intervals: the query reads outside of the record. -/
theorem C118_negative_intervals (c : Cfg) (now : ℕ) (b : Books) (l : ℕ) (hl : l ∈ c.net.linkIds) (links : List ℕ)
    (t : ℤ) (ht : t < 0) (intervals : List ℤ) : queueEach c now b (l :: links) (t :: intervals) = .ub := by
  unfold queueEach
  simp only [mapR]
  rw [if_neg (by omega)]
  have : queueEntry c b t l = .ub := by unfold queueEntry; rw [if_neg (by simpa using hl), if_pos ht]
  rw [this]
  rfl

/-- Queues on links 10 (not counted in the total: a point queue) and 11 in the example. -/
example : (RecEx.run.bind fun r => enrouteStats RecEx.cfg r.2.1 r.1.2) = .ok [(5/4, 0, 5/4), (5/4, 0, 5/4),
    (5/4, 0, 5/4), (9/4, 0, 9/4), (9/4, 0, 9/4), (9/4, 0, 9/4), (9/4, 0, 9/4), (9/4, 0, 9/4), (9/4, 0, 9/4),
    (9/4, 1/4, 2), (9/4, 1/2, 7/4), (9/4, 1/4, 2), (2, 1/4, 7/4), (7/4, 1/4, 3/2)] := by
  decide +kernel

example : (RecEx.run.bind fun r => queueEach RecEx.cfg r.2.1 r.1.2 [11, 10, 12] [4, 10, 11])
    = .ok [[0, 1/2, 1/4], [1/2, 0, 0], [0, 0, 0]] := by
  decide +kernel

example : (RecEx.run.bind fun r => .ok (r.1.2.queue 11, r.1.2.queueOf true 11, r.1.2.queueOf false 11))
    = .ok ([0, 0, 0, 0, 0, 0, 0, 0, 0, 1, 2, 1, 1, 1], [0, 0, 0, 0, 0, 0, 0, 0, 0, 1, 1, 1, 0, 0],
      [0, 0, 0, 0, 0, 0, 0, 0, 0, 0, 1, 0, 1, 1]) := by
  decide +kernel

/-! ## C119 -/

theorem addIncrement_back {k k' : Curve} {p r : ℚ × ℚ} (hb : back k = .ok p) (h : addIncrement k r = .ok k') :
    ∃ p', back k' = .ok p' ∧ p'.2 = p.2 + r.2 := by
  unfold back at hb
  split at hb
  · rename_i q hq
    cases hb
    unfold addIncrement at h
    rw [hq] at h
    simp only at h
    split at h
    · simp at h
    split at h
    · cases h
      exact ⟨_, by unfold back; simp; rfl, rfl⟩
    · cases h
      exact ⟨_, by unfold back; simp; rfl, by simp [add_comm]⟩
  · simp at hb

theorem increments_back : ∀ (rs : List (ℚ × ℚ)) (k k' : Curve) (p : ℚ × ℚ), back k = .ok p →
    Res.foldlM addIncrement k rs = .ok k' → ∃ p', back k' = .ok p' ∧ p'.2 = p.2 + (rs.map Prod.snd).sum
  | [], k, k', p, hb, h => by
    simp only [Res.foldlM_nil, Res.ok.injEq] at h
    subst h
    exact ⟨p, hb, by simp⟩
  | r :: rs, k, k', p, hb, h => by
    rw [Res.foldlM_cons, Res.bind_eq_ok] at h
    obtain ⟨k1, h1, h2⟩ := h
    obtain ⟨p1, a1, a2⟩ := addIncrement_back hb h1
    obtain ⟨p2, b1, b2⟩ := increments_back rs k1 k' p1 a1 h2
    exact ⟨p2, b1, by rw [b2, a2]; simp [add_assoc]⟩

theorem curve_last {c : Cfg} {T : ℕ} {s : State} (H : MHistInv c T s) (l : ℕ) (x : Bool) (k : Curve)
    (hk : (s.links l).nIn x = some k) : ∃ p, back k = .ok p ∧ p.2 = (entered s x l : ℚ) / c.net.scalar := by
  obtain ⟨p, h1, h2⟩ := increments_back _ _ _ (0, 0) (by rfl) (H.nIn l x k hk)
  refine ⟨p, h1, ?_⟩
  rw [h2]
  unfold entered came Tt.flows
  rw [List.countP_eq_length_filter, List.map_map, List.map_map]
  generalize s.log.filter _ = L
  simp only [zero_add]
  induction L with
  | nil => simp
  | cons e L ih => simp only [List.map_cons, List.sum_cons, ih]; simp; ring

/-- C119: after every loading, the waiting time that `get_waiting_time_at_intersections_car` and `..._truck` report for
a link is the length of an interval in seconds times the number of vehicles of the class, counted once in every
interval in which the queue on record contains them, once more when they leave, and once if they are at the end of the
link now, divided by the number of vehicles of the class that entered the link (plus a small number).  The waiting time
of `get_waiting_time_at_intersections` is that of both classes together. -/
theorem C119_waiting_times (c : Cfg) (hc : c.net.Ok) (hsc : 0 < c.net.scalar) (s : State) (hs : Fresh s)
    (unit : ℚ) (hu : Uniform c unit s) (os : List StepOracle) (hos : ∀ o ∈ os, o.Ok c) (assign : ℕ)
    (r : (State × Books) × ℕ × ℕ) (h : loadManyR c os 0 assign (s, Books.empty) = .ok r) (l : ℕ)
    (hl : l ∈ c.net.linkIds) (hcur : ∀ x, ((s.links l).nIn x).isSome) :
    (∀ x, waitingTimeOf x r.1.1 l = .ok (unit * ((r.1.2.queueOf x l).sum + left r.1.1 x l
        + ((r.1.1.fin l).countP fun v => r.1.1.truck v == x) : ℕ)
      / (entered r.1.1 x l + c.net.scalar / 1000000))) ∧
    waitingTime r.1.1 l = .ok (unit * ((r.1.2.queue l).sum + left r.1.1 false l + left r.1.1 true l
        + (r.1.1.fin l).length : ℕ)
      / (entered r.1.1 false l + entered r.1.1 true l + c.net.scalar / 1000000)) := by
  obtain ⟨I, M, H, hn⟩ := run_inv hc hsc.ne' hs os hos r h
  obtain ⟨k, a, hk, ha, hua⟩ := hu l hl
  obtain ⟨u1, u2, _, _⟩ := MLnk.mk_unit_scalar hk
  have hw := I.waitOf l hl
  rw [u1, u2, ha, hua] at hw
  have hsome : ∀ x, ∃ k, (r.1.1.links l).nIn x = some k := by
    intro x
    rw [← Option.isSome_iff_exists, I.curve l x]
    exact hcur x
  refine ⟨?_, ?_⟩
  · intro x
    obtain ⟨kx, hkx⟩ := hsome x
    obtain ⟨p, hp, hp2⟩ := curve_last H l x kx hkx
    unfold waitingTimeOf
    have e : (if x = true then (r.1.1.links l).nInTruck else (r.1.1.links l).nInCar) = some kx := hkx
    rw [e]
    simp only [hp, Res.bind_ok', hp2]
    have := hw x
    unfold Rec.waitOf at this
    rw [this]
    congr 1
    show ((((r.1.2.queueOf x l).sum + left r.1.1 x l + cls r.1.1.truck x (r.1.1.fin l) : ℕ) : ℚ)
      / c.net.scalar * unit) / _ = _
    show _ = unit * (((r.1.2.queueOf x l).sum + left r.1.1 x l + cls r.1.1.truck x (r.1.1.fin l) : ℕ) : ℚ) / _
    have h1 : (0 : ℚ) ≤ entered r.1.1 x l := by positivity
    have h2 : (entered r.1.1 x l : ℚ) + c.net.scalar / 1000000 ≠ 0 := by positivity
    have h3 : (entered r.1.1 x l : ℚ) / c.net.scalar + 1 / 1000000 ≠ 0 := by positivity
    field_simp
  · obtain ⟨k0, hk0⟩ := hsome false
    obtain ⟨k1, hk1⟩ := hsome true
    obtain ⟨p, hp, hp2⟩ := curve_last H l false k0 hk0
    obtain ⟨q, hq, hq2⟩ := curve_last H l true k1 hk1
    unfold waitingTime
    have e0 : (r.1.1.links l).nInCar = some k0 := hk0
    have e1 : (r.1.1.links l).nInTruck = some k1 := hk1
    rw [e0, e1]
    simp only [hp, hq, Res.bind_ok', hp2, hq2]
    rw [I.wait l hl, hw false, hw true, I.split l hl, ← cls_add r.1.1.truck (r.1.1.fin l)]
    congr 1
    have h2 : (entered r.1.1 false l : ℚ) + entered r.1.1 true l + c.net.scalar / 1000000 ≠ 0 := by positivity
    have h3 : (entered r.1.1 false l : ℚ) / c.net.scalar + entered r.1.1 true l / c.net.scalar + 1 / 1000000 ≠ 0 := by
      positivity
    push_cast
    field_simp
    ring

/-- C119: in particular a link whose record never shows a queue, and that everybody has left, still reports a waiting
time: about one interval per vehicle. -/
theorem C119_waiting_without_queue (c : Cfg) (hc : c.net.Ok) (hsc : 0 < c.net.scalar) (s : State) (hs : Fresh s)
    (unit : ℚ) (hu : Uniform c unit s) (os : List StepOracle) (hos : ∀ o ∈ os, o.Ok c) (assign : ℕ)
    (r : (State × Books) × ℕ × ℕ) (h : loadManyR c os 0 assign (s, Books.empty) = .ok r) (l : ℕ)
    (hl : l ∈ c.net.linkIds) (hcur : ∀ x, ((s.links l).nIn x).isSome) (x : Bool)
    (hq : ∀ n ∈ r.1.2.queueOf x l, n = 0) (hon : ∀ v ∈ r.1.1.on l, r.1.1.truck v ≠ x) :
    waitingTimeOf x r.1.1 l = .ok (unit * entered r.1.1 x l / (entered r.1.1 x l + c.net.scalar / 1000000)) := by
  obtain ⟨I, M, H, hn⟩ := run_inv hc hsc.ne' hs os hos r h
  rw [(C119_waiting_times c hc hsc s hs unit hu os hos assign r h l hl hcur).1 x]
  have e1 : (r.1.2.queueOf x l).sum = 0 := List.sum_eq_zero hq
  have e2 : cls r.1.1.truck x (r.1.1.on l) = 0 := by
    unfold cls
    rw [List.countP_eq_zero]
    intro v hv
    simpa using hon v hv
  have e3 : ((r.1.1.fin l).countP fun v => r.1.1.truck v == x) = 0 := by
    have : cls r.1.1.truck x (r.1.1.on l) = _ := rfl
    unfold State.on at e2
    rw [cls_append, cls_append] at e2
    unfold cls at e2
    omega
  have e4 : left r.1.1 x l = entered r.1.1 x l := by
    have := H.balance l hl x
    rw [e2] at this
    simp only [came, went, List.length_map] at this
    unfold left entered
    rw [List.countP_eq_length_filter, List.countP_eq_length_filter]
    omega
  rw [e1, e3, e4]
  simp

example : (RecEx.run.bind fun r => waitingTimes none [10, 11, 12] r.1.1)
    = .ok [4000000/2250001, 3750000/2250001, 500000/666667] ∧
    (RecEx.run.bind fun r => waitingTimes (some true) [10, 11, 12] r.1.1)
    = .ok [1500000/1000001, 1750000/1000001, 750000/1000001] := by
  decide +kernel

/-- Link 11 of the network of `MNetEx` never has a queue on record and is empty in the end, but its four trucks waited
for one second each. -/
example : ((loadManyR MNetEx.cfg (List.replicate 13 MNetEx.orc) 0 0 (State.init MNetEx.links, Books.empty)).bind fun r =>
      .ok (r.1.2.queueOf true 11, r.1.1.on 11, entered r.1.1 true 11))
    = .ok (List.replicate 13 0, [], 4) ∧
    ((loadManyR MNetEx.cfg (List.replicate 13 MNetEx.orc) 0 0 (State.init MNetEx.links, Books.empty)).bind fun r =>
      waitingTimeOf true r.1.1 11) = .ok (1 * 4 / (4 + 4 / 1000000)) := by
  decide +kernel

/-! ## C120 -/

/-- C120: `get_registered_links_coverage_in_registered_paths` has one row per registered path and one column per
registered link, and an entry is 1 if the link is on the path, and 0 otherwise. -/
theorem C120_coverage (paths : List (List ℤ)) (links : List ℤ) :
    (coverage paths links).length = paths.length ∧
    ∀ j (hj : j < paths.length), ∃ row, (coverage paths links)[j]? = some row ∧ row.length = links.length ∧
      ∀ i (hi : i < links.length), (links[i] ∈ paths[j] → row[i]? = some 1) ∧ (links[i] ∉ paths[j] → row[i]? = some 0) := by
  refine ⟨by simp [coverage], ?_⟩
  intro j hj
  refine ⟨_, by unfold coverage; rw [List.getElem?_map, List.getElem?_eq_getElem hj]; rfl, by simp, ?_⟩
  intro i hi
  refine ⟨?_, ?_⟩ <;> intro h <;> simp [List.getElem?_map, List.getElem?_eq_getElem hi, isLinkIn, h]

theorem coverLoop_spec (links : List ℤ) : ∀ (paths : List (List ℤ)) (flags : List Bool), flags.length = links.length →
    (coverLoop links paths flags).length = links.length ∧ ∀ i (hi : i < links.length), ∀ f, flags[i]? = some f →
      (coverLoop links paths flags)[i]? = some (f || decide (∃ p ∈ paths, links[i] ∈ p))
  | [], flags, h => by
    refine ⟨h, ?_⟩
    intro i hi f hf
    simp [coverLoop, hf]
  | p :: ps, flags, h => by
    have hl : (List.zipWith (fun f l => if f = true then f else isLinkIn p l) flags links).length = links.length := by
      simp [h]
    have hz : ∀ i (hi : i < links.length), ∀ f, flags[i]? = some f →
        (List.zipWith (fun f l => if f = true then f else isLinkIn p l) flags links)[i]?
          = some (f || decide (links[i] ∈ p)) := by
      intro i hi f hf
      rw [List.getElem?_zipWith, hf, List.getElem?_eq_getElem hi]
      simp only [isLinkIn, Option.some.injEq]
      cases f <;> simp
    simp only [coverLoop]
    split
    · rename_i hall
      refine ⟨hl, ?_⟩
      intro i hi f hf
      have e := hz i hi f hf
      rw [e]
      have ht : (f || decide (links[i] ∈ p)) = true := by
        have := List.all_eq_true.1 hall _ (List.mem_of_getElem? e)
        simpa using this
      rw [ht]
      simp only [Option.some.injEq]
      symm
      simp only [Bool.or_eq_true, decide_eq_true_eq] at ht ⊢
      rcases ht with h | h
      · exact Or.inl h
      · exact Or.inr ⟨p, by simp, h⟩
    · obtain ⟨a1, a2⟩ := coverLoop_spec links ps _ hl
      refine ⟨a1, ?_⟩
      intro i hi f hf
      rw [a2 i hi _ (hz i hi f hf)]
      simp only [Option.some.injEq, List.mem_cons, exists_eq_or_imp]
      cases f <;> simp

/-- C120: `are_registered_links_in_registered_paths` tells for each registered link whether it is on some registered
path, whatever the order of links and paths. -/
theorem C120_covered (paths : List (List ℤ)) (links : List ℤ) :
    (covered paths links).length = links.length ∧
    ∀ i (hi : i < links.length), (covered paths links)[i]? = some (decide (∃ p ∈ paths, links[i] ∈ p)) := by
  obtain ⟨h1, h2⟩ := coverLoop_spec links paths (links.map fun _ => false) (by simp)
  refine ⟨h1, ?_⟩
  intro i hi
  have := h2 i hi false (by rw [List.getElem?_map, List.getElem?_eq_getElem hi]; rfl)
  rw [Bool.false_or] at this
  exact this

example : coverage [[1, 2, 3], [2, 4]] [2, 4, 5] = [[1, 0, 0], [1, 1, 0]] ∧
    covered [[1, 2, 3], [2, 4]] [2, 4, 5] = [true, true, false] := by decide +kernel

end Verif

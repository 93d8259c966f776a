import Verif.Spec.MTrees
import Verif.Lemmas.Dar

/-! # Lemmas about the assignment ratios of cars and trucks -/

namespace Verif.MNet
open Ults Curve Net Tab

/-- Collecting lists one after the other. -/
theorem collect_ok {α β : Type} {K : α → Res (List β)} : ∀ (as : List α) (acc cells : List β),
    Res.foldlM (fun acc a => (K a).bind fun cs => .ok (acc ++ cs)) acc as = .ok cells →
    ∃ ks : α → List β, (∀ a ∈ as, K a = .ok (ks a)) ∧ cells = acc ++ as.flatMap ks := by
  intro as acc cells h
  refine ⟨fun a => match K a with | .ok cs => cs | _ => [], ?_⟩
  induction as generalizing acc with
  | nil =>
    simp only [Res.foldlM_nil, Res.ok.injEq] at h
    exact ⟨by simp, by simp [h]⟩
  | cons a as ih =>
    rw [Res.foldlM_cons, Res.bind_eq_ok] at h
    obtain ⟨x, h1, h2⟩ := h
    rw [Res.bind_eq_ok'] at h1
    obtain ⟨cs, h3, h1⟩ := h1
    cases h1
    obtain ⟨i1, i2⟩ := ih _ h2
    refine ⟨?_, ?_⟩
    · intro x hx
      rw [List.mem_cons] at hx
      rcases hx with rfl | hx
      · simp only [h3]
      · exact i1 x hx
    · rw [List.flatMap_cons, h3, i2, List.append_assoc]

/-- Cells that Eigen's `insert` accepts one after the other. -/
def Good (rows cols : ℕ) (m : List Cell) : Prop :=
  (∀ c ∈ m, 0 ≤ c.row ∧ c.row < rows ∧ 0 ≤ c.col ∧ c.col < cols) ∧ (m.map fun c => (c.row, c.col)).Nodup

theorem Good.left {rows cols : ℕ} {m cs : List Cell} (h : Good rows cols (m ++ cs)) : Good rows cols m := by
  refine ⟨fun c hc => h.1 c (List.mem_append_left _ hc), ?_⟩
  have := h.2
  rw [List.map_append] at this
  exact (List.nodup_append.1 this).1

theorem insert_good {rows cols : ℕ} : ∀ (cs m : List Cell), Good rows cols (m ++ cs) →
    Res.foldlM (insertCell rows cols) m cs = .ok (m ++ cs)
  | [], m, _ => by simp
  | c :: cs, m, h => by
    have e : m ++ c :: cs = (m ++ [c]) ++ cs := by simp
    rw [e] at h ⊢
    have h1 : insertCell rows cols m c = .ok (m ++ [c]) := by
      unfold insertCell
      have hr := h.left.1 c (by simp)
      have hn := h.left.2
      rw [List.map_append, List.nodup_append] at hn
      rw [if_pos]
      refine ⟨hr.1, hr.2.1, hr.2.2.1, hr.2.2.2, ?_⟩
      intro hm
      exact hn.2.2 _ hm _ (by simp) rfl
    rw [Res.foldlM_cons, h1, Res.ok_bind]
    exact insert_good cs _ h

theorem collect_insert {α : Type} {rows cols : ℕ} {g : α → List Cell} {F : List Cell → α → Res (List Cell)} :
    ∀ (as : List α), (∀ a ∈ as, ∀ m, Good rows cols (m ++ g a) → F m a = .ok (m ++ g a)) →
    ∀ m, Good rows cols (m ++ as.flatMap g) → Res.foldlM F m as = .ok (m ++ as.flatMap g)
  | [], _, m, _ => by simp
  | a :: as, hF, m, h => by
    rw [List.flatMap_cons, ← List.append_assoc] at h ⊢
    rw [Res.foldlM_cons, hF a (by simp) m h.left, Res.ok_bind]
    exact collect_insert as (fun x hx => hF x (by simp [hx])) _ h

/-- The parts of the complete matrix for one class of network as lists of cells. -/
theorem darMatrix_parts {cur : ℤ} {trees : List Tab.Tree} {periods : List (ℤ × ℤ)} {reg : Store ℤ ℕ} {f : List ℚ}
    {cells : List Cell} (h : darMatrix cur trees periods reg f = .ok cells) :
    ∃ G : Tab.Tree × ℕ → (ℤ × ℤ) × ℕ → List Cell,
      cells = trees.zipIdx.flatMap (fun t => periods.zipIdx.flatMap (G t)) ∧
      ∀ t ∈ trees.zipIdx, ∀ p ∈ periods.zipIdx, checkPeriod cur p.1 = .ok () ∧
        darCells t.1 reg p.1.1 p.1.2 t.2 p.2 trees.length reg.length f = .ok (G t p) := by
  unfold darMatrix at h
  obtain ⟨ks, h1, h2⟩ := collect_ok _ _ _ h
  have key : ∀ t ∈ trees.zipIdx, ∃ G : (ℤ × ℤ) × ℕ → List Cell, ks t = periods.zipIdx.flatMap G ∧
      ∀ p ∈ periods.zipIdx, checkPeriod cur p.1 = .ok () ∧
        darCells t.1 reg p.1.1 p.1.2 t.2 p.2 trees.length reg.length f = .ok (G p) := by
    intro t ht
    have h3 := h1 t ht
    unfold darLink at h3
    have e : (fun acc (p : (ℤ × ℤ) × ℕ) => (checkPeriod cur p.1).bind fun _ =>
        (darCells t.1 reg p.1.1 p.1.2 t.2 p.2 trees.length reg.length f).bind fun cs => Res.ok (acc ++ cs))
        = fun acc p => ((checkPeriod cur p.1).bind fun _ =>
          darCells t.1 reg p.1.1 p.1.2 t.2 p.2 trees.length reg.length f).bind fun cs => Res.ok (acc ++ cs) := by
      funext acc p
      cases checkPeriod cur p.1 <;> rfl
    rw [e] at h3
    obtain ⟨G, g1, g2⟩ := collect_ok _ _ _ h3
    refine ⟨G, by simpa using g2, ?_⟩
    intro p hp
    have := g1 p hp
    rw [Res.bind_eq_ok'] at this
    obtain ⟨u, u1, u2⟩ := this
    exact ⟨u1, u2⟩
  refine ⟨fun t => if ht : t ∈ trees.zipIdx then (key t ht).choose else fun _ => [], ?_, ?_⟩
  · rw [h2, List.nil_append]
    apply List.flatMap_congr
    intro t ht
    simp only [dif_pos ht]
    exact (key t ht).choose_spec.1
  · intro t ht p hp
    simp only [dif_pos ht]
    exact (key t ht).choose_spec.2 p hp

/-- The paths `0`, …, `np - 1`. -/
def firstPaths (np : ℕ) : List ℤ := (List.range np).map fun k : ℕ => (k : ℤ)

theorem firstPaths_get (np i : ℕ) (p : ℤ) : (firstPaths np)[i]? = some p ↔ i < np ∧ p = i := by
  unfold firstPaths
  rw [List.getElem?_map]
  by_cases h : i < np
  · rw [List.getElem?_range h]; simp [h, eq_comm]
  · rw [List.getElem?_eq_none (by simpa using h)]; simp [h]

theorem mem_firstPaths {np : ℕ} {p : ℤ} : p ∈ firstPaths np ↔ 0 ≤ p ∧ p < np := by
  unfold firstPaths
  simp only [List.mem_map, List.mem_range]
  constructor
  · rintro ⟨k, hk, rfl⟩; omega
  · rintro ⟨h1, h2⟩; exact ⟨p.toNat, by omega, by omega⟩

theorem firstPaths_length (np : ℕ) : (firstPaths np).length = np := by simp [firstPaths]

theorem firstPaths_nodup (np : ℕ) : (firstPaths np).Nodup := by
  unfold firstPaths
  exact List.nodup_range.map fun a b h => by exact_mod_cast h

/-- Keys of a tree come from movements. -/
theorem tree_key {h : List Item} (hl : LegalItems h) {tr : Tab.Tree} (hr : record h = .ok tr) :
    tr.keys.Nodup ∧ ∀ k, k ∈ tr.keys ↔ ∃ x ∈ h, (x.path, x.dep) = k := by
  obtain ⟨tr', q1, q2, q3, _⟩ := record_spec h hl
  rw [hr] at q1
  cases q1
  exact ⟨q2, q3⟩

/-- The share of a path below `np`. -/
theorem portion_share {np D : ℕ} {f : List ℚ} (hf : np * D ≤ f.length) {path dep : ℤ} (h1 : 0 ≤ path) (h2 : path < np)
    (h3 : 0 ≤ dep) (h4 : dep < D) (x : ℚ) :
    portion f (path + np * dep) x = .ok (share f (path + np * dep).toNat x) := by
  obtain ⟨k, rfl⟩ : ∃ k : ℕ, path = k := ⟨path.toNat, by omega⟩
  obtain ⟨d, rfl⟩ : ∃ k : ℕ, dep = k := ⟨dep.toNat, by omega⟩
  have hy : ((k : ℤ) + np * d) = ((k + np * d : ℕ) : ℤ) := by push_cast; rfl
  have hlt : k + np * d < f.length := by
    have : np * (d + 1) ≤ np * D := Nat.mul_le_mul_left _ (by omega)
    rw [Nat.mul_add, Nat.mul_one] at this
    omega
  unfold portion share
  rw [hy, if_neg (by omega), Int.toNat_natCast, List.getElem?_eq_getElem hlt]

section
variable {h : List Item} (hl : LegalItems h) {tr : Tab.Tree} (hr : record h = .ok tr) {reg : Store ℤ ℕ} {np D : ℕ}
  (hreg : ∀ (p : ℤ) (i : ℕ), reg.get p = some i ↔ i < np ∧ p = i) {f : List ℚ} (hf : np * D ≤ f.length)
  (hD : ∀ x ∈ h, 0 ≤ x.dep ∧ x.dep < D)
include hl hr hreg hf hD

theorem darCell_eq {s t : ℕ} (hst : s ≤ t) (ht : t < 10000) (link interval nl : ℕ) {e : (ℤ × ℤ) × Curve} (he : e ∈ tr)
    (hp : entering h e.1.1 e.1.2 s t > dblEps → 0 ≤ e.1.1 ∧ e.1.1 < np) :
    darCell link interval nl np f ((s : ℤ), (t : ℤ)) e = .ok (cellsOf h reg s t link interval nl np f e.1) := by
  obtain ⟨a, b, h1, h2, h3⟩ := tree_flow hl hr he hst ht
  unfold darCell cellsOf
  simp only [Int.cast_natCast, h1, h2, Res.bind_ok', h3]
  by_cases hx : entering h e.1.1 e.1.2 s t > dblEps
  · obtain ⟨p1, p2⟩ := hp hx
    obtain ⟨x, hx', hxe⟩ := ((tree_key hl hr).2 e.1).1 (List.mem_map_of_mem (f := Prod.fst) he)
    have hd := hD x hx'
    have hde : x.dep = e.1.2 := by rw [← hxe]
    rw [hde] at hd
    have hg : reg.get e.1.1 = some e.1.1.toNat := (hreg _ _).2 ⟨by omega, by omega⟩
    have hc : ((e.1.1.toNat : ℕ) : ℤ) = e.1.1 := by omega
    simp only [if_pos hx, hg, if_neg (not_lt.2 p1), portion_share hf p1 p2 hd.1 hd.2, Res.bind_ok', hc]
  · simp only [if_neg hx]
    cases reg.get e.1.1 <;> rfl

theorem addDarCells_eq {s t : ℕ} (hst : s ≤ t) (ht : t < 10000) (link interval nl rows cols : ℕ)
    (hp : ∀ path dep, entering h path dep s t > dblEps → 0 ≤ path ∧ path < np) (m : List Cell)
    (hg : Good rows cols (m ++ tr.flatMap fun e => cellsOf h reg s t link interval nl np f e.1)) :
    addDarCells rows cols link interval nl np f ((s : ℤ), (t : ℤ)) (some tr) m
      = .ok (m ++ tr.flatMap fun e => cellsOf h reg s t link interval nl np f e.1) := by
  unfold addDarCells
  refine collect_insert tr ?_ m hg
  intro e he m hm
  simp only [darCell_eq hl hr hreg hf hD hst ht link interval nl he (hp _ _), Res.bind_ok']
  exact insert_good _ _ hm

omit hreg hf hD in
/-- The records of one link and period. -/
theorem addDarRecords_eq {s t : ℕ} (hst : s ≤ t) (ht : t < 10000) (ids : List ℤ) (link : ℕ) :
    addDarRecords ids link (some tr) ((s : ℤ), (t : ℤ)) = .ok (tr.flatMap fun e =>
      if e.1.1 ∈ ids ∧ entering h e.1.1 e.1.2 s t > dblEps then
        [⟨e.1.1, e.1.2, link, s, entering h e.1.1 e.1.2 s t⟩] else []) := by
  unfold addDarRecords
  simp only
  rw [foldlM_collect (g := fun e => if e.1.1 ∈ ids ∧ entering h e.1.1 e.1.2 s t > dblEps then
        [⟨e.1.1, e.1.2, link, s, entering h e.1.1 e.1.2 s t⟩] else [])]
  · simp
  · intro e he acc
    obtain ⟨a, b, h1, h2, h3⟩ := tree_flow hl hr he hst ht
    unfold darRec
    by_cases hi : e.1.1 ∈ ids
    · simp only [if_pos hi, Int.cast_natCast, h1, h2, Res.bind_ok', h3, hi, true_and, if_true]
    · simp [hi]

theorem saveCells_eq {s t : ℕ} (hst : s ≤ t) (ht : t < 10000) (link i interval nl : ℕ) (acc : List Cell) :
    ((addDarRecords (firstPaths np) link (some tr) ((s : ℤ), (t : ℤ))).bind fun rs =>
      Res.foldlM (fun acc r => (savedCell nl np f i interval r).bind fun c => .ok (acc ++ [c])) acc rs)
      = .ok (acc ++ tr.flatMap fun e => cellsOf h reg s t i interval nl np f e.1) := by
  rw [addDarRecords_eq hl hr hst ht, Res.bind_ok']
  have key : ∀ es : List ((ℤ × ℤ) × Curve), (∀ e ∈ es, e ∈ tr) → ∀ acc,
      Res.foldlM (fun acc r => (savedCell nl np f i interval r).bind fun c => .ok (acc ++ [c])) acc
        (es.flatMap fun e => if e.1.1 ∈ firstPaths np ∧ entering h e.1.1 e.1.2 s t > dblEps then
          [(⟨e.1.1, e.1.2, link, s, entering h e.1.1 e.1.2 s t⟩ : DarRec)] else [])
      = .ok (acc ++ es.flatMap fun e => cellsOf h reg s t i interval nl np f e.1) := by
    intro es
    induction es with
    | nil => intro _ acc; simp
    | cons e es ih =>
      intro hes acc
      rw [List.flatMap_cons, List.flatMap_cons, Res.foldlM_append, ← List.append_assoc]
      rw [← ih (fun x hx => hes x (by simp [hx]))]
      have hcell : Res.foldlM (fun acc r => (savedCell nl np f i interval r).bind fun c => .ok (acc ++ [c])) acc
          (if e.1.1 ∈ firstPaths np ∧ entering h e.1.1 e.1.2 s t > dblEps then
          [(⟨e.1.1, e.1.2, link, s, entering h e.1.1 e.1.2 s t⟩ : DarRec)] else [])
          = .ok (acc ++ cellsOf h reg s t i interval nl np f e.1) := by
        by_cases hi : e.1.1 ∈ firstPaths np
        · obtain ⟨p1, p2⟩ := mem_firstPaths.1 hi
          have hg : reg.get e.1.1 = some e.1.1.toNat := (hreg _ _).2 ⟨by omega, by omega⟩
          have hc : ((e.1.1.toNat : ℕ) : ℤ) = e.1.1 := by omega
          obtain ⟨x, hx', hxe⟩ := ((tree_key hl hr).2 e.1).1
            (List.mem_map_of_mem (f := Prod.fst) (hes e (by simp)))
          have hd := hD x hx'
          have hde : x.dep = e.1.2 := by rw [← hxe]
          rw [hde] at hd
          unfold cellsOf
          by_cases hx : entering h e.1.1 e.1.2 s t > dblEps
          · simp only [hi, hx, and_self, if_true, hg, hc]
            simp only [Res.foldlM_cons, savedCell, portion_share hf p1 p2 hd.1 hd.2, Res.bind_ok', Res.ok_bind,
              Res.foldlM_nil]
          · simp [hx, hg]
        · have hg : reg.get e.1.1 = none := by
            cases hg : reg.get e.1.1 with
            | none => rfl
            | some k => exact absurd (mem_firstPaths.2 (by have := (hreg _ _).1 hg; omega)) hi
          unfold cellsOf
          simp [hi, hg]
      rw [hcell, Res.ok_bind]
  exact key tr (fun _ h => h) acc

end

/-- The complete matrix and the saved one of a class are the matrix of the single-class code. -/
theorem matrices_eq {ls : List ℕ} {tree : ℕ → Tab.Tree} {H : ℕ → List Item}
    (hr : ∀ l ∈ ls, record (H l) = .ok (tree l)) (hl : ∀ l, LegalItems (H l)) {reg : Store ℤ ℕ} {np D n cur : ℕ}
    (hreg : ∀ (p : ℤ) (i : ℕ), reg.get p = some i ↔ i < np ∧ p = i) (hlen : reg.length = np) {f : List ℚ}
    (hf : np * D ≤ f.length) (hD : ∀ l, ∀ x ∈ H l, 0 ≤ x.dep ∧ x.dep < D) (hcur : cur < 10000)
    {periods : List (ℕ × ℕ)} (hp : ∀ p ∈ periods, p.1 < p.2 ∧ p.2 ≤ cur) {cells : List Cell}
    (hm : darMatrix cur (ls.map tree) (periods.map fun p => ((p.1 : ℤ), (p.2 : ℤ))) reg f = .ok cells) :
    saveDar cur (ls.map fun l => (l, some (tree l))) (periods.map fun p => ((p.1 : ℤ), (p.2 : ℤ))) (firstPaths np) np f
      = .ok cells ∧
    (Good (n * ls.length) (n * np) cells →
      (∀ l ∈ ls, ∀ p ∈ periods, ∀ path dep, entering (H l) path dep p.1 p.2 > dblEps → 0 ≤ path ∧ path < np) →
      completeDar cur (ls.map fun l => some (tree l)) (periods.map fun p => ((p.1 : ℤ), (p.2 : ℤ))) n np f
        = .ok cells) := by
  obtain ⟨G, hG1, hG2⟩ := darMatrix_parts hm
  have hregi : ∀ p i, reg.get p = some i → i < np := fun p i h => ((hreg p i).1 h).1
  have key : ∀ t ∈ (ls.map tree).zipIdx, ∀ p ∈ (periods.map fun p => ((p.1 : ℤ), (p.2 : ℤ))).zipIdx,
      ∃ l, ls[t.2]? = some l ∧ t.1 = tree l ∧ ∃ q, periods[p.2]? = some q ∧ p.1 = ((q.1 : ℤ), (q.2 : ℤ)) ∧
        checkPeriod cur p.1 = .ok () ∧
        G t p = (tree l).flatMap fun e => cellsOf (H l) reg q.1 q.2 t.2 p.2 ls.length np f e.1 := by
    intro t ht p hpp
    obtain ⟨g1, g2⟩ := hG2 t ht p hpp
    rw [List.mem_zipIdx_iff_getElem?, List.getElem?_map] at ht hpp
    obtain ⟨l, hl1, hl2⟩ := Option.map_eq_some_iff.1 ht
    obtain ⟨q, hq1, hq2⟩ := Option.map_eq_some_iff.1 hpp
    refine ⟨l, hl1, hl2.symm, q, hq1, hq2.symm, g1, ?_⟩
    have hmem := List.mem_of_getElem? hl1
    have hq := hp q (List.mem_of_getElem? hq1)
    have e := darCells_eq (hl l) (hr l hmem) hregi hf (hD l) (s := q.1) (t := q.2) (by omega) (by omega) t.2 p.2 ls.length
    rw [← hq2, ← hl2, List.length_map, hlen] at g2
    simp only [Int.cast_natCast] at g2
    rw [e] at g2
    exact (Res.ok.inj g2).symm
  have eqs : ∀ {β : Type} (g : ℕ → β) (G' : (β × ℕ) → (ℤ × ℤ) × ℕ → List Cell),
      (∀ (k l : ℕ) p, ls[k]? = some l → p ∈ (periods.map fun p => ((p.1 : ℤ), (p.2 : ℤ))).zipIdx →
        G' (g l, k) p = G (tree l, k) p) →
      ((ls.map g).zipIdx.flatMap fun t => (periods.map fun p => ((p.1 : ℤ), (p.2 : ℤ))).zipIdx.flatMap (G' t)) = cells := by
    intro β g G' hGG
    rw [hG1, List.zipIdx_map (f := g), List.zipIdx_map (f := tree), List.flatMap_map, List.flatMap_map]
    apply List.flatMap_congr
    intro t ht
    apply List.flatMap_congr
    intro p hpp
    rw [List.mem_zipIdx_iff_getElem?] at ht
    exact hGG t.2 t.1 p ht hpp
  have hmemt : ∀ {k l : ℕ}, ls[k]? = some l → (tree l, k) ∈ (ls.map tree).zipIdx := by
    intro k l h
    rw [List.mem_zipIdx_iff_getElem?, List.getElem?_map, h]; rfl
  refine ⟨?_, ?_⟩
  · unfold saveDar
    rw [foldlM_collect (g := fun t => (periods.map fun p => ((p.1 : ℤ), (p.2 : ℤ))).zipIdx.flatMap
      (G (tree t.1.1, t.2)))]
    · rw [List.nil_append]
      exact congrArg Res.ok (eqs (fun l => (l, some (tree l))) (fun t => G (tree t.1.1, t.2)) fun _ _ _ _ _ => rfl)
    · intro t ht acc
      rw [List.mem_zipIdx_iff_getElem?, List.getElem?_map] at ht
      obtain ⟨l, hl1, hl2⟩ := Option.map_eq_some_iff.1 ht
      rw [foldlM_collect (g := G (tree t.1.1, t.2))]
      intro p hpp acc
      have e1 : t.1.1 = l := by rw [← hl2]
      have e2 : t.1.2 = some (tree l) := by rw [← hl2]
      obtain ⟨l', k1, _, q, k2, k3, k4, k5⟩ := key _ (hmemt hl1) p hpp
      simp only at k1 k5
      rw [hl1] at k1
      cases k1
      have hq := hp q (List.mem_of_getElem? k2)
      rw [k4, Res.bind_ok', e1, e2, k5, k3, List.length_map]
      exact saveCells_eq (hl l) (hr l (List.mem_of_getElem? hl1)) hreg hf (hD l) (by omega) (by omega) l t.2 p.2 ls.length acc
  · intro hg hpath
    have ec := eqs (fun l => some (tree l)) (fun t => G (t.1.getD [], t.2)) fun _ _ _ _ _ => rfl
    unfold completeDar
    rw [← ec] at hg ⊢
    have := collect_insert (rows := n * ls.length) (cols := n * np)
      (F := fun m (t : Option Tab.Tree × ℕ) => Res.foldlM (fun m (p : (ℤ × ℤ) × ℕ) =>
        (checkPeriod cur p.1).bind fun _ =>
          addDarCells (n * (ls.map fun l => some (tree l)).length) (n * np) t.2 p.2
            (ls.map fun l => some (tree l)).length np f p.1 t.1 m) m
              (periods.map fun p => ((p.1 : ℤ), (p.2 : ℤ))).zipIdx)
      (g := fun t => (periods.map fun p => ((p.1 : ℤ), (p.2 : ℤ))).zipIdx.flatMap (G (t.1.getD [], t.2)))
      (ls.map fun l => some (tree l)).zipIdx ?_ [] (by simpa using hg)
    · simpa using this
    · intro t ht m hgm
      rw [List.mem_zipIdx_iff_getElem?, List.getElem?_map] at ht
      obtain ⟨l, hl1, hl2⟩ := Option.map_eq_some_iff.1 ht
      refine collect_insert _ ?_ m hgm
      intro p hpp m hgm
      obtain ⟨l', k1, _, q, k2, k3, k4, k5⟩ := key _ (hmemt hl1) p hpp
      simp only at k1 k5
      rw [hl1] at k1
      cases k1
      have hq := hp q (List.mem_of_getElem? k2)
      rw [← hl2] at hgm ⊢
      simp only [Option.getD_some, k5] at hgm ⊢
      rw [k4, Res.bind_ok', k3, List.length_map]
      exact addDarCells_eq (hl l) (hr l (List.mem_of_getElem? hl1)) hreg hf (hD l) (by omega) (by omega) t.2 p.2 ls.length
        _ _ (hpath l (List.mem_of_getElem? hl1) q (List.mem_of_getElem? k2)) m hgm

end Verif.MNet

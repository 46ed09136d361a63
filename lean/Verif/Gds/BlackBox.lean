import Mathlib.Data.List.Dedup
import Mathlib.Tactic.ByContra

/-!
# C142, C143: the LEF of a black box

`align/gdsconv/gds2lefjson.py`: `readLayerInfo` 23-48, `writeLEFJSON` 60-155.

Simplifications: the scale and the rounding are left out (coordinates are whole numbers). A dictionary that is filled in a loop is the list of its assignments, in which the last one of a key counts.
`str([key, box])` is the pair. The order of a set is that of first insertion.
-/

namespace Verif.BlackBox

/-! ## The code -/

structure Pt where
  x : Int
  y : Int
structure Box where
  x0 : Int
  y0 : Int
  x1 : Int
  y1 : Int
  deriving DecidableEq

/-- An entry of the layers file: name, number, the data types, the numbers of labels (with 0 for a missing type). -/
structure Layer where
  name : List Char
  no : Nat
  types : List (Nat × List Char)
  labelNos : List (Nat × Nat)

structure Label where
  key : Nat × Nat
  pos : Pt
  text : List Char

def get {κ β : Type} [DecidableEq κ] (d : List (κ × β)) (k : κ) : Option β := (d.reverse.find? fun p => decide (p.1 = k)).map (·.2)

def LABEL : List Char := ['L', 'a', 'b', 'e', 'l']
def PIN : List Char := ['P', 'i', 'n']
def DRAW : List Char := ['D', 'r', 'a', 'w']
def lower (s : List Char) : List Char := s.map Char.toLower

/-- `layernames`, `labellayers`, `layers` (30-47). -/
def layerNames (ls : List Layer) : List (Nat × List Char) := ls.map fun l => (l.no, l.name)
def labelLayers (ls : List Layer) : List ((Nat × Nat) × Nat) :=
  ls.flatMap fun l => ((l.types.filter fun t => decide (t.2 = LABEL)).map fun t => ((l.no, t.1), l.no)) ++ l.labelNos.map fun p => (p, l.no)
def layerTypes (ls : List Layer) : List (List Char × List (Nat × List Char)) := ls.map fun l => (l.name, l.types)

/-- The box of a polygon (98-100). -/
def boxOf : List Pt → Option Box
  | p :: q :: ps =>
    some ((q :: ps).foldl (fun b r => ⟨min b.x0 r.x, min b.y0 r.y, max b.x1 r.x, max b.y1 r.y⟩) ⟨p.x, p.y, p.x, p.y⟩)
  | _ => none

/-- 101. -/
def inside (b : Box) (p : Pt) : Bool := decide (b.x0 ≤ p.x) && decide (b.y0 ≤ p.y) && decide (b.x1 ≥ p.x) && decide (b.y1 ≥ p.y)

/-- The polygons by layer and type: a dictionary. -/
abbrev Polys := List ((Nat × Nat) × List (List Pt))

/-- A shape that a label makes a pin: text, name of the layer, key and box. -/
structure Hit where
  text : List Char
  layer : List Char
  key : Nat × Nat
  box : Box
  deriving DecidableEq

/-- The loop for one type of the layer of a label (93-107). -/
def hitsAt (ps : Polys) (l : Label) (ln : List Char) (key : Nat × Nat) : List Hit :=
  ((ps.find? fun p => decide (p.1 = key)).map (·.2)).getD [] |>.filterMap fun poly =>
    (boxOf poly).bind fun b => if inside b l.pos then some ⟨l.text, ln, key, b⟩ else none

/-- The loop for a label (82-107). The second loop (108-122) finds shapes that are found here. -/
def hits (ls : List Layer) (ps : Polys) (l : Label) : List Hit :=
  match get (labelLayers ls) l.key with
  | none => []
  | some no => match get (layerNames ls) no with
    | none => []
    | some ln => match get (layerTypes ls) ln with
      | none => []
      | some ts => (ts.filter fun t => decide (get ts t.1 = some PIN) || decide (get ts t.1 = some DRAW)).flatMap fun t => hitsAt ps l ln (no, t.1)

def allHits (ls : List Layer) (ps : Polys) (lbs : List Label) : List Hit := lbs.flatMap (hits ls ps)

/-- The pins of the LEF file (123-130). -/
def pins (ls : List Layer) (ps : Polys) (lbs : List Label) : List (List Char × List (List Char × Box)) :=
  let h := allHits ls ps lbs
  ((h.map (·.text)).dedup).map fun t => (t, ((h.filter fun x => decide (x.text = t)).map fun x => (x.layer, x.box)).dedup)

/-- The obstructions (132-146): `not in ('label')` looks for a part of the word. -/
def obs (ls : List Layer) (ps : Polys) (lbs : List Label) : List (List Char × Box) :=
  let cache := (allHits ls ps lbs).map fun x => (x.key, x.box)
  ps.flatMap fun p =>
    match get (layerNames ls) p.1.1 with
    | none => []
    | some ln => match get (layerTypes ls) ln with
      | none => []
      | some ts => match get ts p.1.2 with
        | none => []
        | some ty =>
          if lower ln = ['b', 'b', 'o', 'x'] then [] else
          p.2.filterMap fun poly => (boxOf poly).bind fun b =>
            if ¬(lower ty <:+: ['l', 'a', 'b', 'e', 'l']) ∧ (p.1, b) ∉ cache then some (ln, b) else none

/-! ## What the properties say -/

/-- The smallest box around the points. -/
def Around (poly : List Pt) (b : Box) : Prop :=
  (∀ p ∈ poly, b.x0 ≤ p.x ∧ p.x ≤ b.x1 ∧ b.y0 ≤ p.y ∧ p.y ≤ b.y1) ∧ (∃ p ∈ poly, p.x = b.x0) ∧ (∃ p ∈ poly, p.x = b.x1) ∧ (∃ p ∈ poly, p.y = b.y0) ∧ ∃ p ∈ poly, p.y = b.y1

/-- The layers file is in order: names, numbers, and the types in a layer differ, and so do the numbers of the labels of different layers. -/
structure Good (ls : List Layer) : Prop where
  names : (ls.map (·.name)).Nodup
  nos : (ls.map (·.no)).Nodup
  types : ∀ l ∈ ls, (l.types.map (·.1)).Nodup
  labels : ∀ l ∈ ls, ∀ m ∈ ls, ∀ k, (k ∈ l.labelNos ∨ (k.1 = l.no ∧ (k.2, LABEL) ∈ l.types)) → (k ∈ m.labelNos ∨ (k.1 = m.no ∧ (k.2, LABEL) ∈ m.types)) → l = m

/-- The label is one for the layer. -/
def LabelOf (l : Layer) (lb : Label) : Prop := lb.key ∈ l.labelNos ∨ (lb.key.1 = l.no ∧ (lb.key.2, LABEL) ∈ l.types)

/-- A polygon of the cell, on the layer, with the type and the box. -/
def Shape (ps : Polys) (l : Layer) (ty : List Char) (b : Box) : Prop :=
  ∃ idx polys poly, (idx, ty) ∈ l.types ∧ ((l.no, idx), polys) ∈ ps ∧ poly ∈ polys ∧ 2 ≤ poly.length ∧ Around poly b

/-- The label is in the box. -/
def At (lb : Label) (b : Box) : Prop := (b.x0 ≤ lb.pos.x ∧ lb.pos.x ≤ b.x1) ∧ b.y0 ≤ lb.pos.y ∧ lb.pos.y ≤ b.y1

/-! ## Proofs -/

theorem get_of_mem {κ β : Type} [DecidableEq κ] {d : List (κ × β)} {k : κ} {v : β} (h : (k, v) ∈ d) (hu : ∀ w, (k, w) ∈ d → w = v) : get d k = some v := by
  unfold get
  cases hf : d.reverse.find? fun p => decide (p.1 = k) with
  | none =>
    have := List.find?_eq_none.1 hf (k, v) (by simpa using h)
    simp at this
  | some p =>
    have h1 := List.find?_some hf
    have h2 := List.mem_of_find?_eq_some hf
    simp only [decide_eq_true_eq] at h1
    simp only [List.mem_reverse] at h2
    obtain ⟨a, w⟩ := p
    simp only at h1
    subst h1
    rw [Option.map_some, hu w h2]

theorem mem_of_get {κ β : Type} [DecidableEq κ] {d : List (κ × β)} {k : κ} {v : β} (h : get d k = some v) : (k, v) ∈ d := by
  unfold get at h
  cases hf : d.reverse.find? fun p => decide (p.1 = k) with
  | none => rw [hf] at h; simp at h
  | some p =>
    rw [hf] at h
    have h1 := List.find?_some hf
    have h2 := List.mem_of_find?_eq_some hf
    simp only [decide_eq_true_eq] at h1
    simp only [List.mem_reverse] at h2
    obtain ⟨a, w⟩ := p
    simp only [Option.map_some, Option.some.injEq] at h h1
    subst h h1
    exact h2

theorem nodup_map_eq {α β : Type} {f : α → β} {l : List α} (h : (l.map f).Nodup) {a b : α} (ha : a ∈ l) (hb : b ∈ l) (e : f a = f b) : a = b := by
  induction l with
  | nil => simp at ha
  | cons x l ih =>
    rw [List.map_cons, List.nodup_cons] at h
    rcases List.mem_cons.1 ha with rfl | ha' <;> rcases List.mem_cons.1 hb with rfl | hb'
    · rfl
    · exact absurd (List.mem_map.2 ⟨b, hb', e.symm⟩) h.1
    · exact absurd (List.mem_map.2 ⟨a, ha', e⟩) h.1
    · exact ih h.2 ha' hb'

theorem fold_around (ps : List Pt) : ∀ (pre : List Pt) (b : Box), Around pre b →
    Around (pre ++ ps) (ps.foldl (fun b r => ⟨min b.x0 r.x, min b.y0 r.y, max b.x1 r.x, max b.y1 r.y⟩) b) := by
  induction ps with
  | nil => intro pre b h; simpa using h
  | cons r ps ih =>
    intro pre b ⟨h, ⟨p1, m1, e1⟩, ⟨p2, m2, e2⟩, ⟨p3, m3, e3⟩, p4, m4, e4⟩
    have := ih (pre ++ [r]) ⟨min b.x0 r.x, min b.y0 r.y, max b.x1 r.x, max b.y1 r.y⟩ ?_
    · simpa using this
    · refine ⟨?_, ?_, ?_, ?_, ?_⟩
      · intro p hp
        rcases List.mem_append.1 hp with hp | hp
        · have := h p hp
          simp only
          omega
        · rw [List.mem_singleton.1 hp]
          simp only
          omega
      · by_cases hc : b.x0 ≤ r.x
        · exact ⟨p1, by simp [m1], by simp only; omega⟩
        · exact ⟨r, by simp, by simp only; omega⟩
      · by_cases hc : r.x ≤ b.x1
        · exact ⟨p2, by simp [m2], by simp only; omega⟩
        · exact ⟨r, by simp, by simp only; omega⟩
      · by_cases hc : b.y0 ≤ r.y
        · exact ⟨p3, by simp [m3], by simp only; omega⟩
        · exact ⟨r, by simp, by simp only; omega⟩
      · by_cases hc : r.y ≤ b.y1
        · exact ⟨p4, by simp [m4], by simp only; omega⟩
        · exact ⟨r, by simp, by simp only; omega⟩

theorem around_unique {poly : List Pt} {a b : Box} (ha : Around poly a) (hb : Around poly b) : a = b := by
  obtain ⟨h, ⟨p1, m1, e1⟩, ⟨p2, m2, e2⟩, ⟨p3, m3, e3⟩, p4, m4, e4⟩ := ha
  obtain ⟨g, ⟨q1, n1, f1⟩, ⟨q2, n2, f2⟩, ⟨q3, n3, f3⟩, q4, n4, f4⟩ := hb
  have a1 := g p1 m1; have a2 := g p2 m2; have a3 := g p3 m3; have a4 := g p4 m4
  have b1 := h q1 n1; have b2 := h q2 n2; have b3 := h q3 n3; have b4 := h q4 n4
  obtain ⟨ax0, ay0, ax1, ay1⟩ := a
  obtain ⟨bx0, by0, bx1, by1⟩ := b
  simp only [Box.mk.injEq] at *
  omega

theorem boxOf_spec {poly : List Pt} {b : Box} : boxOf poly = some b ↔ 2 ≤ poly.length ∧ Around poly b := by
  match poly with
  | [] => simp [boxOf]
  | [p] => simp [boxOf]
  | p :: q :: ps =>
    have hp : Around [p] ⟨p.x, p.y, p.x, p.y⟩ := by
      refine ⟨?_, ⟨p, by simp⟩, ⟨p, by simp⟩, ⟨p, by simp⟩, p, by simp⟩
      intro r hr
      rw [List.mem_singleton.1 hr]
      simp
    have := fold_around (q :: ps) [p] _ hp
    simp only [List.singleton_append] at this
    constructor
    · intro h
      simp only [boxOf, Option.some.injEq] at h
      rw [← h]
      exact ⟨by simp, this⟩
    · rintro ⟨-, h⟩
      simp only [boxOf, Option.some.injEq]
      exact around_unique this h

theorem names_get {ls : List Layer} (hg : Good ls) {l : Layer} (hl : l ∈ ls) : get (layerNames ls) l.no = some l.name := by
  refine get_of_mem (List.mem_map.2 ⟨l, hl, rfl⟩) fun w hw => ?_
  obtain ⟨m, hm, e⟩ := List.mem_map.1 hw
  simp only [Prod.mk.injEq] at e
  rw [← e.2, nodup_map_eq hg.nos hm hl e.1]

theorem types_get {ls : List Layer} (hg : Good ls) {l : Layer} (hl : l ∈ ls) : get (layerTypes ls) l.name = some l.types := by
  refine get_of_mem (List.mem_map.2 ⟨l, hl, rfl⟩) fun w hw => ?_
  obtain ⟨m, hm, e⟩ := List.mem_map.1 hw
  simp only [Prod.mk.injEq] at e
  rw [← e.2, nodup_map_eq hg.names hm hl e.1]

theorem type_get {ls : List Layer} (hg : Good ls) {l : Layer} (hl : l ∈ ls) {i : Nat} {ty : List Char} : get l.types i = some ty ↔ (i, ty) ∈ l.types := by
  refine ⟨mem_of_get, fun h => get_of_mem h fun w hw => ?_⟩
  have := nodup_map_eq (hg.types l hl) hw h rfl
  simpa using this

theorem mem_labelLayers {ls : List Layer} {k : Nat × Nat} {n : Nat} :
    (k, n) ∈ labelLayers ls ↔ ∃ l ∈ ls, n = l.no ∧ (k ∈ l.labelNos ∨ (k.1 = l.no ∧ (k.2, LABEL) ∈ l.types)) := by
  unfold labelLayers
  simp only [List.mem_flatMap, List.mem_append, List.mem_map, List.mem_filter, decide_eq_true_eq, Prod.mk.injEq]
  constructor
  · rintro ⟨l, hl, ⟨t, ⟨ht, e⟩, e1, e2⟩ | ⟨p, hp, e1, e2⟩⟩
    · refine ⟨l, hl, e2.symm, Or.inr ?_⟩
      rw [← e1]
      refine ⟨rfl, ?_⟩
      rw [← e]
      exact ht
    · exact ⟨l, hl, e2.symm, Or.inl (e1 ▸ hp)⟩
  · rintro ⟨l, hl, e, h | ⟨h1, h2⟩⟩
    · exact ⟨l, hl, Or.inr ⟨k, h, rfl, e.symm⟩⟩
    · exact ⟨l, hl, Or.inl ⟨(k.2, LABEL), ⟨h2, rfl⟩, by rw [← h1], e.symm⟩⟩

theorem label_get {ls : List Layer} (hg : Good ls) {l : Layer} (hl : l ∈ ls) {lb : Label} (h : LabelOf l lb) : get (labelLayers ls) lb.key = some l.no := by
  refine get_of_mem (mem_labelLayers.2 ⟨l, hl, rfl, h⟩) fun w hw => ?_
  obtain ⟨m, hm, e, hk⟩ := mem_labelLayers.1 hw
  rw [e, hg.labels m hm l hl lb.key hk h]

theorem mem_hitsAt {ps : Polys} (hp : (ps.map (·.1)).Nodup) {l : Label} {ln : List Char} {key : Nat × Nat} {x : Hit} :
    x ∈ hitsAt ps l ln key ↔ ∃ polys poly, (key, polys) ∈ ps ∧ poly ∈ polys ∧ (2 ≤ poly.length ∧ Around poly x.box) ∧ At l x.box ∧ x.text = l.text ∧ x.layer = ln ∧ x.key = key := by
  unfold hitsAt
  have hin : ∀ b, inside b l.pos = true ↔ At l b := by
    intro b
    unfold inside At
    simp only [Bool.and_eq_true, decide_eq_true_eq]
    omega
  have hmem : ∀ poly, poly ∈ ((ps.find? fun p => decide (p.1 = key)).map (·.2)).getD [] ↔ ∃ polys, (key, polys) ∈ ps ∧ poly ∈ polys := by
    intro poly
    cases hf : ps.find? fun p => decide (p.1 = key) with
    | none =>
      simp only [Option.map_none, Option.getD_none, List.not_mem_nil, false_iff, not_exists, not_and]
      intro polys hm
      have := List.find?_eq_none.1 hf _ hm
      simp at this
    | some p =>
      have h1 := List.find?_some hf
      have h2 := List.mem_of_find?_eq_some hf
      simp only [decide_eq_true_eq] at h1
      obtain ⟨a, w⟩ := p
      simp only at h1
      subst h1
      simp only [Option.map_some, Option.getD_some]
      refine ⟨fun h => ⟨w, h2, h⟩, fun ⟨polys, hm, h⟩ => ?_⟩
      have := nodup_map_eq hp h2 hm rfl
      simp only [Prod.mk.injEq, true_and] at this
      rw [this]
      exact h
  simp only [List.mem_filterMap, hmem]
  constructor
  · rintro ⟨poly, ⟨polys, h1, h2⟩, h⟩
    obtain ⟨b, hb, h⟩ := Option.bind_eq_some_iff.1 h
    split at h
    · rename_i hi
      simp only [Option.some.injEq] at h
      subst h
      exact ⟨polys, poly, h1, h2, boxOf_spec.1 hb, (hin _).1 hi, rfl, rfl, rfl⟩
    · simp at h
  · rintro ⟨polys, poly, h1, h2, h3, h4, e1, e2, e3⟩
    refine ⟨poly, ⟨polys, h1, h2⟩, Option.bind_eq_some_iff.2 ⟨x.box, boxOf_spec.2 h3, ?_⟩⟩
    rw [if_pos ((hin _).2 h4), ← e1, ← e2, ← e3]

/-- What the hits are. -/
theorem mem_allHits {ls : List Layer} (hg : Good ls) {ps : Polys} (hp : (ps.map (·.1)).Nodup) {lbs : List Label} {x : Hit} :
    x ∈ allHits ls ps lbs ↔ ∃ lb ∈ lbs, ∃ l ∈ ls, LabelOf l lb ∧ x.layer = l.name ∧ x.text = lb.text ∧ At lb x.box
      ∧ ∃ idx ty polys poly, (idx, ty) ∈ l.types ∧ (ty = PIN ∨ ty = DRAW) ∧ x.key = (l.no, idx) ∧ ((l.no, idx), polys) ∈ ps ∧ poly ∈ polys ∧ 2 ≤ poly.length ∧ Around poly x.box := by
  unfold allHits
  rw [List.mem_flatMap]
  refine exists_congr fun lb => and_congr_right fun _ => ?_
  constructor
  · intro h
    unfold hits at h
    cases h1 : get (labelLayers ls) lb.key with
    | none => rw [h1] at h; simp at h
    | some no =>
      obtain ⟨l, hl, e, hk⟩ := mem_labelLayers.1 (mem_of_get h1)
      subst e
      rw [h1] at h
      simp only [names_get hg hl, types_get hg hl, List.mem_flatMap, List.mem_filter, Bool.or_eq_true, decide_eq_true_eq, type_get hg hl] at h
      obtain ⟨t, ⟨ht, hty⟩, hx⟩ := h
      obtain ⟨polys, poly, a1, a2, a3, a4, a5, a6, a7⟩ := (mem_hitsAt hp).1 hx
      refine ⟨l, hl, hk, a6, a5, a4, t.1, t.2, polys, poly, ht, ?_, a7, a1, a2, a3⟩
      rcases hty with hty | hty
      · left
        have := nodup_map_eq (hg.types l hl) ht hty rfl
        rw [this]
      · right
        have := nodup_map_eq (hg.types l hl) ht hty rfl
        rw [this]
  · rintro ⟨l, hl, hk, a6, a5, a4, idx, ty, polys, poly, ht, hty, a7, a1, a2, a3⟩
    unfold hits
    simp only [label_get hg hl hk, names_get hg hl, types_get hg hl, List.mem_flatMap, List.mem_filter, Bool.or_eq_true, decide_eq_true_eq, type_get hg hl]
    refine ⟨(idx, ty), ⟨ht, ?_⟩, (mem_hitsAt hp).2 ⟨polys, poly, a1, a2, a3, a4, a5, a6, a7⟩⟩
    rcases hty with rfl | rfl
    · exact Or.inl ht
    · exact Or.inr ht

/-! ## The theorems -/

/-- The shape is one of the pin in the LEF file. -/
def PinShape (ls : List Layer) (ps : Polys) (lbs : List Label) (t : List Char) (s : List Char × Box) : Prop := ∃ p ∈ pins ls ps lbs, p.1 = t ∧ s ∈ p.2

theorem pinShape_iff {ls : List Layer} {ps : Polys} {lbs : List Label} {t : List Char} {s : List Char × Box} :
    PinShape ls ps lbs t s ↔ ∃ x ∈ allHits ls ps lbs, x.text = t ∧ (x.layer, x.box) = s := by
  unfold PinShape pins
  simp only [List.mem_map, List.mem_dedup]
  constructor
  · rintro ⟨p, ⟨t', ⟨y, hy, e⟩, rfl⟩, rfl, hs⟩
    simp only [List.mem_dedup, List.mem_map, List.mem_filter, decide_eq_true_eq] at hs
    obtain ⟨x, ⟨hx, e1⟩, e2⟩ := hs
    exact ⟨x, hx, e1, e2⟩
  · rintro ⟨x, hx, e1, e2⟩
    refine ⟨_, ⟨t, ⟨x, hx, e1⟩, rfl⟩, rfl, ?_⟩
    simp only [List.mem_dedup, List.mem_map, List.mem_filter, decide_eq_true_eq]
    exact ⟨x, ⟨hx, e1⟩, e2⟩

/-- C142, if the layers file is in order: the pins are named by labels, each once, and have exactly the shapes for pins and drawings in which a label with their name for the layer is. -/
theorem C142_pins_partial {ls : List Layer} (hg : Good ls) {ps : Polys} (hp : (ps.map (·.1)).Nodup) (lbs : List Label) :
    ((pins ls ps lbs).map (·.1)).Nodup ∧ (∀ p ∈ pins ls ps lbs, p.2 ≠ [] ∧ p.2.Nodup)
      ∧ ∀ t ln b, PinShape ls ps lbs t (ln, b) ↔ ∃ lb ∈ lbs, lb.text = t ∧ At lb b ∧ ∃ l ∈ ls, l.name = ln ∧ LabelOf l lb ∧ (Shape ps l PIN b ∨ Shape ps l DRAW b) := by
  refine ⟨?_, ?_, ?_⟩
  · unfold pins
    simp only [List.map_map]
    have : ((fun x : List Char × List (List Char × Box) => x.1) ∘ fun t => (t, (((allHits ls ps lbs).filter fun x => decide (x.text = t)).map fun x => (x.layer, x.box)).dedup)) = id := rfl
    rw [this, List.map_id]
    exact List.nodup_dedup _
  · intro p h
    unfold pins at h
    simp only [List.mem_map, List.mem_dedup] at h
    obtain ⟨t, ⟨y, hy, e⟩, rfl⟩ := h
    refine ⟨?_, List.nodup_dedup _⟩
    have : (y.layer, y.box) ∈ (((allHits ls ps lbs).filter fun x => decide (x.text = t)).map fun x => (x.layer, x.box)).dedup := by
      simp only [List.mem_dedup, List.mem_map, List.mem_filter, decide_eq_true_eq]
      exact ⟨y, ⟨hy, e⟩, rfl⟩
    exact List.ne_nil_of_mem this
  · intro t ln b
    rw [pinShape_iff]
    constructor
    · rintro ⟨x, hx, e1, e2⟩
      obtain ⟨lb, hlb, l, hl, hk, a1, a2, a3, idx, ty, polys, poly, ht, hty, -, b1, b2, b3⟩ := (mem_allHits hg hp).1 hx
      simp only [Prod.mk.injEq] at e2
      rw [e2.2] at a3 b3
      refine ⟨lb, hlb, by rw [← a2, e1], a3, l, hl, by rw [← a1, e2.1], hk, ?_⟩
      rcases hty with rfl | rfl
      · exact Or.inl ⟨idx, polys, poly, ht, b1, b2, b3⟩
      · exact Or.inr ⟨idx, polys, poly, ht, b1, b2, b3⟩
    · rintro ⟨lb, hlb, e1, ha, l, hl, e2, hk, h⟩
      rcases h with ⟨idx, polys, poly, ht, b1, b2, b3⟩ | ⟨idx, polys, poly, ht, b1, b2, b3⟩
      · exact ⟨⟨t, ln, (l.no, idx), b⟩, (mem_allHits hg hp).2 ⟨lb, hlb, l, hl, hk, e2.symm, e1.symm, ha, idx, _, polys, poly, ht, Or.inl rfl, rfl, b1, b2, b3⟩, rfl, rfl⟩
      · exact ⟨⟨t, ln, (l.no, idx), b⟩, (mem_allHits hg hp).2 ⟨lb, hlb, l, hl, hk, e2.symm, e1.symm, ha, idx, _, polys, poly, ht, Or.inr rfl, rfl, b1, b2, b3⟩, rfl, rfl⟩

/-- C143, if the layers file is in order and no type is named with a part of the word "label": every shape is in the LEF file, as that of a pin or as an obstruction. -/
theorem C143_all_partial {ls : List Layer} (hg : Good ls) {ps : Polys} (hp : (ps.map (·.1)).Nodup) (lbs : List Label) {l : Layer} (hl : l ∈ ls)
    (hb : l.name.map Char.toLower ≠ ['b', 'b', 'o', 'x']) {ty : List Char} (hty : ¬(ty.map Char.toLower <:+: ['l', 'a', 'b', 'e', 'l'])) {b : Box} (h : Shape ps l ty b) :
    (l.name, b) ∈ obs ls ps lbs ∨ ∃ t, PinShape ls ps lbs t (l.name, b) := by
  obtain ⟨idx, polys, poly, ht, h1, h2, h3⟩ := h
  by_cases hc : ((l.no, idx), b) ∈ (allHits ls ps lbs).map fun x => (x.key, x.box)
  · right
    obtain ⟨x, hx, e⟩ := List.mem_map.1 hc
    simp only [Prod.mk.injEq] at e
    refine ⟨x.text, pinShape_iff.2 ⟨x, hx, rfl, ?_⟩⟩
    obtain ⟨lb, -, l', hl', -, a1, -, -, idx', -, -, -, -, -, a7, -⟩ := (mem_allHits hg hp).1 hx
    have e3 : l'.no = l.no := by
      have := a7.symm.trans e.1
      simp only [Prod.mk.injEq] at this
      exact this.1
    rw [a1, nodup_map_eq hg.nos hl' hl e3, e.2]
  · left
    unfold obs
    rw [List.mem_flatMap]
    refine ⟨_, h1, ?_⟩
    simp only [names_get hg hl, types_get hg hl, (type_get hg hl).2 ht]
    rw [if_neg (show ¬(lower l.name = _) from hb), List.mem_filterMap]
    refine ⟨poly, h2, Option.bind_eq_some_iff.2 ⟨b, boxOf_spec.2 h3, ?_⟩⟩
    exact if_pos ⟨hty, hc⟩

/-- C143, if the layers file is in order: every obstruction is a shape, and if it is one for pins or drawings no label for its layer is in it. -/
theorem C143_obs_partial {ls : List Layer} (hg : Good ls) {ps : Polys} (hp : (ps.map (·.1)).Nodup) (lbs : List Label) {ln : List Char} {b : Box} (h : (ln, b) ∈ obs ls ps lbs) :
    ∃ l ∈ ls, l.name = ln ∧ ∃ ty, Shape ps l ty b ∧ ((ty = PIN ∨ ty = DRAW) → ∀ lb ∈ lbs, LabelOf l lb → ¬At lb b) := by
  unfold obs at h
  rw [List.mem_flatMap] at h
  obtain ⟨p, hpm, h⟩ := h
  cases h1 : get (layerNames ls) p.1.1 with
  | none => simp only [h1] at h; simp at h
  | some n =>
    obtain ⟨l, hl, e⟩ := List.mem_map.1 (mem_of_get h1)
    simp only [Prod.mk.injEq] at e
    obtain ⟨e1, rfl⟩ := e
    simp only [h1, types_get hg hl] at h
    cases h2 : get l.types p.1.2 with
    | none => simp only [h2] at h; simp at h
    | some ty =>
      simp only [h2] at h
      split at h
      · simp at h
      · obtain ⟨poly, hpoly, h⟩ := List.mem_filterMap.1 h
        obtain ⟨b', hb', h⟩ := Option.bind_eq_some_iff.1 h
        split at h
        · rename_i hc
          simp only [Option.some.injEq, Prod.mk.injEq] at h
          obtain ⟨rfl, rfl⟩ := h
          have ht := (type_get hg hl).1 h2
          have hps : ((l.no, p.1.2), p.2) ∈ ps := by rw [e1]; exact hpm
          refine ⟨l, hl, rfl, ty, ⟨p.1.2, p.2, poly, ht, hps, hpoly, boxOf_spec.1 hb'⟩, fun hty lb hlb hk ha => hc.2 ?_⟩
          refine List.mem_map.2 ⟨⟨lb.text, l.name, (l.no, p.1.2), b'⟩, (mem_allHits hg hp).2 ⟨lb, hlb, l, hl, hk, rfl, rfl, ha, p.1.2, ty, p.2, poly, ht, hty, rfl, hps, hpoly, boxOf_spec.1 hb'⟩, ?_⟩
          simp only [e1]
        · simp at h

/-- Two layers with one number, as metal and via of some processes. -/
def exTwo : List Layer := [⟨['M', '1'], 68, [(20, DRAW)], [(68, 5)]⟩, ⟨['V', '1'], 68, [(44, DRAW)], []⟩]

/-- C142 and C143 do not hold if two layers have the same number with different types: the shape of the first is lost, as a pin and as an obstruction. -/
theorem C143_violated : obs exTwo [((68, 20), [[⟨0, 0⟩, ⟨4, 2⟩]])] [⟨(68, 5), ⟨1, 1⟩, ['A']⟩] = [] ∧ pins exTwo [((68, 20), [[⟨0, 0⟩, ⟨4, 2⟩]])] [⟨(68, 5), ⟨1, 1⟩, ['A']⟩] = []
    ∧ Shape [((68, 20), [[⟨0, 0⟩, ⟨4, 2⟩]])] ⟨['M', '1'], 68, [(20, DRAW)], [(68, 5)]⟩ DRAW ⟨0, 0, 4, 2⟩ := by
  refine ⟨by decide +kernel, by decide +kernel, 20, _, [⟨0, 0⟩, ⟨4, 2⟩], by simp, by simp; rfl, by simp, by simp, ?_⟩
  exact (boxOf_spec.1 (by decide)).2

/-- C143 does not hold for a type `L`, which is part of the word "label". -/
theorem C143_violated_part : obs [⟨['M', '1'], 68, [(20, ['L'])], []⟩] [((68, 20), [[⟨0, 0⟩, ⟨4, 2⟩]])] [] = [] ∧ pins [⟨['M', '1'], 68, [(20, ['L'])], []⟩] [((68, 20), [[⟨0, 0⟩, ⟨4, 2⟩]])] [] = [] := by
  decide +kernel

def exLayers : List Layer := [⟨['M', '1'], 15, [(0, DRAW), (1, PIN), (2, LABEL)], []⟩, ⟨['M', '2'], 17, [(0, DRAW), (3, ['F', 'i', 'l', 'l'])], [(99, 0)]⟩]
example : Good exLayers := ⟨by decide, by decide, by decide, by
  intro l hl m hm k h1 h2
  simp only [exLayers, List.mem_cons, List.not_mem_nil, or_false] at hl hm
  rcases hl with rfl | rfl <;> rcases hm with rfl | rfl
  · rfl
  · exfalso
    obtain ⟨a, b⟩ := k
    simp [LABEL, DRAW, PIN] at h1 h2
    omega
  · exfalso
    obtain ⟨a, b⟩ := k
    simp [LABEL, DRAW, PIN] at h1 h2
    omega
  · rfl⟩
example : pins exLayers [((15, 0), [[⟨0, 0⟩, ⟨4, 2⟩], [⟨9, 9⟩, ⟨10, 10⟩]]), ((17, 3), [[⟨0, 0⟩, ⟨4, 2⟩]])] [⟨(15, 2), ⟨1, 1⟩, ['A']⟩] = [(['A'], [(['M', '1'], ⟨0, 0, 4, 2⟩)])]
    ∧ obs exLayers [((15, 0), [[⟨0, 0⟩, ⟨4, 2⟩], [⟨9, 9⟩, ⟨10, 10⟩]]), ((17, 3), [[⟨0, 0⟩, ⟨4, 2⟩]])] [⟨(15, 2), ⟨1, 1⟩, ['A']⟩] = [(['M', '1'], ⟨9, 9, 10, 10⟩), (['M', '2'], ⟨0, 0, 4, 2⟩)] := by
  decide +kernel

end Verif.BlackBox

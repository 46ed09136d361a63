import Verif.Pnr.Names

/-!
# C139-C141: the layout that the router writes

`PnRDB/WriteJSON.cpp`: `JSONReaderWrite_subcells` 70-137, `assignBoxPoints` 203-214, `addMetalBoundaries` 239-258, `addContactBoundaries` 260-273, `addOABoundaries` 276-302,
`addTop_OABoundaries` 304-331, `addViaBoundaries` 333-378, `PnRdatabase::WriteJSON` 380-693.

Simplifications: `unitScale` is a quotient of whole numbers, and the product with it is exact before it is cut off to an `int`. GDS numbers of layers are their names.
Power nets and the power grid are nets; texts are left out. The set of GDS files is the list of files in its order, each with its cells; a file that is missing has no cells.
`INT_MAX` for the lower left corner of nothing is `none`.
-/

namespace Verif.WriteJson

open Verif.Pnr (joinName joinName_inj)

/-! ## The code -/

structure Pt where
  x : Int
  y : Int
  deriving DecidableEq

structure Box where
  ll : Pt
  ur : Pt

/-- `unitScale`. -/
structure Unit where
  num : Int
  den : Int

/-- `int = double * int`. -/
def sc (u : Unit) (v : Int) : Int := (u.num * v).tdiv u.den

/-- `assignBoxPoints` (203-214). -/
def boxPoints (u : Unit) (b : Box) : List Pt :=
  [⟨sc u b.ll.x, sc u b.ll.y⟩, ⟨sc u b.ll.x, sc u b.ur.y⟩, ⟨sc u b.ur.x, sc u b.ur.y⟩, ⟨sc u b.ur.x, sc u b.ll.y⟩, ⟨sc u b.ll.x, sc u b.ll.y⟩]

/-- A boundary on a layer, a reference to a cell (mirrored at the x axis first, then turned), an outline. -/
inductive Elem where
  | bound (layer : String) (xy : List Pt)
  | sref (name : List Char) (refl turned : Bool) (p : Pt)
  | outline (xy : List Pt)
  deriving DecidableEq

structure Cell where
  name : List Char
  elems : List Elem

/-- A wire: its rectangle and the ends of its middle line. A via: cut and two metals. -/
structure Wire where
  layer : String
  box : Box
  p : Pt
  q : Pt
structure Rect where
  layer : String
  box : Box
structure Via where
  cut : Rect
  lower : Rect
  upper : Rect
structure Net where
  wires : List Wire
  vias : List Via

inductive Orient where
  | N | S | FN | FS
  deriving DecidableEq

/-- A block: its GDS file, orientation, place, and the rectangles of its pins. -/
structure Block where
  gds : String
  orient : Orient
  box : Box
  pins : List Rect

structure Ring where
  gds : String
  ll : Pt

structure Node where
  isTop : Bool
  width : Int
  height : Int
  topWidth : Int
  /-- For each pin of the node the rectangles. -/
  pins : List (List Rect)
  nets : List Net
  rings : List Ring
  blocks : List Block

/-- `addMetalBoundaries` (239-258). -/
def wireElems (u : Unit) (w : Wire) : List Elem := if w.p.x ≠ w.q.x ∨ w.p.y ≠ w.q.y then [.bound w.layer (boxPoints u w.box)] else []

/-- `addContactBoundaries` (260-273): its unit is an `int`. -/
def contactElems (u : Unit) (r : Rect) : List Elem := [.bound r.layer (boxPoints ⟨u.num.tdiv u.den, 1⟩ r.box)]

/-- `addViaBoundaries` (333-378). -/
def viaElems (u : Unit) (v : Via) : List Elem :=
  [.bound v.cut.layer (boxPoints u v.cut.box), .bound v.lower.layer (boxPoints u v.lower.box), .bound v.upper.layer (boxPoints u v.upper.box)]

/-- The first rectangle of each pin (441-460), the pins of the blocks (464-475), the nets and power nets (500-563). -/
def drawn (u : Unit) (n : Node) : List Elem :=
  (if n.isTop then n.pins.flatMap fun p => (p.take 1).flatMap (contactElems u) else [])
    ++ n.blocks.flatMap (fun b => b.pins.flatMap (contactElems u))
    ++ n.nets.flatMap fun t => t.wires.flatMap (wireElems u) ++ t.vias.flatMap (viaElems u)

/-- Where the coordinates of an element are. -/
def Elem.xy : Elem → List Pt
  | .bound _ xy => xy
  | .sref _ _ _ p => [p]
  | .outline xy => xy

/-- The lower left corner of an element (98-116). -/
def corner : List Pt → Option Pt
  | [] => none
  | p :: ps => some (ps.foldl (fun a b => ⟨min a.x b.x, min a.y b.y⟩) p)

/-- `TJ_llx`, `TJ_lly` at the end: they are set anew at each element (93-135). -/
def lastCorner (cs : List Cell) : Option Pt := (cs.flatMap (·.elems)).foldl (fun _ e => corner e.xy) none

/-- New names in a file (87-127). -/
def rename (r : Nat) (c : Cell) : Cell :=
  ⟨joinName c.name r, c.elems.map fun e => match e with
    | .sref n f t p => .sref (joinName n r) f t p
    | e => e⟩

/-- `rndnum`, `strBlocks`, `strBlocks_Top`, corners, the cells that are written. -/
structure St where
  rnd : Nat
  names : List (List Char)
  tops : List (Option (List Char))
  corners : List (Option Pt)
  cells : List Cell

/-- One file (424-431). -/
def fileStep (st : St) (cs : List Cell) : St :=
  let cs' := cs.map (rename (st.rnd + 1))
  let ns := st.names ++ cs'.map (·.name)
  ⟨st.rnd + 1, ns, st.tops ++ [ns.getLast?], st.corners ++ [lastCorner cs], st.cells ++ cs'⟩

def files (rnd : Nat) (fs : List (String × List Cell)) : St := (fs.map (·.2)).foldl fileStep ⟨rnd, [], [], [], []⟩

/-- The reference to a block (588-675); the other orientations stop the program. -/
def place (u : Unit) (o : Orient) (b : Box) (name : List Char) (c : Pt) : Elem :=
  match o with
  | .N => .sref name false false ⟨sc u b.ll.x, sc u b.ll.y⟩
  | .S => .sref name false true ⟨sc u b.ur.x + c.x, sc u b.ur.y + c.y⟩
  | .FN => .sref name true true ⟨sc u b.ur.x + c.x, sc u b.ll.y - c.y⟩
  | .FS => .sref name true false ⟨sc u b.ll.x - c.x, sc u b.ur.y + c.y⟩

def idx (fs : List (String × List Cell)) (g : String) : Nat := (fs.map (·.1)).idxOf g

def nameOf (fs : List (String × List Cell)) (st : St) (g : String) : List Char := ((st.tops[idx fs g]?).join).getD []
def cornerOf (fs : List (String × List Cell)) (st : St) (g : String) : Pt := ((st.corners[idx fs g]?).join).getD ⟨2147483647, 2147483647⟩

/-- The references (565-675). -/
def refs (u : Unit) (fs : List (String × List Cell)) (st : St) (n : Node) : List Elem :=
  (n.rings.map fun r => .sref (nameOf fs st r.gds) false false ⟨sc u r.ll.x, sc u r.ll.y⟩)
    ++ n.blocks.map fun b => place u b.orient b.box (nameOf fs st b.gds) (cornerOf fs st b.gds)

def rectPoints (x0 y0 x1 y1 : Int) : List Pt := [⟨x0, y0⟩, ⟨x0, y1⟩, ⟨x1, y1⟩, ⟨x1, y0⟩, ⟨x0, y0⟩]

/-- The outlines (276-331, 679-682). -/
def outlines (u : Unit) (n : Node) : List Elem :=
  [.outline (rectPoints 0 0 (sc u n.width) (sc u n.height))] ++
    (if n.isTop then [.outline (rectPoints (0 - sc u n.topWidth) (0 - sc u n.topWidth) (sc u n.width + sc u n.topWidth) (sc u n.height + sc u n.topWidth))] else [])

/-- `WriteJSON` (380-693). -/
def write (u : Unit) (rnd : Nat) (fs : List (String × List Cell)) (top : List Char) (n : Node) : List Cell :=
  let st := files rnd fs
  st.cells ++ [⟨top, drawn u n ++ refs u fs st n ++ outlines u n⟩]

/-! ## What the properties say -/

/-- The number `q` of database units is `v` half nanometres. -/
def Is (u : Unit) (v q : Int) : Prop := q * u.den = u.num * v

/-- The coordinates are whole numbers of database units. -/
def Whole (u : Unit) (b : Box) : Prop := ∀ v ∈ [b.ll.x, b.ll.y, b.ur.x, b.ur.y], ∃ q, Is u v q

/-- The closed path around the rectangle. -/
def Around (u : Unit) (b : Box) (xy : List Pt) : Prop :=
  ∃ x0 y0 x1 y1, Is u b.ll.x x0 ∧ Is u b.ll.y y0 ∧ Is u b.ur.x x1 ∧ Is u b.ur.y y1
    ∧ (xy = [⟨x0, y0⟩, ⟨x0, y1⟩, ⟨x1, y1⟩, ⟨x1, y0⟩, ⟨x0, y0⟩] ∨ xy = [⟨x0, y0⟩, ⟨x1, y0⟩, ⟨x1, y1⟩, ⟨x0, y1⟩, ⟨x0, y0⟩])

/-- Where a reference puts a point of the cell (GDS: mirrored at the x axis, then turned by 180 degrees, then moved). -/
def Puts (e : Elem) (p q : Pt) : Prop :=
  ∃ name refl turned o, e = .sref name refl turned o
    ∧ q.x = o.x + (if turned then -p.x else p.x) ∧ q.y = o.y + (if turned then -(if refl then -p.y else p.y) else (if refl then -p.y else p.y))

/-- Where the point should be: in the box, turned as the orientation says. -/
def Should (u : Unit) (o : Orient) (b : Box) (p q : Pt) : Prop :=
  (Is u b.ll.x (q.x - p.x) ∨ o = .S ∨ o = .FN) ∧ (Is u b.ur.x (q.x + p.x) ∨ o = .N ∨ o = .FS)
    ∧ (Is u b.ll.y (q.y - p.y) ∨ o = .S ∨ o = .FS) ∧ (Is u b.ur.y (q.y + p.y) ∨ o = .N ∨ o = .FN)

/-! ## Proofs -/

theorem sc_is {u : Unit} (hd : 0 < u.den) {v q : Int} (h : Is u v q) : sc u v = q := by
  unfold sc
  unfold Is at h
  rw [← h]
  exact Int.mul_tdiv_cancel q (by omega)

theorem around_points {u : Unit} (hd : 0 < u.den) {b : Box} (h : Whole u b) : Around u b (boxPoints u b) := by
  obtain ⟨x0, h1⟩ := h b.ll.x (by simp)
  obtain ⟨y0, h2⟩ := h b.ll.y (by simp)
  obtain ⟨x1, h3⟩ := h b.ur.x (by simp)
  obtain ⟨y1, h4⟩ := h b.ur.y (by simp)
  refine ⟨x0, y0, x1, y1, h1, h2, h3, h4, Or.inl ?_⟩
  unfold boxPoints
  rw [sc_is hd h1, sc_is hd h2, sc_is hd h3, sc_is hd h4]

/-! ## The theorems -/

/-- The cell of the node itself. -/
def Own (cs : List Cell) (e : Elem) : Prop := ∃ c, cs.getLast? = some c ∧ e ∈ c.elems

theorem own_drawn {u : Unit} {rnd : Nat} {fs : List (String × List Cell)} {top : List Char} {n : Node} {e : Elem} (h : e ∈ drawn u n) : Own (write u rnd fs top n) e := by
  refine ⟨⟨top, drawn u n ++ refs u fs (files rnd fs) n ++ outlines u n⟩, by simp [write], ?_⟩
  exact List.mem_append_left _ (List.mem_append_left _ h)

/-- C139: every wire with a length, and the cut and both metals of every via, are drawn as closed paths around their rectangles, on their layers. -/
theorem C139_nets {u : Unit} (hd : 0 < u.den) (rnd : Nat) (fs : List (String × List Cell)) (top : List Char) (n : Node) (t : Net) (ht : t ∈ n.nets) :
    (∀ w ∈ t.wires, w.p ≠ w.q → Whole u w.box → ∃ xy, Own (write u rnd fs top n) (.bound w.layer xy) ∧ Around u w.box xy)
      ∧ ∀ v ∈ t.vias, ∀ r ∈ [v.cut, v.lower, v.upper], Whole u r.box → ∃ xy, Own (write u rnd fs top n) (.bound r.layer xy) ∧ Around u r.box xy := by
  constructor
  · intro w hw hne hb
    refine ⟨boxPoints u w.box, own_drawn (List.mem_append_right _ (List.mem_flatMap.2 ⟨t, ht, List.mem_append_left _ (List.mem_flatMap.2 ⟨w, hw, ?_⟩)⟩)), around_points hd hb⟩
    unfold wireElems
    rw [if_pos]
    · simp
    · by_contra hn
      simp only [not_or, not_not] at hn
      apply hne
      cases hp : w.p; cases hq : w.q
      rw [hp, hq] at hn
      simp only at hn
      rw [hn.1, hn.2]
  · intro v hv r hr hb
    refine ⟨boxPoints u r.box, own_drawn (List.mem_append_right _ (List.mem_flatMap.2 ⟨t, ht, List.mem_append_right _ (List.mem_flatMap.2 ⟨v, hv, ?_⟩)⟩)), around_points hd hb⟩
    unfold viaElems
    simp only [List.mem_cons, List.not_mem_nil, or_false] at hr
    rcases hr with rfl | rfl | rfl <;> simp

/-- C139, for a unit that is a whole number: the pins of the blocks are drawn. -/
theorem C139_pins_partial {u : Unit} (hd : u.den = 1) (rnd : Nat) (fs : List (String × List Cell)) (top : List Char) (n : Node) (b : Block) (hb : b ∈ n.blocks) (r : Rect) (hr : r ∈ b.pins) :
    ∃ xy, Own (write u rnd fs top n) (.bound r.layer xy) ∧ Around u r.box xy := by
  have hw : Whole u r.box := fun v _ => ⟨u.num * v, by unfold Is; rw [hd, Int.mul_one]⟩
  refine ⟨boxPoints u r.box, own_drawn (List.mem_append_left _ (List.mem_append_right _ (List.mem_flatMap.2 ⟨b, hb, List.mem_flatMap.2 ⟨r, hr, ?_⟩⟩))), around_points (by omega) hw⟩
  unfold contactElems
  have : (⟨u.num.tdiv u.den, 1⟩ : Unit) = u := by
    cases u with
    | mk a c =>
      simp only at hd
      subst hd
      simp
  rw [this]
  simp

/-- C139: nothing else is drawn: every boundary is that of a wire with a length, of a via or of a pin. -/
theorem C139_only {u : Unit} {rnd : Nat} {fs : List (String × List Cell)} {top : List Char} {n : Node} {layer : String} {xy : List Pt}
    (h : Own (write u rnd fs top n) (.bound layer xy)) :
    (∃ t ∈ n.nets, (∃ w ∈ t.wires, w.layer = layer ∧ w.p ≠ w.q) ∨ ∃ v ∈ t.vias, ∃ r ∈ [v.cut, v.lower, v.upper], r.layer = layer)
      ∨ (∃ b ∈ n.blocks, ∃ r ∈ b.pins, r.layer = layer) ∨ (n.isTop = true ∧ ∃ p ∈ n.pins, ∃ r ∈ p, r.layer = layer) := by
  obtain ⟨c, hc, he⟩ := h
  unfold write at hc
  simp only [List.getLast?_append, List.getLast?_singleton, Option.some_or, Option.some.injEq] at hc
  subst hc
  simp only [List.mem_append] at he
  rcases he with (he | he) | he
  · unfold drawn at he
    simp only [List.mem_append] at he
    rcases he with (he | he) | he
    · right; right
      split at he
      · obtain ⟨p, hp, he⟩ := List.mem_flatMap.1 he
        obtain ⟨r, hr, he⟩ := List.mem_flatMap.1 he
        unfold contactElems at he
        simp only [List.mem_singleton, Elem.bound.injEq] at he
        exact ⟨by assumption, p, hp, r, List.mem_of_mem_take hr, he.1.symm⟩
      · simp at he
    · right; left
      obtain ⟨b, hb, he⟩ := List.mem_flatMap.1 he
      obtain ⟨r, hr, he⟩ := List.mem_flatMap.1 he
      unfold contactElems at he
      simp only [List.mem_singleton, Elem.bound.injEq] at he
      exact ⟨b, hb, r, hr, he.1.symm⟩
    · left
      obtain ⟨t, ht, he⟩ := List.mem_flatMap.1 he
      refine ⟨t, ht, ?_⟩
      rcases List.mem_append.1 he with he | he
      · left
        obtain ⟨w, hw, he⟩ := List.mem_flatMap.1 he
        unfold wireElems at he
        split at he
        · rename_i hpq
          simp only [List.mem_singleton, Elem.bound.injEq] at he
          refine ⟨w, hw, he.1.symm, fun e => ?_⟩
          rw [e] at hpq
          simp at hpq
        · simp at he
      · right
        obtain ⟨v, hv, he⟩ := List.mem_flatMap.1 he
        unfold viaElems at he
        simp only [List.mem_cons, Elem.bound.injEq, List.not_mem_nil, or_false] at he
        rcases he with he | he | he
        · exact ⟨v, hv, v.cut, by simp, he.1.symm⟩
        · exact ⟨v, hv, v.lower, by simp, he.1.symm⟩
        · exact ⟨v, hv, v.upper, by simp, he.1.symm⟩
  · exfalso
    unfold refs at he
    rcases List.mem_append.1 he with he | he
    · obtain ⟨r, _, he⟩ := List.mem_map.1 he
      simp at he
    · obtain ⟨b, _, he⟩ := List.mem_map.1 he
      unfold place at he
      split at he <;> simp at he
  · exfalso
    unfold outlines at he
    rcases List.mem_append.1 he with he | he
    · simp at he
    · split at he <;> simp at he

/-- A node with a block with one pin. -/
def pinNode : Node := ⟨false, 400, 400, 32, [], [], [], [⟨"a.gds", .N, ⟨⟨0, 0⟩, ⟨400, 400⟩⟩, [⟨"M2", ⟨⟨100, 200⟩, ⟨300, 400⟩⟩⟩]⟩]⟩

/-- C139 does not hold: with the usual unit (half a database unit) the function for pins gets 0, and a pin is drawn as a point at the origin. -/
theorem C139_violated : Whole ⟨1, 2⟩ ⟨⟨100, 200⟩, ⟨300, 400⟩⟩
    ∧ Own (write ⟨1, 2⟩ 0 [] ['T'] pinNode) (.bound "M2" [⟨0, 0⟩, ⟨0, 0⟩, ⟨0, 0⟩, ⟨0, 0⟩, ⟨0, 0⟩])
    ∧ ∀ xy, Own (write ⟨1, 2⟩ 0 [] ['T'] pinNode) (.bound "M2" xy) → ¬Around ⟨1, 2⟩ ⟨⟨100, 200⟩, ⟨300, 400⟩⟩ xy := by
  refine ⟨fun v hv => ?_, ⟨_, rfl, by decide +kernel⟩, ?_⟩
  · simp only [List.mem_cons, List.not_mem_nil, or_false] at hv
    unfold Is
    rcases hv with rfl | rfl | rfl | rfl
    · exact ⟨50, by decide⟩
    · exact ⟨100, by decide⟩
    · exact ⟨150, by decide⟩
    · exact ⟨200, by decide⟩
  · rintro xy ⟨c, hc, he⟩ ⟨x0, y0, x1, y1, h1, -, -, -, h⟩
    simp only [write, List.getLast?_append, List.getLast?_singleton, Option.some_or, Option.some.injEq] at hc
    subst hc
    simp only [drawn, refs, outlines, pinNode, place, contactElems, boxPoints, List.flatMap_cons, List.flatMap_nil, List.map_cons, List.map_nil, List.append_nil, List.nil_append, List.mem_append,
      List.mem_cons, List.not_mem_nil, or_false, Elem.bound.injEq, true_and, reduceCtorEq, if_false, Bool.false_eq_true] at he
    unfold Is at h1
    simp only at h1
    have hx : x0 = 50 := by omega
    subst hx
    rw [he] at h
    simp [sc] at h

/-- C140, for cells with the lower left corner of their last element at the origin: the reference puts every point of the block where its place and orientation say. -/
theorem C140_place_partial {u : Unit} (hd : 0 < u.den) (o : Orient) (b : Box) (hb : Whole u b) (name : List Char) (p : Pt) :
    ∃ q, Puts (place u o b name ⟨0, 0⟩) p q ∧ Should u o b p q := by
  obtain ⟨x0, h1⟩ := hb b.ll.x (by simp)
  obtain ⟨y0, h2⟩ := hb b.ll.y (by simp)
  obtain ⟨x1, h3⟩ := hb b.ur.x (by simp)
  obtain ⟨y1, h4⟩ := hb b.ur.y (by simp)
  unfold place
  rw [sc_is hd h1, sc_is hd h2, sc_is hd h3, sc_is hd h4]
  cases o with
  | N =>
    refine ⟨⟨x0 + p.x, y0 + p.y⟩, ⟨name, false, false, _, rfl, by simp, by simp⟩, Or.inl ?_, Or.inr (Or.inl rfl), Or.inl ?_, Or.inr (Or.inl rfl)⟩
    · rw [show x0 + p.x - p.x = x0 by omega]; exact h1
    · rw [show y0 + p.y - p.y = y0 by omega]; exact h2
  | S =>
    refine ⟨⟨x1 - p.x, y1 - p.y⟩, ⟨name, false, true, _, rfl, by simp; omega, by simp; omega⟩, Or.inr (Or.inl rfl), Or.inl ?_, Or.inr (Or.inl rfl), Or.inl ?_⟩
    · rw [show x1 - p.x + p.x = x1 by omega]; exact h3
    · rw [show y1 - p.y + p.y = y1 by omega]; exact h4
  | FN =>
    refine ⟨⟨x1 - p.x, y0 + p.y⟩, ⟨name, true, true, _, rfl, by simp; omega, by simp⟩, Or.inr (Or.inr rfl), Or.inl ?_, Or.inl ?_, Or.inr (Or.inr rfl)⟩
    · rw [show x1 - p.x + p.x = x1 by omega]; exact h3
    · rw [show y0 + p.y - p.y = y0 by omega]; exact h2
  | FS =>
    refine ⟨⟨x0 + p.x, y1 - p.y⟩, ⟨name, true, false, _, rfl, by simp, by simp; omega⟩, Or.inl ?_, Or.inr (Or.inr rfl), Or.inr (Or.inr rfl), Or.inl ?_⟩
    · rw [show x0 + p.x - p.x = x0 by omega]; exact h1
    · rw [show y1 - p.y + p.y = y1 by omega]; exact h4

theorem last_append (cs : List Cell) (c : Cell) (es : List Elem) (e : Elem) (h : c.elems = es ++ [e]) : lastCorner (cs ++ [c]) = corner e.xy := by
  unfold lastCorner
  rw [List.flatMap_append, List.foldl_append]
  simp [h]

/-- C140: the layout that is written of a block (not of the top) has its corner at the origin, so the layout above it puts it in the right place. -/
theorem C140_written {u : Unit} (rnd : Nat) (fs : List (String × List Cell)) (top : List Char) (n : Node) (ht : n.isTop = false) (hw : 0 ≤ sc u n.width) (hh : 0 ≤ sc u n.height) :
    lastCorner (write u rnd fs top n) = some ⟨0, 0⟩ := by
  unfold write
  rw [last_append _ _ (drawn u n ++ refs u fs (files rnd fs) n) (.outline (rectPoints 0 0 (sc u n.width) (sc u n.height)))]
  · simp only [Elem.xy, rectPoints, corner, List.foldl_cons, List.foldl_nil]
    congr 2 <;> omega
  · unfold outlines
    rw [ht]
    simp

/-- C140 does not hold: only the last element of a file counts for the corner. A cell with its corner at the origin, but with a small shape in the middle at the end, is put in the wrong place if
it is turned; if it is not turned, the corner does not count. -/
theorem C140_violated : lastCorner [⟨['A'], [.bound "M1" (rectPoints 0 0 10 10), .bound "M1" (rectPoints 4 4 6 6)]⟩] = some ⟨4, 4⟩
    ∧ ¬Should ⟨1, 1⟩ .S ⟨⟨0, 0⟩, ⟨10, 10⟩⟩ ⟨0, 0⟩ ⟨14, 14⟩ ∧ Puts (place ⟨1, 1⟩ .S ⟨⟨0, 0⟩, ⟨10, 10⟩⟩ ['A'] ⟨4, 4⟩) ⟨0, 0⟩ ⟨14, 14⟩ := by
  refine ⟨by decide, ?_, ⟨['A'], false, true, ⟨14, 14⟩, by decide, by decide, by decide⟩⟩
  unfold Should Is
  decide

/-- What the files give, with the number of the first. -/
theorem files_spec (fs : List (String × List Cell)) : ∀ (st : St), (∀ f ∈ fs, f.2 ≠ []) →
    ((fs.map (·.2)).foldl fileStep st).cells = st.cells ++ (fs.zipIdx (st.rnd + 1)).flatMap (fun p => p.1.2.map (rename p.2))
      ∧ ((fs.map (·.2)).foldl fileStep st).tops = st.tops ++ (fs.zipIdx (st.rnd + 1)).map (fun p => (p.1.2.getLast?).map fun c => joinName c.name p.2) := by
  induction fs with
  | nil => intro st _; simp
  | cons f fs ih =>
    intro st h
    obtain ⟨i1, i2⟩ := ih (fileStep st f.2) fun x hx => h x (List.mem_cons_of_mem _ hx)
    have hr : (fileStep st f.2).rnd = st.rnd + 1 := rfl
    rw [hr] at i1 i2
    rw [List.map_cons, List.foldl_cons, List.zipIdx_cons]
    refine ⟨?_, ?_⟩
    · rw [i1]
      simp [fileStep]
    · rw [i2]
      have hne := h f List.mem_cons_self
      have : (st.names ++ (f.2.map (rename (st.rnd + 1))).map (·.name)).getLast? = (f.2.getLast?).map fun c => joinName c.name (st.rnd + 1) := by
        rw [List.map_map, List.getLast?_append, List.getLast?_map]
        cases hl : f.2.getLast? with
        | none => exact absurd (List.getLast?_eq_none_iff.1 hl) hne
        | some c => rfl
      simp only [fileStep, List.map_cons, List.append_assoc, List.singleton_append, this]

/-- C141: the cells of all files get different names, if those of each file are different. -/
theorem C141_names (rnd : Nat) (fs : List (String × List Cell)) (hne : ∀ f ∈ fs, f.2 ≠ []) (h : ∀ f ∈ fs, (f.2.map (·.name)).Nodup) : ((files rnd fs).cells.map (·.name)).Nodup := by
  unfold files
  rw [(files_spec fs _ hne).1]
  simp only [List.nil_append]
  have key : ∀ (fs : List (String × List Cell)) (r : Nat), (∀ f ∈ fs, (f.2.map (·.name)).Nodup) →
      (((fs.zipIdx r).flatMap fun p => p.1.2.map (rename p.2)).map (·.name)).Nodup
        ∧ ∀ x ∈ ((fs.zipIdx r).flatMap fun p => p.1.2.map (rename p.2)).map (·.name), ∃ a k, r ≤ k ∧ x = joinName a k := by
    intro fs
    induction fs with
    | nil => intro r _; simp
    | cons f fs ih =>
      intro r h
      obtain ⟨i1, i2⟩ := ih (r + 1) fun x hx => h x (List.mem_cons_of_mem _ hx)
      rw [List.zipIdx_cons, List.flatMap_cons, List.map_append]
      have hmem : ∀ x ∈ ((f.2.map (rename r)).map (·.name)), ∃ a, x = joinName a r := by
        intro x hx
        rw [List.map_map] at hx
        obtain ⟨c, _, hc⟩ := List.mem_map.1 hx
        exact ⟨c.name, hc.symm⟩
      refine ⟨List.nodup_append.2 ⟨?_, i1, ?_⟩, ?_⟩
      · rw [List.map_map]
        have : ((fun c : Cell => c.name) ∘ rename r) = (fun n => joinName n r) ∘ (fun c : Cell => c.name) := rfl
        rw [this, ← List.map_map]
        exact (h f List.mem_cons_self).map fun a b hab => (joinName_inj hab).1
      · intro x hx y hy e
        obtain ⟨a, ha⟩ := hmem x hx
        obtain ⟨b, k, hk, hb⟩ := i2 y hy
        have := (joinName_inj (ha.symm.trans (e.trans hb))).2
        omega
      · intro x hx
        rcases List.mem_append.1 hx with hx | hx
        · obtain ⟨a, ha⟩ := hmem x hx
          exact ⟨a, r, by omega, ha⟩
        · obtain ⟨a, k, hk, ha⟩ := i2 x hx
          exact ⟨a, k, by omega, ha⟩
  exact (key fs (rnd + 1) h).1

/-- The reference leads to the cell. -/
def RefersTo (e : Elem) (c : Cell) : Prop := ∃ refl turned p, e = .sref c.name refl turned p

/-- C141: the cells of a file are among those written, each with its references leading to the cells of the same file that they led to, and with the same other elements in the same places. -/
theorem C141_inside (rnd : Nat) (fs : List (String × List Cell)) (hne : ∀ f ∈ fs, f.2 ≠ []) (f : String × List Cell) (hf : f ∈ fs) :
    ∃ g : Cell → Cell, (∀ c ∈ f.2, g c ∈ (files rnd fs).cells) ∧ ∀ c ∈ f.2, (g c).elems.length = c.elems.length
      ∧ ∀ (k : Nat) (e : Elem), c.elems[k]? = some e → ∃ e', (g c).elems[k]? = some e' ∧ e'.xy = e.xy ∧ (∀ l xy, e = .bound l xy → e' = e) ∧ ∀ d ∈ f.2, RefersTo e d → RefersTo e' (g d) := by
  obtain ⟨k, hk, hfk⟩ := List.getElem_of_mem hf
  refine ⟨rename (rnd + 1 + k), fun c hc => ?_, fun c _ => ⟨by simp [rename], fun j e he => ?_⟩⟩
  · unfold files
    rw [(files_spec fs _ hne).1]
    simp only [List.nil_append]
    refine List.mem_flatMap.2 ⟨(f, rnd + 1 + k), ?_, List.mem_map.2 ⟨c, hc, rfl⟩⟩
    rw [List.mem_zipIdx_iff_le_and_getElem?_sub]
    refine ⟨by simp only; omega, ?_⟩
    simp only
    rw [show rnd + 1 + k - (rnd + 1) = k by omega, ← hfk]
    exact List.getElem?_eq_getElem hk
  · unfold rename
    simp only
    rw [List.getElem?_map, he]
    refine ⟨_, rfl, ?_, ?_, ?_⟩
    · cases e <;> rfl
    · intro l xy h
      subst h
      rfl
    · intro d _ ⟨a, b, p, h⟩
      subst h
      exact ⟨a, b, p, rfl⟩

/-- C141, if no file is missing: the reference to a block leads to the last cell of its own file. -/
theorem C141_block_partial (u : Unit) (rnd : Nat) (fs : List (String × List Cell)) (hn : (fs.map (·.1)).Nodup) (hne : ∀ f ∈ fs, f.2 ≠ []) (top : List Char) (n : Node) (b : Block)
    (hb : b ∈ n.blocks) (f : String × List Cell) (hf : f ∈ fs) (hg : f.1 = b.gds) (c : Cell) (hc : f.2.getLast? = some c) :
    ∃ e c', Own (write u rnd fs top n) e ∧ c' ∈ (files rnd fs).cells ∧ RefersTo e c' ∧ c'.elems.length = c.elems.length ∧ ∃ k, c' = rename k c := by
  obtain ⟨k, hk, hfk⟩ := List.getElem_of_mem hf
  have hidx : idx fs b.gds = k := by
    unfold idx
    rw [← hg]
    have hk' : k < (fs.map (·.1)).length := by simpa using hk
    have e1 : (fs.map (·.1))[k] = f.1 := by rw [List.getElem_map, hfk]
    rw [← e1]
    exact List.Nodup.idxOf_getElem hn k hk'
  have htop : nameOf fs (files rnd fs) b.gds = joinName c.name (rnd + 1 + k) := by
    unfold nameOf
    rw [hidx]
    unfold files
    rw [(files_spec fs _ hne).2]
    simp only [List.nil_append]
    rw [List.getElem?_map, List.getElem?_zipIdx, List.getElem?_eq_getElem hk, hfk]
    simp only [Option.map_some, hc, Option.join_some, Option.getD_some]
  refine ⟨place u b.orient b.box (joinName c.name (rnd + 1 + k)) (cornerOf fs (files rnd fs) b.gds), rename (rnd + 1 + k) c, ?_, ?_, ?_, by simp [rename], _, rfl⟩
  · refine ⟨⟨top, drawn u n ++ refs u fs (files rnd fs) n ++ outlines u n⟩, by simp [write], ?_⟩
    refine List.mem_append_left _ (List.mem_append_right _ (List.mem_append_right _ (List.mem_map.2 ⟨b, hb, ?_⟩)))
    rw [htop]
  · unfold files
    rw [(files_spec fs _ hne).1]
    simp only [List.nil_append]
    refine List.mem_flatMap.2 ⟨(f, rnd + 1 + k), ?_, List.mem_map.2 ⟨c, List.mem_of_getLast? hc, rfl⟩⟩
    rw [List.mem_zipIdx_iff_le_and_getElem?_sub]
    refine ⟨by simp only; omega, ?_⟩
    simp only
    rw [show rnd + 1 + k - (rnd + 1) = k by omega, ← hfk]
    exact List.getElem?_eq_getElem hk
  · unfold place
    cases b.orient <;> exact ⟨_, _, _, rfl⟩

/-- C141 does not hold if a file is missing: the block is drawn as that of the file before. -/
theorem C141_violated : nameOf [("a.gds", [⟨['A'], []⟩]), ("b.gds", [])] (files 7 [("a.gds", [⟨['A'], []⟩]), ("b.gds", [])]) "b.gds" = joinName ['A'] 8 := by decide +kernel

/-- A node with two blocks of two files. -/
def exFiles : List (String × List Cell) := [("a.gds", [⟨['X'], []⟩, ⟨['A'], [.sref ['X'] false false ⟨1, 1⟩]⟩]), ("b.gds", [⟨['X'], [.bound "M1" (rectPoints 0 0 4 4)]⟩])]
def exNode : Node := ⟨false, 100, 100, 32, [], [⟨[⟨"M2", ⟨⟨0, 0⟩, ⟨10, 4⟩⟩, ⟨0, 2⟩, ⟨10, 2⟩⟩], []⟩], [], [⟨"a.gds", .N, ⟨⟨0, 0⟩, ⟨10, 10⟩⟩, []⟩, ⟨"b.gds", .FN, ⟨⟨20, 0⟩, ⟨30, 10⟩⟩, []⟩]⟩
example : (∀ f ∈ exFiles, f.2 ≠ []) ∧ (∀ f ∈ exFiles, (f.2.map (·.name)).Nodup) ∧ (exFiles.map (·.1)).Nodup := by decide
example : ((files 7 exFiles).cells.map (·.name)) = [['X', '_', '8'], ['A', '_', '8'], ['X', '_', '9']] := by decide +kernel
example : Own (write ⟨1, 2⟩ 7 exFiles ['T'] exNode) (.bound "M2" [⟨0, 0⟩, ⟨0, 2⟩, ⟨5, 2⟩, ⟨5, 0⟩, ⟨0, 0⟩]) :=
  ⟨_, rfl, by decide +kernel⟩

end Verif.WriteJson

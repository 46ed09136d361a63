import Mathlib.Data.List.Forall2
import Mathlib.Logic.Function.Iterate
import Verif.Geometry.Model

/-!
# Coordinates in the database of the placer and router

Model of the transformations of `PlaceRouteHierFlow/PnRDB/PnRdatabase.cpp` 142-669: points, boxes and whole nodes of the hierarchy are
turned, mirrored and moved into the coordinates of the top node and back, orientations are composed, and the shapes of a child that was
routed are copied to the block of its parent.
-/

namespace Verif.Turn

open Verif.Geometry (Transformation)

/-! ## Model -/

/-- `PnRDB::point`. Coordinates do not overflow. -/
structure Pt where
  x : Int
  y : Int
deriving DecidableEq

/-- `PnRDB::bbox`. -/
structure Box where
  ll : Pt
  ur : Pt
deriving DecidableEq

/-- `PnRDB::Omark` (`datatype.h` 77). -/
inductive Ort
  | N | S | W | E | FN | FS | FW | FE
deriving DecidableEq

/-- `PnRDB::TransformType` (`datatype.h` 80). -/
inductive Dir
  | fwd | bwd
deriving DecidableEq

def Pt.add (p q : Pt) : Pt := ⟨p.x + q.x, p.y + q.y⟩
def Pt.sub (p q : Pt) : Pt := ⟨p.x - q.x, p.y - q.y⟩

/-- `TransformPoint` (393-478). -/
def tPoint (t : Pt) (w h : Int) (o : Ort) : Dir → Pt → Pt
  | .fwd, p =>
    (match o with
    | .N => Pt.mk p.x p.y
    | .S => Pt.mk (w - p.x) (h - p.y)
    | .W => Pt.mk (h - p.y) p.x
    | .E => Pt.mk p.y (w - p.x)
    | .FN => Pt.mk (w - p.x) p.y
    | .FS => Pt.mk p.x (h - p.y)
    | .FW => Pt.mk p.y p.x
    | .FE => Pt.mk (h - p.y) (w - p.x)).add t
  | .bwd, p =>
    let q := p.sub t
    match o with
    | .N => ⟨q.x, q.y⟩
    | .S => ⟨w - q.x, h - q.y⟩
    | .W => ⟨q.y, h - q.x⟩
    | .E => ⟨w - q.y, q.x⟩
    | .FN => ⟨w - q.x, q.y⟩
    | .FS => ⟨q.x, h - q.y⟩
    | .FW => ⟨q.y, q.x⟩
    | .FE => ⟨w - q.y, h - q.x⟩

/-- `TransformBbox` (276-384). -/
def tBox (t : Pt) (w h : Int) (o : Ort) : Dir → Box → Box
  | .fwd, b =>
    let r : Box := match o with
      | .N => ⟨b.ll, b.ur⟩
      | .S => ⟨⟨w - b.ur.x, h - b.ur.y⟩, ⟨w - b.ll.x, h - b.ll.y⟩⟩
      | .W => ⟨⟨h - b.ur.y, b.ll.x⟩, ⟨h - b.ll.y, b.ur.x⟩⟩
      | .E => ⟨⟨b.ll.y, w - b.ur.x⟩, ⟨b.ur.y, w - b.ll.x⟩⟩
      | .FN => ⟨⟨w - b.ur.x, b.ll.y⟩, ⟨w - b.ll.x, b.ur.y⟩⟩
      | .FS => ⟨⟨b.ll.x, h - b.ur.y⟩, ⟨b.ur.x, h - b.ll.y⟩⟩
      | .FW => ⟨⟨b.ll.y, b.ll.x⟩, ⟨b.ur.y, b.ur.x⟩⟩
      | .FE => ⟨⟨h - b.ur.y, w - b.ur.x⟩, ⟨h - b.ll.y, w - b.ll.x⟩⟩
    ⟨r.ll.add t, r.ur.add t⟩
  | .bwd, b =>
    let l := b.ll.sub t
    let u := b.ur.sub t
    match o with
    | .N => ⟨l, u⟩
    | .S => ⟨⟨w - u.x, h - u.y⟩, ⟨w - l.x, h - l.y⟩⟩
    | .W => ⟨⟨l.y, h - u.x⟩, ⟨u.y, h - l.x⟩⟩
    | .E => ⟨⟨w - u.y, l.x⟩, ⟨w - l.y, u.x⟩⟩
    | .FN => ⟨⟨w - u.x, l.y⟩, ⟨w - l.x, u.y⟩⟩
    | .FS => ⟨⟨l.x, h - u.y⟩, ⟨u.x, h - l.y⟩⟩
    | .FW => ⟨⟨l.y, l.x⟩, ⟨u.y, u.x⟩⟩
    | .FE => ⟨⟨w - u.y, h - u.x⟩, ⟨w - l.y, h - l.x⟩⟩

/-- The number of an orientation. -/
def Ort.idx : Ort → Nat
  | .N => 0 | .S => 1 | .W => 2 | .E => 3 | .FN => 4 | .FS => 5 | .FW => 6 | .FE => 7

/-- `TransformTable` (551-558). -/
def table : List (List Ort) :=
  [[.N, .S, .W, .E, .FN, .FS, .FW, .FE],
   [.S, .N, .E, .W, .FS, .FN, .FE, .FW],
   [.W, .E, .S, .N, .FE, .FW, .FN, .FS],
   [.E, .W, .N, .S, .FW, .FE, .FS, .FN],
   [.FN, .FS, .FW, .FE, .N, .S, .W, .E],
   [.FS, .FN, .FE, .FW, .S, .N, .E, .W],
   [.FW, .FE, .FS, .FN, .E, .W, .N, .S],
   [.FE, .FW, .FN, .FS, .W, .E, .S, .N]]

/-- `RelOrt2AbsOrt` (506-560): the orientation of a child in the top node, from that of its parent and its own in the parent. -/
def rel2abs (a b : Ort) : Ort := (table.getD a.idx []).getD b.idx .N

/-- `PnRDB::contact`, without fields that stay the same. -/
structure Contact where
  metal : String
  placedBox : Box
  originBox : Box
  placedCenter : Pt
  originCenter : Pt
deriving DecidableEq

/-- `PnRDB::Via`. -/
structure Via where
  placedpos : Pt
  originpos : Pt
  upper : Contact
  lower : Contact
  cut : Contact
deriving DecidableEq

/-- `PnRDB::pin`. -/
structure Pin where
  name : String
  contacts : List Contact
  vias : List Via
deriving DecidableEq

/-- `PnRDB::block`, one instance of a block. -/
structure Block where
  placedBox : Box
  placedCenter : Pt
  pins : List Pin
  metals : List Contact
  vias : List Via
  dummies : List Pin
deriving DecidableEq

/-- `PnRDB::GuardRing`. -/
structure Guard where
  ll : Pt
  ur : Pt
  center : Pt
  pins : List Pin
  metals : List Contact
  vias : List Via
deriving DecidableEq

/-- `PnRDB::Metal`. -/
structure Metal where
  line : List Pt
  rect : Contact
deriving DecidableEq

/-- `PnRDB::net`. -/
structure Net where
  metals : List Metal
  vias : List Via
deriving DecidableEq

/-- `PnRDB::hierNode`. Blocks are lists of instances, terminals lists of contacts. -/
structure Node where
  ll : Pt
  ur : Pt
  width : Int
  height : Int
  blocks : List (List Block)
  nets : List Net
  terminals : List (List Contact)
  pins : List Pin
  metals : List Contact
  vias : List Via
  guards : List Guard
deriving DecidableEq

section
variable (t : Pt) (w h : Int) (o : Ort) (d : Dir)

/-- `TransformContact` (268-274). -/
def tContact (c : Contact) : Contact :=
  { c with placedBox := tBox t w h o d c.placedBox, originBox := tBox t w h o d c.originBox,
           placedCenter := tPoint t w h o d c.placedCenter, originCenter := tPoint t w h o d c.originCenter }

/-- `TransformContacts` (261-266). -/
def tContacts (l : List Contact) : List Contact := l.map (tContact t w h o d)

/-- `TransformVia`, `TransformVias` (245-259). -/
def tVia (v : Via) : Via :=
  ⟨tPoint t w h o d v.placedpos, tPoint t w h o d v.originpos, tContact t w h o d v.upper, tContact t w h o d v.lower, tContact t w h o d v.cut⟩
def tVias (l : List Via) : List Via := l.map (tVia t w h o d)

/-- `TransformPins`, `TransformPin` (217-227). -/
def tPin (p : Pin) : Pin := { p with contacts := tContacts t w h o d p.contacts, vias := tVias t w h o d p.vias }
def tPins (l : List Pin) : List Pin := l.map (tPin t w h o d)

/-- `TransformBlock` (188-195). -/
def tBlock (b : Block) : Block :=
  ⟨tBox t w h o d b.placedBox, tPoint t w h o d b.placedCenter, tPins t w h o d b.pins, tContacts t w h o d b.metals, tVias t w h o d b.vias,
    tPins t w h o d b.dummies⟩

/-- `TransformGuardring` (235-243). -/
def tGuard (g : Guard) : Guard :=
  ⟨tPoint t w h o d g.ll, tPoint t w h o d g.ur, tPoint t w h o d g.center, tPins t w h o d g.pins, tContacts t w h o d g.metals,
    tVias t w h o d g.vias⟩

/-- `TransformTerminal` (174-179): the loop over the contacts transforms all contacts each time. -/
def tTerminal (l : List Contact) : List Contact := l.foldl (fun a _ => tContacts t w h o d a) l

/-- `TransformMetal`, `TransformNet` (480-496). -/
def tMetal (m : Metal) : Metal := ⟨m.line.map (tPoint t w h o d), tContact t w h o d m.rect⟩
def tNet (n : Net) : Net := ⟨n.metals.map (tMetal t w h o d), tVias t w h o d n.vias⟩

end

/-- Width and height in the coordinates of the node itself (152-164). -/
def own (ll ur : Pt) : Ort → Int × Int
  | .N | .FN | .S | .FS => (ur.x - ll.x, ur.y - ll.y)
  | .W | .FW | .E | .FE => (ur.y - ll.y, ur.x - ll.x)

/-- `TransformNode` (142-172). -/
def tNode (t : Pt) (o : Ort) (d : Dir) (n : Node) : Node :=
  let w := (own n.ll n.ur o).1
  let h := (own n.ll n.ur o).2
  { ll := n.ll, ur := n.ur, width := w, height := h,
    blocks := n.blocks.map fun b => b.map (tBlock t w h o d),
    nets := n.nets.map (tNet t w h o d),
    terminals := n.terminals.map (tTerminal t w h o d),
    pins := tPins t w h o d n.pins,
    metals := tContacts t w h o d n.metals,
    vias := tVias t w h o d n.vias,
    guards := n.guards.map (tGuard t w h o d) }

/-- What the loops of 570-587, 599-605 and 618-627 do with one contact: `a` was transformed there and back, `c` is the copy made in between. -/
def keep (a c : Contact) : Contact := { a with placedBox := c.originBox, placedCenter := c.originCenter }

/-- The same with one via. -/
def keepVia (a c : Via) : Via :=
  { a with placedpos := c.originpos, upper := keep a.upper c.upper, lower := keep a.lower c.lower, cut := keep a.cut c.cut }

section
variable (t : Pt) (w h : Int) (o : Ort)

/-- `TransformIntermetalsOriginToPlaced` (590-606). -/
def metalsPlaced (l : List Contact) : List Contact :=
  let f := tContacts t w h o .fwd l
  List.zipWith keep (tContacts t w h o .bwd f) f

/-- `TransformInterviasOriginToPlaced` (608-628). -/
def viasPlaced (l : List Via) : List Via :=
  let f := tVias t w h o .fwd l
  List.zipWith keepVia (tVias t w h o .bwd f) f

/-- `TransformBlockPinsOriginToPlaced` (562-588). -/
def pinsPlaced (l : List Pin) : List Pin :=
  let f := tPins t w h o .fwd l
  List.zipWith (fun a c => { a with contacts := List.zipWith keep a.contacts c.contacts, vias := List.zipWith keepVia a.vias c.vias })
    (tPins t w h o .bwd f) f

end

/-- `CheckinChildnodetoBlock` (630-669), for the selected instance `pi` of the block; the report of the router is left out. -/
def checkin (pi : Block) (child : Node) (o : Ort) : Block :=
  let w := child.ur.x - child.ll.x
  let h := child.ur.y - child.ll.y
  let t := pi.placedBox.ll
  let ps := pinsPlaced t w h o child.pins
  { pi with
    pins := pi.pins.map fun p => match ps.find? fun q => decide (p.name = q.name) with
      | some q => { p with contacts := q.contacts, vias := q.vias }
      | none => p
    metals := metalsPlaced t w h o child.metals
    vias := viasPlaced t w h o child.vias }

/-- A node of the hierarchy as far as `route_top_down_aux` of `align/pnr/router.py` needs it: its width and height, and for each block that has a
child the box and orientation of the selected instance in the coordinates of the node. -/
inductive Tree
  | node (w h : Int) (kids : List (Box × Ort × Tree))

mutual
/-- `route_top_down_aux` (251-281) as far as coordinates are concerned: corner, width, height and orientation with which each node is transformed
by `TransformNode`, parents before children. Here the node is transformed forward, and its children get the transformed box of their
instance and the composed orientation. -/
def visit (ll ur : Pt) (o : Ort) : Tree → List (Pt × Int × Int × Ort)
  | .node _ _ kids => (ll, (own ll ur o).1, (own ll ur o).2, o) :: visitAll ll (own ll ur o).1 (own ll ur o).2 o kids
def visitAll (t : Pt) (w h : Int) (o : Ort) : List (Box × Ort × Tree) → List (Pt × Int × Int × Ort)
  | [] => []
  | (b, r, c) :: ks => visit (tBox t w h o .fwd b).ll (tBox t w h o .fwd b).ur (rel2abs o r) c ++ visitAll t w h o ks
end

/-- `route_top_down` (309-323): the top node is not turned and starts at the origin. -/
def visitTop : Tree → List (Pt × Int × Int × Ort)
  | .node w h kids => visit ⟨0, 0⟩ ⟨w, h⟩ .N (.node w h kids)

/-! ## Specification -/

/-- The point is in the box. -/
def In (p : Pt) (b : Box) : Prop := b.ll.x ≤ p.x ∧ p.x ≤ b.ur.x ∧ b.ll.y ≤ p.y ∧ p.y ≤ b.ur.y

/-- The matrix of an orientation: N is the identity, S turns by 180 degrees, W by 90 degrees counter clockwise, E clockwise; F mirrors left and
right afterwards. -/
def mat : Ort → (Int × Int) × (Int × Int)
  | .N => ((1, 0), (0, 1))
  | .S => ((-1, 0), (0, -1))
  | .W => ((0, -1), (1, 0))
  | .E => ((0, 1), (-1, 0))
  | .FN => ((-1, 0), (0, 1))
  | .FS => ((1, 0), (0, -1))
  | .FW => ((0, 1), (1, 0))
  | .FE => ((0, -1), (-1, 0))

/-- Product of matrices. -/
def mul (a b : (Int × Int) × (Int × Int)) : (Int × Int) × (Int × Int) :=
  ((a.1.1 * b.1.1 + a.1.2 * b.2.1, a.1.1 * b.1.2 + a.1.2 * b.2.2), (a.2.1 * b.1.1 + a.2.2 * b.2.1, a.2.1 * b.1.2 + a.2.2 * b.2.2))

/-- Width and height of a `w` by `h` node that is turned: exchanged by quarter turns. -/
def turned (o : Ort) (w h : Int) : Int × Int := if (mat o).1.1 = 0 then (h, w) else (w, h)

/-- `f` places a node of width `w` and height `h` with its lower left corner at `t`: it turns all vectors by the matrix of the orientation, and
the points of the node are those that go to the turned box at `t`. -/
def Places (t : Pt) (w h : Int) (o : Ort) (f : Pt → Pt) : Prop :=
  (∀ p q, (f p).x - (f q).x = (mat o).1.1 * (p.x - q.x) + (mat o).1.2 * (p.y - q.y) ∧
    (f p).y - (f q).y = (mat o).2.1 * (p.x - q.x) + (mat o).2.2 * (p.y - q.y)) ∧
  ∀ p, In p ⟨⟨0, 0⟩, ⟨w, h⟩⟩ ↔ In (f p) ⟨t, ⟨t.x + (turned o w h).1, t.y + (turned o w h).2⟩⟩

mutual
/-- Where the nodes of a tree are, if the root is at `f`: each child is placed in its parent at the corner of its box. -/
inductive Located : Tree → (Pt → Pt) → List (Pt → Pt) → Prop
  | node {w h : Int} {kids : List (Box × Ort × Tree)} {f : Pt → Pt} {l : List (Pt → Pt)} : LocatedAll kids f l → Located (.node w h kids) f (f :: l)
inductive LocatedAll : List (Box × Ort × Tree) → (Pt → Pt) → List (Pt → Pt) → Prop
  | nil {f : Pt → Pt} : LocatedAll [] f []
  | cons {b : Box} {r : Ort} {w h : Int} {kids ks : List (Box × Ort × Tree)} {f g : Pt → Pt} {l m : List (Pt → Pt)} :
    Places b.ll w h r g → Located (.node w h kids) (fun p => f (g p)) l → LocatedAll ks f m → LocatedAll ((b, r, .node w h kids) :: ks) f (l ++ m)
end

mutual
/-- The boxes of children have the size of the children, and sizes are not negative. -/
inductive Sized : Tree → Prop
  | node {w h : Int} {kids : List (Box × Ort × Tree)} : 0 ≤ w → 0 ≤ h → SizedAll kids → Sized (.node w h kids)
inductive SizedAll : List (Box × Ort × Tree) → Prop
  | nil : SizedAll []
  | cons {b : Box} {r : Ort} {w h : Int} {kids ks : List (Box × Ort × Tree)} :
    (b.ur.x - b.ll.x, b.ur.y - b.ll.y) = turned r w h → Sized (.node w h kids) → SizedAll ks → SizedAll ((b, r, .node w h kids) :: ks)
end

/-- Boxes and points of a node. -/
inductive Shape
  | box (b : Box)
  | pt (p : Pt)
deriving DecidableEq

def Contact.shapes (c : Contact) : List Shape := [.box c.placedBox, .box c.originBox, .pt c.placedCenter, .pt c.originCenter]
def Via.shapes (v : Via) : List Shape := [.pt v.placedpos, .pt v.originpos] ++ v.upper.shapes ++ v.lower.shapes ++ v.cut.shapes
def Pin.shapes (p : Pin) : List Shape := p.contacts.flatMap Contact.shapes ++ p.vias.flatMap Via.shapes
def Block.shapes (b : Block) : List Shape :=
  [.box b.placedBox, .pt b.placedCenter] ++ b.pins.flatMap Pin.shapes ++ b.metals.flatMap Contact.shapes ++ b.vias.flatMap Via.shapes ++
    b.dummies.flatMap Pin.shapes
def Guard.shapes (g : Guard) : List Shape :=
  [.pt g.center] ++ g.pins.flatMap Pin.shapes ++ g.metals.flatMap Contact.shapes ++ g.vias.flatMap Via.shapes
def Net.shapes (n : Net) : List Shape :=
  (n.metals.flatMap fun m => m.line.map .pt ++ m.rect.shapes) ++ n.vias.flatMap Via.shapes

/-- Everything in a node but its terminals and the corners of guard rings. -/
def Node.shapes (n : Node) : List Shape :=
  (n.blocks.flatMap fun b => b.flatMap Block.shapes) ++ n.nets.flatMap Net.shapes ++ n.pins.flatMap Pin.shapes ++
    n.metals.flatMap Contact.shapes ++ n.vias.flatMap Via.shapes ++ n.guards.flatMap Guard.shapes

/-- The shapes of terminals. -/
def Node.termShapes (n : Node) : List Shape := n.terminals.flatMap fun l => l.flatMap Contact.shapes

/-- The boxes of guard rings. -/
def Node.ringBoxes (n : Node) : List Box := n.guards.map fun g => ⟨g.ll, g.ur⟩

/-- `s'` is the image of `s`. -/
def Image (f : Pt → Pt) : Shape → Shape → Prop
  | .pt p, .pt q => q = f p
  | .box b, .box c => ∀ p, In p b ↔ In (f p) c
  | _, _ => False

/-- The contact `c'` is `c` with its origin placed by `f`. -/
def PlacedBy (f : Pt → Pt) (c c' : Contact) : Prop :=
  c'.metal = c.metal ∧ c'.originBox = c.originBox ∧ c'.originCenter = c.originCenter ∧ c'.placedCenter = f c.originCenter ∧
    ∀ p, In p c.originBox ↔ In (f p) c'.placedBox

def PlacedViaBy (f : Pt → Pt) (v v' : Via) : Prop :=
  v'.originpos = v.originpos ∧ v'.placedpos = f v.originpos ∧ PlacedBy f v.upper v'.upper ∧ PlacedBy f v.lower v'.lower ∧ PlacedBy f v.cut v'.cut

/-! ## Points and boxes -/

theorem box_iff (t : Pt) (w h : Int) (o : Ort) (d : Dir) (b : Box) (p : Pt) : In p b ↔ In (tPoint t w h o d p) (tBox t w h o d b) := by
  cases d <;> cases o <;> simp only [In, tPoint, tBox, Pt.add, Pt.sub] <;> omega

theorem point_back (t : Pt) (w h : Int) (o : Ort) (p : Pt) : tPoint t w h o .bwd (tPoint t w h o .fwd p) = p := by
  obtain ⟨x, y⟩ := p
  cases o <;> simp only [tPoint, Pt.add, Pt.sub, Pt.mk.injEq] <;> omega

theorem point_forth (t : Pt) (w h : Int) (o : Ort) (p : Pt) : tPoint t w h o .fwd (tPoint t w h o .bwd p) = p := by
  obtain ⟨x, y⟩ := p
  cases o <;> simp only [tPoint, Pt.add, Pt.sub, Pt.mk.injEq] <;> omega

theorem box_back (t : Pt) (w h : Int) (o : Ort) (b : Box) : tBox t w h o .bwd (tBox t w h o .fwd b) = b := by
  obtain ⟨⟨a, b⟩, ⟨c, d⟩⟩ := b
  cases o <;> simp only [tBox, Pt.add, Pt.sub, Pt.mk.injEq, Box.mk.injEq] <;> omega

/-- A point is placed as the orientation says. -/
theorem C105_point (t : Pt) (w h : Int) (o : Ort) : Places t w h o (tPoint t w h o .fwd) := by
  constructor
  · intro p q
    cases o <;> simp only [tPoint, Pt.add, mat] <;> omega
  · intro p
    cases o <;> simp [In, tPoint, Pt.add, turned, mat] <;> omega

/-- There is only one map that places as the orientation says, if the node has a size. -/
theorem C105_unique {t : Pt} {w h : Int} {o : Ort} (hw : 0 ≤ w) (hh : 0 ≤ h) {f g : Pt → Pt} (hf : Places t w h o f) (hg : Places t w h o g) :
    ∀ p, f p = g p := by
  have key : ∀ f : Pt → Pt, Places t w h o f → f ⟨0, 0⟩ = tPoint t w h o .fwd ⟨0, 0⟩ := by
    intro f hf
    have h1 := (hf.2 ⟨0, 0⟩).1 ⟨Int.le_refl _, hw, Int.le_refl _, hh⟩
    have h2 := (hf.2 ⟨w, h⟩).1 ⟨hw, Int.le_refl _, hh, Int.le_refl _⟩
    have h3 := hf.1 ⟨w, h⟩ ⟨0, 0⟩
    have e : f ⟨0, 0⟩ = ⟨(f ⟨0, 0⟩).x, (f ⟨0, 0⟩).y⟩ := rfl
    rw [e]
    cases o <;> simp [In, turned, mat] at h1 h2 h3 <;> simp only [tPoint, Pt.add, Pt.mk.injEq] <;> omega
  intro p
  have e1 := hf.1 p ⟨0, 0⟩
  have e2 := hg.1 p ⟨0, 0⟩
  rw [key f hf] at e1
  rw [key g hg] at e2
  have e : f p = ⟨(f p).x, (f p).y⟩ := rfl
  have e' : g p = ⟨(g p).x, (g p).y⟩ := rfl
  rw [e, e', Pt.mk.injEq]
  omega

/-- A box goes to the box of the images of its points, in both directions; boxes that are the right way round stay so. -/
theorem C105_box (t : Pt) (w h : Int) (o : Ort) (d : Dir) (b : Box) :
    (∀ p, In p b ↔ In (tPoint t w h o d p) (tBox t w h o d b)) ∧
      (b.ll.x ≤ b.ur.x → b.ll.y ≤ b.ur.y → (tBox t w h o d b).ll.x ≤ (tBox t w h o d b).ur.x ∧ (tBox t w h o d b).ll.y ≤ (tBox t w h o d b).ur.y) := by
  refine ⟨box_iff t w h o d b, fun h1 h2 => ?_⟩
  cases d <;> cases o <;> simp only [tBox, Pt.add, Pt.sub] <;> omega

/-- Backward undoes forward and forward undoes backward. -/
theorem C105_back (t : Pt) (w h : Int) (o : Ort) : (∀ p, tPoint t w h o .bwd (tPoint t w h o .fwd p) = p) ∧
    (∀ p, tPoint t w h o .fwd (tPoint t w h o .bwd p) = p) ∧ ∀ b, tBox t w h o .bwd (tBox t w h o .fwd b) = b :=
  ⟨point_back t w h o, point_forth t w h o, box_back t w h o⟩

/-- The orientations of the placer, N, S, FN and FS, are placed as the Python code places them. -/
theorem C105_python (tag : String) (o : Ort) (ho : (tag, o) ∈ [("N", Ort.N), ("S", Ort.S), ("FN", Ort.FN), ("FS", Ort.FS)]) (t : Pt) (w h : Int)
    {tr : Transformation} (htr : Transformation.genTr tag w h = some tr) (p : Pt) :
    tPoint t w h o .fwd p = ⟨(tr.hit (p.x, p.y)).1 + t.x, (tr.hit (p.x, p.y)).2 + t.y⟩ := by
  simp only [List.mem_cons, Prod.mk.injEq, List.not_mem_nil, or_false] at ho
  rcases ho with ⟨rfl, rfl⟩ | ⟨rfl, rfl⟩ | ⟨rfl, rfl⟩ | ⟨rfl, rfl⟩ <;> simp [Transformation.genTr] at htr <;> subst htr <;>
    simp only [tPoint, Pt.add, Transformation.hit, Pt.mk.injEq] <;> omega

example : Transformation.genTr "FN" 7 5 = some ⟨7, 0, -1, 1⟩ := by decide

/-! ## Orientations -/

/-- Composed orientations have the product of the matrices; N, S, FN and FS stay among themselves. -/
theorem C105_orient (a b : Ort) : mat (rel2abs a b) = mul (mat a) (mat b) ∧
    ((mat a).1.1 ≠ 0 → (mat b).1.1 ≠ 0 → (mat (rel2abs a b)).1.1 ≠ 0) := by
  cases a <;> cases b <;> decide

/-- A child is placed in the top node by its composed orientation where its box has gone. Its width and height are found again from that box. -/
theorem C105_compose (t r : Pt) (w h wc hc : Int) (a b : Ort) :
    (∀ p, tPoint t w h a .fwd (tPoint r wc hc b .fwd p) =
      tPoint (tBox t w h a .fwd (tBox r wc hc b .fwd ⟨⟨0, 0⟩, ⟨wc, hc⟩⟩)).ll wc hc (rel2abs a b) .fwd p) ∧
    own (tBox t w h a .fwd (tBox r wc hc b .fwd ⟨⟨0, 0⟩, ⟨wc, hc⟩⟩)).ll (tBox t w h a .fwd (tBox r wc hc b .fwd ⟨⟨0, 0⟩, ⟨wc, hc⟩⟩)).ur
      (rel2abs a b) = (wc, hc) := by
  constructor
  · rintro ⟨x, y⟩
    cases a <;> cases b <;> simp [tPoint, tBox, rel2abs, table, Ort.idx, Pt.add] <;> omega
  · cases a <;> cases b <;> simp [tBox, rel2abs, table, Ort.idx, Pt.add, own] <;> omega

/-- In the coordinates of its parent a child is where it was placed there. -/
theorem C105_relative (t r : Pt) (w h wc hc : Int) (a b : Ort) (p : Pt) :
    tPoint t w h a .bwd (tPoint (tBox t w h a .fwd (tBox r wc hc b .fwd ⟨⟨0, 0⟩, ⟨wc, hc⟩⟩)).ll wc hc (rel2abs a b) .fwd p) =
      tPoint r wc hc b .fwd p := by
  rw [← (C105_compose t r w h wc hc a b).1 p, point_back]

theorem box_of_size {b : Box} {r : Ort} {w h : Int} (hb : (b.ur.x - b.ll.x, b.ur.y - b.ll.y) = turned r w h) :
    b = tBox b.ll w h r .fwd ⟨⟨0, 0⟩, ⟨w, h⟩⟩ := by
  obtain ⟨⟨a, c⟩, ⟨d, e⟩⟩ := b
  cases r <;> simp [turned, mat] at hb <;> simp [tBox, Pt.add] <;> omega

mutual
theorem visit_located {f : Pt → Pt} {ll ur : Pt} {o : Ort} {l : List (Pt → Pt)} : ∀ {T : Tree}, Located T f l → Sized T →
    (∀ p, f p = tPoint ll (own ll ur o).1 (own ll ur o).2 o .fwd p) →
    List.Forall₂ (fun v g => ∀ p, g p = tPoint v.1 v.2.1 v.2.2.1 v.2.2.2 .fwd p) (visit ll ur o T) l
  | .node w h kids, .node hl, .node _ _ hs, hf => by
    rw [visit]
    exact .cons hf (visitAll_located hl hs hf)
theorem visitAll_located {f : Pt → Pt} {t : Pt} {w h : Int} {o : Ort} {l : List (Pt → Pt)} : ∀ {ks : List (Box × Ort × Tree)}, LocatedAll ks f l →
    SizedAll ks → (∀ p, f p = tPoint t w h o .fwd p) →
    List.Forall₂ (fun v g => ∀ p, g p = tPoint v.1 v.2.1 v.2.2.1 v.2.2.2 .fwd p) (visitAll t w h o ks) l
  | _, .nil, _, _ => by rw [visitAll]; exact .nil
  | (b, r, .node wc hc kids) :: ks, .cons (g := g) hg h1 h2, .cons hb h3 h4, hf => by
    rw [visitAll]
    have hb' := box_of_size hb
    obtain ⟨c1, c2⟩ := C105_compose t b.ll w h wc hc o r
    rw [← hb'] at c1 c2
    have hg' : ∀ p, g p = tPoint b.ll wc hc r .fwd p := by
      cases h3 with
      | node hw hh _ => exact C105_unique hw hh hg (C105_point _ _ _ _)
    refine List.rel_append (visit_located h1 h3 fun p => ?_) (visitAll_located h2 h4 hf)
    rw [c2, hg', hf]
    exact c1 p
end

/-- In a hierarchy of any depth each node is routed where the placements of all nodes above it put it. -/
theorem C105_hierarchy {T : Tree} (hT : Sized T) {l : List (Pt → Pt)} (hl : Located T (fun p => p) l) :
    List.Forall₂ (fun v g => ∀ p, g p = tPoint v.1 v.2.1 v.2.2.1 v.2.2.2 .fwd p) (visitTop T) l := by
  cases T with
  | node w h kids =>
    refine visit_located hl hT fun p => ?_
    simp [tPoint, Pt.add]

/-- A tree of three levels. -/
def exTree : Tree := .node 10 10 [(⟨⟨1, 2⟩, ⟨5, 8⟩⟩, .FN, .node 4 6 [(⟨⟨0, 0⟩, ⟨2, 1⟩⟩, .S, .node 2 1 [])])]

example : Sized exTree ∧ Located exTree (fun p => p) [fun p => p, fun p => tPoint ⟨1, 2⟩ 4 6 .FN .fwd p,
    fun p => tPoint ⟨1, 2⟩ 4 6 .FN .fwd (tPoint ⟨0, 0⟩ 2 1 .S .fwd p)] ∧
    visitTop exTree = [(⟨0, 0⟩, 10, 10, .N), (⟨1, 2⟩, 4, 6, .FN), (⟨3, 2⟩, 2, 1, .FS)] := by
  refine ⟨?_, ?_, rfl⟩
  · exact .node (by decide) (by decide) (.cons (by decide) (.node (by decide) (by decide) (.cons (by decide) (.node (by decide) (by decide) .nil) .nil)) .nil)
  · exact .node (.cons (l := [_, _]) (m := []) (C105_point _ _ _ _) (.node (.cons (l := [_]) (m := []) (C105_point _ _ _ _) (.node .nil) .nil)) .nil)

/-! ## Nodes -/

section nodes

variable {t : Pt} {w h : Int} {o : Ort}

theorem contact_back (c : Contact) : tContact t w h o .bwd (tContact t w h o .fwd c) = c := by
  unfold tContact
  simp only [box_back, point_back]

theorem contacts_back (l : List Contact) : tContacts t w h o .bwd (tContacts t w h o .fwd l) = l := by
  unfold tContacts
  rw [List.map_map]
  exact (List.map_congr_left fun c _ => contact_back c).trans (List.map_id l)

theorem via_back (v : Via) : tVia t w h o .bwd (tVia t w h o .fwd v) = v := by
  unfold tVia
  simp only [contact_back, point_back]

theorem vias_back (l : List Via) : tVias t w h o .bwd (tVias t w h o .fwd l) = l := by
  unfold tVias
  rw [List.map_map]
  exact (List.map_congr_left fun c _ => via_back c).trans (List.map_id l)

theorem pin_back (p : Pin) : tPin t w h o .bwd (tPin t w h o .fwd p) = p := by
  unfold tPin
  simp only [contacts_back, vias_back]

theorem pins_back (l : List Pin) : tPins t w h o .bwd (tPins t w h o .fwd l) = l := by
  unfold tPins
  rw [List.map_map]
  exact (List.map_congr_left fun c _ => pin_back c).trans (List.map_id l)

theorem block_back (b : Block) : tBlock t w h o .bwd (tBlock t w h o .fwd b) = b := by
  unfold tBlock
  simp only [contacts_back, vias_back, pins_back, box_back, point_back]

theorem guard_back (g : Guard) : tGuard t w h o .bwd (tGuard t w h o .fwd g) = g := by
  unfold tGuard
  simp only [contacts_back, vias_back, pins_back, point_back]

theorem metal_back (m : Metal) : tMetal t w h o .bwd (tMetal t w h o .fwd m) = m := by
  unfold tMetal
  simp only [contact_back, List.map_map]
  have : m.line.map (tPoint t w h o .bwd ∘ tPoint t w h o .fwd) = m.line :=
    (List.map_congr_left fun c _ => point_back t w h o c).trans (List.map_id _)
  rw [this]

theorem net_back (n : Net) : tNet t w h o .bwd (tNet t w h o .fwd n) = n := by
  unfold tNet
  simp only [vias_back, List.map_map]
  have : n.metals.map (tMetal t w h o .bwd ∘ tMetal t w h o .fwd) = n.metals :=
    (List.map_congr_left fun c _ => metal_back c).trans (List.map_id _)
  rw [this]

theorem fold_iterate {α β : Type} (f : α → α) : ∀ (l : List β) (a : α), l.foldl (fun a _ => f a) a = f^[l.length] a
  | [], _ => rfl
  | _ :: l, a => fold_iterate f l (f a)

theorem contacts_length (d : Dir) (l : List Contact) : (tContacts t w h o d l).length = l.length := List.length_map _

theorem iterate_length (d : Dir) (k : Nat) (l : List Contact) : ((tContacts t w h o d)^[k] l).length = l.length := by
  induction k with
  | zero => rfl
  | succ k ih => rw [Function.iterate_succ_apply', contacts_length, ih]

theorem terminal_eq (d : Dir) (l : List Contact) : tTerminal t w h o d l = (tContacts t w h o d)^[l.length] l := fold_iterate _ l l

theorem terminal_back (l : List Contact) : tTerminal t w h o .bwd (tTerminal t w h o .fwd l) = l := by
  rw [terminal_eq, terminal_eq, iterate_length]
  exact Function.LeftInverse.iterate (fun l => contacts_back l) l.length l

end nodes

/-- A node that is transformed forward and backward is as before, except for the width and height stored in it. -/
theorem C105_node_back (t : Pt) (o : Ort) (n : Node) : tNode t o .bwd (tNode t o .fwd n) = { n with width := (own n.ll n.ur o).1, height := (own n.ll n.ur o).2 } := by
  have lists : ∀ {α : Type} (f g : α → α) (l : List α), (∀ a, f (g a) = a) → (l.map g).map f = l := by
    intro α f g l hfg
    rw [List.map_map]
    exact (List.map_congr_left fun c _ => hfg c).trans (List.map_id _)
  unfold tNode
  simp only [contacts_back, vias_back, pins_back]
  rw [lists _ _ _ net_back, lists _ _ _ terminal_back, lists _ _ _ guard_back]
  congr 1
  exact lists _ _ _ fun b => lists _ _ _ block_back

section shapes

variable (t : Pt) (w h : Int) (o : Ort) (d : Dir)

/-- The image of a shape. -/
def tShape : Shape → Shape
  | .box b => .box (tBox t w h o d b)
  | .pt p => .pt (tPoint t w h o d p)

theorem shape_image (s : Shape) : Image (tPoint t w h o d) s (tShape t w h o d s) := by
  cases s with
  | box b => exact box_iff t w h o d b
  | pt p => rfl

theorem flatMap_map {α : Type} (f : α → List Shape) (g : α → α) (hfg : ∀ a, f (g a) = (f a).map (tShape t w h o d)) (l : List α) :
    (l.map g).flatMap f = (l.flatMap f).map (tShape t w h o d) := by
  rw [List.flatMap_map, List.map_flatMap]
  exact List.flatMap_congr fun a _ => hfg a

theorem contact_shapes (c : Contact) : (tContact t w h o d c).shapes = c.shapes.map (tShape t w h o d) := rfl
theorem via_shapes (v : Via) : (tVia t w h o d v).shapes = v.shapes.map (tShape t w h o d) := rfl

theorem pin_shapes (p : Pin) : (tPin t w h o d p).shapes = p.shapes.map (tShape t w h o d) := by
  unfold Pin.shapes tPin tContacts tVias
  rw [List.map_append, flatMap_map t w h o d _ _ (contact_shapes t w h o d), flatMap_map t w h o d _ _ (via_shapes t w h o d)]

theorem terminal_shapes (l : List Contact) (hl : l.length ≤ 1) :
    (tTerminal t w h o d l).flatMap Contact.shapes = (l.flatMap Contact.shapes).map (tShape t w h o d) := by
  have : tTerminal t w h o d l = l.map (tContact t w h o d) := by
    rw [terminal_eq]
    rcases l with _ | ⟨c, _ | ⟨c', l⟩⟩
    · rfl
    · rfl
    · simp at hl
  rw [this, flatMap_map t w h o d _ _ (contact_shapes t w h o d)]

theorem block_shapes (b : Block) : (tBlock t w h o d b).shapes = b.shapes.map (tShape t w h o d) := by
  unfold Block.shapes tBlock tContacts tVias tPins
  simp only [List.map_append, flatMap_map t w h o d _ _ (contact_shapes t w h o d), flatMap_map t w h o d _ _ (via_shapes t w h o d),
    flatMap_map t w h o d _ _ (pin_shapes t w h o d)]
  rfl

theorem guard_shapes (g : Guard) : (tGuard t w h o d g).shapes = g.shapes.map (tShape t w h o d) := by
  unfold Guard.shapes tGuard tContacts tVias tPins
  simp only [List.map_append, flatMap_map t w h o d _ _ (contact_shapes t w h o d), flatMap_map t w h o d _ _ (via_shapes t w h o d),
    flatMap_map t w h o d _ _ (pin_shapes t w h o d)]
  rfl

theorem net_shapes (n : Net) : (tNet t w h o d n).shapes = n.shapes.map (tShape t w h o d) := by
  unfold Net.shapes tNet tVias
  rw [List.map_append, flatMap_map t w h o d _ _ (via_shapes t w h o d), flatMap_map t w h o d (fun m : Metal => m.line.map Shape.pt ++ m.rect.shapes)]
  intro m
  simp only [tMetal, List.map_append, List.map_map, contact_shapes]
  rfl

theorem forall_image (l : List Shape) : List.Forall₂ (Image (tPoint t w h o d)) l (l.map (tShape t w h o d)) := by
  induction l with
  | nil => exact .nil
  | cons a l ih => exact .cons (shape_image t w h o d a) ih

end shapes

/-- Everything in a node but terminals and corners of guard rings is moved, each shape once, by the map that places the node (or by its
inverse, backward). -/
theorem C105_node_partial (t : Pt) (o : Ort) (d : Dir) (n : Node) :
    List.Forall₂ (Image (tPoint t (own n.ll n.ur o).1 (own n.ll n.ur o).2 o d)) n.shapes (tNode t o d n).shapes := by
  have e : (tNode t o d n).shapes = n.shapes.map (tShape t (own n.ll n.ur o).1 (own n.ll n.ur o).2 o d) := by
    unfold Node.shapes tNode tContacts tVias tPins
    generalize (own n.ll n.ur o).1 = w
    generalize (own n.ll n.ur o).2 = h
    simp only [List.map_append]
    rw [flatMap_map t w h o d _ _ (contact_shapes t w h o d), flatMap_map t w h o d _ _ (via_shapes t w h o d),
      flatMap_map t w h o d _ _ (pin_shapes t w h o d), flatMap_map t w h o d _ _ (net_shapes t w h o d),
      flatMap_map t w h o d _ _ (guard_shapes t w h o d),
      flatMap_map t w h o d (fun b : List Block => b.flatMap Block.shapes) (fun b => b.map (tBlock t w h o d))
        (fun b => flatMap_map t w h o d _ _ (block_shapes t w h o d) b)]
  rw [e]
  exact forall_image _ _ _ _ _ _

/-- A node placed at the corner of its box in the top node covers that box. -/
theorem C105_node_box (o : Ort) (n : Node) : Places n.ll (own n.ll n.ur o).1 (own n.ll n.ur o).2 o (tPoint n.ll (own n.ll n.ur o).1 (own n.ll n.ur o).2 o .fwd) ∧
    (n.ll.x + (turned o (own n.ll n.ur o).1 (own n.ll n.ur o).2).1, n.ll.y + (turned o (own n.ll n.ur o).1 (own n.ll n.ur o).2).2) = (n.ur.x, n.ur.y) := by
  refine ⟨C105_point _ _ _ _, ?_⟩
  cases o <;> simp [own, turned, mat] <;> omega

/-- Terminals are moved if none has more than one contact. -/
theorem C105_terminals_partial (t : Pt) (o : Ort) (d : Dir) (n : Node) (h1 : ∀ l ∈ n.terminals, l.length ≤ 1) :
    List.Forall₂ (Image (tPoint t (own n.ll n.ur o).1 (own n.ll n.ur o).2 o d)) n.termShapes (tNode t o d n).termShapes := by
  have e : (tNode t o d n).termShapes = n.termShapes.map (tShape t (own n.ll n.ur o).1 (own n.ll n.ur o).2 o d) := by
    unfold Node.termShapes tNode
    generalize (own n.ll n.ur o).1 = w
    generalize (own n.ll n.ur o).2 = h
    simp only
    rw [List.flatMap_map, List.map_flatMap]
    exact List.flatMap_congr fun l hl => terminal_shapes t w h o d l (h1 l hl)
  rw [e]
  exact forall_image _ _ _ _ _ _

/-- The boxes of guard rings are moved if the node is not mirrored along either axis of the top node. -/
theorem C105_rings_partial (t : Pt) (o : Ort) (d : Dir) (ho : o = .N ∨ o = .FW) (n : Node) :
    List.Forall₂ (fun b c => ∀ p, In p b ↔ In (tPoint t (own n.ll n.ur o).1 (own n.ll n.ur o).2 o d p) c) n.ringBoxes (tNode t o d n).ringBoxes := by
  unfold Node.ringBoxes tNode
  simp only [List.map_map]
  rw [List.forall₂_map_left_iff, List.forall₂_map_right_iff, List.forall₂_same]
  intro g _ p
  rcases ho with rfl | rfl <;> cases d <;> simp only [In, Function.comp, tGuard, tPoint, Pt.add, Pt.sub] <;> omega

/-! ## Children -/

section child

variable {t : Pt} {w h : Int} {o : Ort}

theorem keep_placed (c : Contact) : PlacedBy (tPoint t w h o .fwd) c (keep (tContact t w h o .bwd (tContact t w h o .fwd c)) (tContact t w h o .fwd c)) := by
  rw [contact_back]
  exact ⟨rfl, rfl, rfl, rfl, box_iff t w h o .fwd c.originBox⟩

theorem keepVia_placed (v : Via) : PlacedViaBy (tPoint t w h o .fwd) v (keepVia (tVia t w h o .bwd (tVia t w h o .fwd v)) (tVia t w h o .fwd v)) := by
  have h1 := keep_placed (t := t) (w := w) (h := h) (o := o)
  refine ⟨?_, rfl, h1 v.upper, h1 v.lower, h1 v.cut⟩
  show tPoint t w h o .bwd (tPoint t w h o .fwd v.originpos) = v.originpos
  exact point_back _ _ _ _ _

theorem metals_placed (l : List Contact) : List.Forall₂ (PlacedBy (tPoint t w h o .fwd)) l (metalsPlaced t w h o l) := by
  induction l with
  | nil => exact .nil
  | cons c l ih => exact .cons (keep_placed c) ih

theorem vias_placed (l : List Via) : List.Forall₂ (PlacedViaBy (tPoint t w h o .fwd)) l (viasPlaced t w h o l) := by
  induction l with
  | nil => exact .nil
  | cons c l ih => exact .cons (keepVia_placed c) ih

theorem pins_placed (l : List Pin) : List.Forall₂ (fun p p' => p'.name = p.name ∧ List.Forall₂ (PlacedBy (tPoint t w h o .fwd)) p.contacts p'.contacts ∧
    List.Forall₂ (PlacedViaBy (tPoint t w h o .fwd)) p.vias p'.vias) l (pinsPlaced t w h o l) := by
  induction l with
  | nil => exact .nil
  | cons c l ih => exact .cons ⟨rfl, metals_placed c.contacts, vias_placed c.vias⟩ ih

theorem find_forall₂ {α β : Type} {R : α → β → Prop} {f : α → Bool} {g : β → Bool} : ∀ {l : List α} {l' : List β}, List.Forall₂ R l l' →
    (∀ a b, R a b → f a = g b) → (l.find? f = none ∧ l'.find? g = none) ∨ ∃ a b, l.find? f = some a ∧ l'.find? g = some b ∧ R a b
  | _, _, .nil, _ => Or.inl ⟨rfl, rfl⟩
  | _, _, .cons (a := a) (b := b) hab h, hfg => by
    have e := hfg a b hab
    by_cases c : f a = true
    · exact Or.inr ⟨a, b, by rw [List.find?_cons_of_pos c], by rw [List.find?_cons_of_pos (by rw [← e]; exact c)], hab⟩
    · rw [List.find?_cons_of_neg c, List.find?_cons_of_neg (by rw [← e]; exact c)]
      exact find_forall₂ h hfg

end child

/-- The shapes of a routed child are copied to its block: metals, vias, and the pins of the same name (the first of them), with their origin
placed at the corner of the block. Pins of the block that the child does not have stay as they are, and so does the box of the block. -/
theorem C105_child_partial (pi : Block) (child : Node) (o : Ort) (ho : o = .N ∨ o = .S ∨ o = .FN ∨ o = .FS) {f : Pt → Pt}
    (hf : f = tPoint pi.placedBox.ll (own child.ll child.ur o).1 (own child.ll child.ur o).2 o .fwd) :
    (checkin pi child o).placedBox = pi.placedBox ∧
    List.Forall₂ (PlacedBy f) child.metals (checkin pi child o).metals ∧
    List.Forall₂ (PlacedViaBy f) child.vias (checkin pi child o).vias ∧
    List.Forall₂ (fun p p' : Pin => p'.name = p.name ∧
      ((∀ q ∈ child.pins, q.name ≠ p.name) → p' = p) ∧
      ∀ (k : Nat) (q : Pin), child.pins[k]? = some q → q.name = p.name → (∀ (l : Nat) (q' : Pin), l < k → child.pins[l]? = some q' → q'.name ≠ p.name) →
        List.Forall₂ (PlacedBy f) q.contacts p'.contacts ∧ List.Forall₂ (PlacedViaBy f) q.vias p'.vias) pi.pins (checkin pi child o).pins := by
  have e : own child.ll child.ur o = (child.ur.x - child.ll.x, child.ur.y - child.ll.y) := by
    rcases ho with rfl | rfl | rfl | rfl <;> rfl
  rw [e] at hf
  subst hf
  refine ⟨rfl, metals_placed _, vias_placed _, ?_⟩
  unfold checkin
  simp only
  rw [List.forall₂_map_right_iff, List.forall₂_same]
  intro p _
  have hp := pins_placed (t := pi.placedBox.ll) (w := child.ur.x - child.ll.x) (h := child.ur.y - child.ll.y) (o := o) child.pins
  rcases find_forall₂ (f := fun q => decide (p.name = q.name)) (g := fun q => decide (p.name = q.name)) hp
    (fun a b hab => by rw [hab.1]) with ⟨h1, h2⟩ | ⟨a, b, h1, h2, h3⟩
  · rw [h2]
    refine ⟨rfl, fun _ => rfl, fun k q hk hq _ => ?_⟩
    rw [List.find?_eq_none] at h1
    exact absurd (decide_eq_true hq.symm) (h1 q (List.mem_of_getElem? hk))
  · rw [h2]
    have ha := List.find?_some h1
    rw [decide_eq_true_iff] at ha
    refine ⟨rfl, fun hn => absurd ha.symm (hn a (List.mem_of_find?_eq_some h1)), fun k q hk hq hfirst => ?_⟩
    have : q = a := by
      rw [List.find?_eq_some_iff_getElem] at h1
      obtain ⟨-, i, hi, hia, hbefore⟩ := h1
      have hkl := (List.getElem?_eq_some_iff.1 hk)
      rcases Nat.lt_trichotomy i k with hlt | heq | hgt
      · have := hfirst i a hlt (by rw [List.getElem?_eq_getElem hi, hia])
        exact absurd ha.symm this
      · subst heq
        rw [← hia]
        exact hkl.2.symm
      · have := hbefore k hgt
        rw [hkl.2] at this
        simp [hq] at this
    subst this
    exact h3.2

/-! ## Examples and violations -/

/-- A contact with one box. -/
def exC (a b c d : Int) : Contact := ⟨"M1", ⟨⟨a, b⟩, ⟨c, d⟩⟩, ⟨⟨a, b⟩, ⟨c, d⟩⟩, ⟨a, b⟩, ⟨a, b⟩⟩

def exNode : Node := ⟨⟨10, 20⟩, ⟨16, 24⟩, 0, 0, [[⟨⟨⟨0, 0⟩, ⟨2, 2⟩⟩, ⟨1, 1⟩, [⟨"A", [exC 0 0 1 1], []⟩], [], [], []⟩]], [], [[exC 1 2 3 4]],
  [⟨"A", [exC 0 1 2 2], []⟩], [exC 1 1 2 2], [], [⟨⟨0, 0⟩, ⟨6, 4⟩, ⟨3, 2⟩, [], [], []⟩]⟩

example : (∀ l ∈ exNode.terminals, l.length ≤ 1) ∧ (tNode ⟨10, 20⟩ .FN .fwd exNode).terminals = [[⟨"M1", ⟨⟨13, 22⟩, ⟨15, 24⟩⟩, ⟨⟨13, 22⟩, ⟨15, 24⟩⟩, ⟨15, 22⟩, ⟨15, 22⟩⟩]] := by
  decide

example : (checkin ⟨⟨⟨30, 40⟩, ⟨36, 44⟩⟩, ⟨33, 42⟩, [⟨"A", [], []⟩], [], [], []⟩ exNode .FN).pins =
    [⟨"A", [⟨"M1", ⟨⟨34, 41⟩, ⟨36, 42⟩⟩, ⟨⟨0, 1⟩, ⟨2, 2⟩⟩, ⟨36, 41⟩, ⟨0, 1⟩⟩], []⟩] := by decide

/-- A terminal with two contacts is moved twice: mirrored twice it is not mirrored. -/
theorem C105_violated_terminals : ∃ (n : Node) (c : Contact), c ∈ n.terminals.flatten ∧
    (tNode n.ll .FN .fwd n).terminals = [[c, c]] ∧ ¬ (∀ p, In p c.originBox ↔ In (tPoint n.ll (n.ur.x - n.ll.x) (n.ur.y - n.ll.y) .FN .fwd p) c.originBox) := by
  refine ⟨⟨⟨0, 0⟩, ⟨6, 4⟩, 6, 4, [], [], [[exC 0 0 1 1, exC 0 0 1 1]], [], [], [], []⟩, exC 0 0 1 1, by decide, by decide, fun h => ?_⟩
  have := (h ⟨0, 0⟩).1 (by simp [In, exC])
  simp [In, exC, tPoint, Pt.add] at this

/-- The box of a guard ring of a mirrored node has its left side right of its right side. -/
theorem C105_violated_rings : ∃ n : Node, (∀ b ∈ n.ringBoxes, b.ll.x < b.ur.x ∧ b.ll.y < b.ur.y) ∧ n.ringBoxes ≠ [] ∧
    ∀ b ∈ (tNode n.ll .FN .fwd n).ringBoxes, b.ur.x < b.ll.x := by
  refine ⟨exNode, by decide, by decide, by decide⟩

/-- A child that is turned by 90 degrees is placed with width and height exchanged: its shapes are outside of its block. -/
theorem C105_violated_turned : ∃ (pi : Block) (child : Node), pi.placedBox = ⟨child.ll, child.ur⟩ ∧ own child.ll child.ur .W = (6, 2) ∧
    (∀ c ∈ child.metals, In c.originBox.ll ⟨⟨0, 0⟩, ⟨6, 2⟩⟩ ∧ In c.originBox.ur ⟨⟨0, 0⟩, ⟨6, 2⟩⟩) ∧ child.metals ≠ [] ∧
    ∀ c ∈ (checkin pi child .W).metals, ¬ In c.placedBox.ur pi.placedBox := by
  refine ⟨⟨⟨⟨0, 0⟩, ⟨2, 6⟩⟩, ⟨1, 3⟩, [], [], [], []⟩, ⟨⟨0, 0⟩, ⟨2, 6⟩, 6, 2, [], [], [], [], [exC 0 0 1 1], [], []⟩, rfl, rfl, ?_, by decide, ?_⟩
  · intro c hc
    simp only [List.mem_singleton] at hc
    subst hc
    simp [In, exC]
  · intro c hc
    have e : (checkin ⟨⟨⟨0, 0⟩, ⟨2, 6⟩⟩, ⟨1, 3⟩, [], [], [], []⟩ ⟨⟨0, 0⟩, ⟨2, 6⟩, 6, 2, [], [], [], [], [exC 0 0 1 1], [], []⟩ .W).metals =
        [⟨"M1", ⟨⟨5, 0⟩, ⟨6, 1⟩⟩, ⟨⟨0, 0⟩, ⟨1, 1⟩⟩, ⟨6, 0⟩, ⟨0, 0⟩⟩] := by decide
    rw [e] at hc
    simp only [List.mem_singleton] at hc
    subst hc
    simp [In]

end Verif.Turn

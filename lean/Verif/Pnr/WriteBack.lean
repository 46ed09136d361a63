import Mathlib.Data.Rat.Defs
import Mathlib.Algebra.Order.Ring.Rat
import Mathlib.Algebra.BigOperators.Group.List.Basic
import Verif.Pnr.Turn

/-!
# What the placer writes to the database

Model of `ILP_solver::UpdateHierNode` and what it calls (`PlaceRouteHierFlow/placer/ILP_solver.cpp` 5545-5857) with the positions of shapes in placed
blocks (`PlaceRouteHierFlow/placer/design.cpp` 76-140, 1050-1296).
-/

namespace Verif.WriteBack

open Verif.Turn

/-! ## Model -/

/-- `GetPlacedPosition` (`design.cpp` 1075-1118). -/
def pos (p : Pt) (w h : Int) : Ort → Pt
  | .N => ⟨p.x, p.y⟩
  | .S => ⟨w - p.x, h - p.y⟩
  | .W => ⟨h - p.y, p.x⟩
  | .E => ⟨p.y, w - p.x⟩
  | .FN => ⟨w - p.x, p.y⟩
  | .FS => ⟨p.x, h - p.y⟩
  | .FW => ⟨p.y, p.x⟩
  | .FE => ⟨h - p.y, w - p.x⟩

/-- `GetPlacedPnRPosition` (1120-1164), a copy with other types. -/
def posPnr (p : Pt) (w h : Int) : Ort → Pt
  | .N => ⟨p.x, p.y⟩
  | .S => ⟨w - p.x, h - p.y⟩
  | .W => ⟨h - p.y, p.x⟩
  | .E => ⟨p.y, w - p.x⟩
  | .FN => ⟨w - p.x, p.y⟩
  | .FS => ⟨p.x, h - p.y⟩
  | .FW => ⟨p.y, p.x⟩
  | .FE => ⟨h - p.y, w - p.x⟩

/-- `GetBlockWidth`, `GetBlockHeight` (1050-1064). -/
def blockWidth (w h : Int) : Ort → Int
  | .N | .S | .FN | .FS => w
  | _ => h
def blockHeight (w h : Int) : Ort → Int
  | .N | .S | .FN | .FS => h
  | _ => w

/-- `GetBlockAbsCenter` (1066-1071); division of integers truncates. -/
def absCenter (w h : Int) (o : Ort) (l : Pt) : Pt := ⟨(blockWidth w h o).tdiv 2 + l.x, (blockHeight w h o).tdiv 2 + l.y⟩

/-- The four corners of a box as the constructor of `design` stores them (89-92, 131-134). -/
def corners (b : Box) : List Pt := [⟨b.ll.x, b.ll.y⟩, ⟨b.ll.x, b.ur.y⟩, ⟨b.ur.x, b.ur.y⟩, ⟨b.ur.x, b.ll.y⟩]

/-- `GetPlacedBlockAbsBoundary`, `GetPlacedBlockPinAbsBoundary` (1191-1242) for one polygon. -/
def absPoly (w h : Int) (o : Ort) (l : Pt) (ps : List Pt) : List Pt := (ps.map fun p => pos p w h o).map fun q => ⟨q.x + l.x, q.y + l.y⟩

/-- `GetPlacedBlockPinAbsPosition` (1177-1189) for one centre. -/
def absPos (w h : Int) (o : Ort) (l : Pt) (p : Pt) : Pt := ⟨(pos p w h o).x + l.x, (pos p w h o).y + l.y⟩

/-- `GetPlacedBlockInterMetalAbsPoint` (1244-1249). -/
def absPoint (w h : Int) (o : Ort) (l : Pt) (p : Pt) : Pt := ⟨(posPnr p w h o).x + l.x, (posPnr p w h o).y + l.y⟩

/-- `GetPlacedBlockInterMetalAbsBox` (1255-1296): least and largest coordinates of the two corners. Coordinates are between `INT_MIN` and `INT_MAX`. -/
def absBox (w h : Int) (o : Ort) (l : Pt) (b : Box) : Box :=
  let p := posPnr b.ll w h o
  let q := posPnr b.ur w h o
  ⟨⟨min p.x q.x + l.x, min p.y q.y + l.y⟩, ⟨max p.x q.x + l.x, max p.y q.y + l.y⟩⟩

/-- `ConvertBoundaryData` (`ILP_solver.cpp` 5824-5850): the bounding box of the points; `at(0)` throws if there are none. -/
def convert : List Pt → Option Box
  | [] => none
  | p :: ps =>
    let l := p :: ps
    some ⟨⟨l.foldl (fun (m : Int) q => if q.x < m then q.x else m) p.x, l.foldl (fun (m : Int) q => if q.y < m then q.y else m) p.y⟩,
      ⟨l.foldl (fun (m : Int) q => if q.x > m then q.x else m) p.x, l.foldl (fun (m : Int) q => if q.y > m then q.y else m) p.y⟩⟩

/-- One variant of a block (`PnRDB::block`) with its size, its box and the wire length inside of it. Width, height and box in the placer are copies
of these (`design.cpp` 88-96). -/
structure Inst where
  blk : Block
  originBox : Box
  w : Int
  h : Int
  inner : Rat
  orient : Ort
deriving DecidableEq

/-- `PnRDB::blockComplex`. -/
structure Bc where
  inst : List Inst
  sel : Nat
deriving DecidableEq

/-- Where the placer has put a block (`ILP_solver::Blocks`). -/
structure Spot where
  x : Int
  y : Int
  hflip : Bool
  vflip : Bool
deriving DecidableEq

/-- The contacts of a pin (5655-5660): `boundary.at(k)` and `center.at(k)` come from the `k`-th contact of the same pin. -/
def writeContact (w h : Int) (o : Ort) (l : Pt) (c : Contact) : Option Contact := do
  let b ← convert (absPoly w h o l (corners c.originBox))
  some { c with placedBox := b, placedCenter := absPos w h o l c.originCenter }

/-- Internal metals (5674-5678). -/
def writeMetal (w h : Int) (o : Ort) (l : Pt) (c : Contact) : Contact :=
  { c with placedBox := absBox w h o l c.originBox, placedCenter := absPoint w h o l c.originCenter }

/-- Vias of pins and internal vias (5662-5671, 5680-5689). -/
def writeVia (w h : Int) (o : Ort) (l : Pt) (v : Via) : Via :=
  { v with placedpos := absPoint w h o l v.originpos, upper := writeMetal w h o l v.upper, lower := writeMetal w h o l v.lower,
           cut := writeMetal w h o l v.cut }

def writePin (w h : Int) (o : Ort) (l : Pt) (p : Pin) : Option Pin := do
  let cs ← p.contacts.mapM (writeContact w h o l)
  some { p with contacts := cs, vias := p.vias.map (writeVia w h o l) }

/-- `UpdateBlockinHierNode` (5619-5690) for the selected variant. -/
def writeInst (o : Ort) (s : Spot) (i : Inst) : Option Inst := do
  let l : Pt := ⟨s.x, s.y⟩
  let b ← convert (absPoly i.w i.h o l (corners i.originBox))
  let ps ← i.blk.pins.mapM (writePin i.w i.h o l)
  some { i with
    orient := o
    blk := { i.blk with
      placedBox := b
      placedCenter := absCenter i.w i.h o l
      pins := ps
      metals := i.blk.metals.map (writeMetal i.w i.h o l)
      vias := i.blk.vias.map (writeVia i.w i.h o l) } }

/-- The orientation of a block (5561-5571). -/
def ortOf (s : Spot) : Ort :=
  if s.hflip then (if s.vflip then .S else .FN) else (if s.vflip then .FS else .N)

/-- `PnRDB::connectNode`. -/
structure Conn where
  term : Bool
  iter : Nat
  iter2 : Nat
deriving DecidableEq

/-- `PnRDB::net`: `axis_dir` is vertical if `vert`. -/
structure Net where
  name : String
  conns : List Conn
  vert : Bool
  axis : Int
deriving DecidableEq

/-- `PnRDB::terminal`. -/
structure Term where
  name : String
  netIter : Int
  contacts : List Contact
deriving DecidableEq

/-- The node as far as the placer writes to it. -/
structure Node where
  blocks : List Bc
  nets : List Net
  terms : List Term
  pins : List Pin
  width : Int
  height : Int
  hpwlExt : Rat
  hpwlExtWo : Rat
deriving DecidableEq

/-- A symmetry group: self symmetric blocks and pairs (`placerDB::SymmBlock`). -/
structure Group where
  selfsym : List Nat
  pairs : List (Nat × Nat)
deriving DecidableEq

/-- A pair of symmetric nets with the number of its group (`SBidx`, negative if it has none). -/
structure SNet where
  net1 : String
  net2 : String
  sb : Int
deriving DecidableEq

/-- The loop over the nets of 5694-5701, for one terminal: a net counts for the first terminal in it, later nets overwrite earlier ones, and
`operator[]` gives 0 for terminals not found. -/
def firstTerm (n : Net) : Option Nat := (n.conns.find? fun c => c.term).map fun c => c.iter
def termNet (nets : List Net) (i : Nat) : Nat :=
  (nets.zipIdx).foldl (fun m nk => match firstTerm nk.1 with
    | some j => if j = i then nk.2 else m
    | none => m) 0

/-- The contacts of all pins of a net (5706-5713). -/
def gather (blocks : List Bc) (n : Net) : Option (List Contact) := do
  let cs ← (n.conns.filter fun c => !c.term).mapM fun c => do
    let b ← blocks[c.iter2]?
    let i ← b.inst[b.sel]?
    let p ← i.blk.pins[c.iter]?
    some (p.contacts.map fun d => { d with originBox := d.placedBox, originCenter := d.placedCenter })
  some cs.flatten

/-- `UpdateTerminalinHierNode` (5692-5742); `m0` is the name of the first metal. -/
def writeTerms (m0 : String) (n : Node) : Option Node := do
  let ts ← (n.terms.zipIdx).mapM fun ti =>
    if ti.1.netIter = -1 then some ti.1
    else do
      let net ← n.nets[termNet n.nets ti.2]?
      let cs ← gather n.blocks net
      some { ti.1 with contacts := cs }
  some { n with
    terms := ts
    pins := n.pins ++ ts.map fun t => ⟨t.name, t.contacts.map fun c => { c with metal := m0 }, []⟩ }

/-- The axis of a group (5782-5814). Here `xs i` and `ws i` are position and size of block `i` in the direction that counts, and there are `nb`
blocks. Reading the first of no pairs is undefined. -/
def axisOf (nb : Nat) (xs ws : Nat → Int) (g : Group) : Option Int :=
  match g.selfsym with
  | a :: _ => some (xs a + (ws a).tdiv 2)
  | [] => match g.pairs with
    | [] => none
    | (a, b) :: _ =>
      some (if a < nb ∧ b < nb then (xs a).tdiv 2 + (ws a).tdiv 4 + (xs b).tdiv 2 + (ws b).tdiv 4 else 0)

/-- Position of a block, size of the selected variant. -/
def spotAt (spots : List Spot) (vert : Bool) (i : Nat) : Int := (spots[i]?.map fun s => if vert then s.x else s.y).getD 0
def sizeAt (blocks : List Bc) (vert : Bool) (i : Nat) : Int :=
  ((blocks[i]?.bind fun b => b.inst[b.sel]?).map fun v => if vert then v.w else v.h).getD 0

/-- `UpdateSymmetryNetInfo` (5778-5822). -/
def writeAxis (spots : List Spot) (groups : List Group) (axes : List Bool) (n : Node) (s : SNet) : Option Node :=
  if s.sb < 0 then some n
  else do
    let g ← groups[s.sb.toNat]?
    let vert ← axes[s.sb.toNat]?
    let a ← axisOf spots.length (spotAt spots vert) (sizeAt n.blocks vert) g
    some { n with nets := n.nets.map fun t => if t.name = s.net1 ∨ t.name = s.net2 then { t with vert := vert, axis := a } else t }

/-- The result of the integer program and the sequence pair. -/
structure Sol where
  spots : List Spot
  ur : Pt
  hpwlExt : Rat
  hpwlTerm : Rat
  selected : List Nat
  enumerated : Bool
  axes : List Bool

/-- The loop over the blocks (5556-5573). Indices out of range of vectors read without a check are undefined. -/
def writeBlocks (sol : Sol) (n : Node) : Option (List Bc) :=
  (n.blocks.zipIdx).mapM fun bi => do
    let s ← sol.spots[bi.2]?
    let v ← sol.selected[bi.2]?
    let i ← bi.1.inst[v]?
    let i' ← writeInst (ortOf s) s i
    some ⟨bi.1.inst.set v i', v⟩

/-- Wire length inside the selected variants. -/
def innerOf (b : Bc) : Rat := (b.inst[b.sel]?.map fun i => i.inner).getD 0

/-- `UpdateHierNode` (5545-5584). Norms, penalty and cost are copied and left out. -/
def writeNode (haloX haloY : Int) (m0 : String) (groups : List Group) (snets : List SNet) (sol : Sol) (n : Node) : Option Node := do
  let bs ← writeBlocks sol n
  let n1 : Node := { n with
    blocks := bs
    width := sol.ur.x + haloX
    height := sol.ur.y + haloY
    hpwlExt := bs.foldl (fun a b => a + innerOf b) sol.hpwlExt
    hpwlExtWo := bs.foldl (fun a b => a + innerOf b) (sol.hpwlExt - sol.hpwlTerm) }
  let n2 ← writeTerms m0 n1
  if sol.enumerated then some n2 else snets.foldlM (writeAxis sol.spots groups sol.axes) n2

/-- The direction of the axis in `UpdateHierNodeAnalytical` (5613-5615): the group with the number of the pair of nets. -/
def analyticVert (dirs : List Bool) (i : Nat) : Option Bool := dirs[i]?

/-! ## Specification -/

/-- Left of right, below above. -/
def Box.Ok (b : Box) : Prop := b.ll.x ≤ b.ur.x ∧ b.ll.y ≤ b.ur.y

/-- All boxes of a variant are the right way round. -/
def Inst.Ok (i : Inst) : Prop :=
  Box.Ok i.originBox ∧ (∀ p ∈ i.blk.pins, (∀ c ∈ p.contacts, Box.Ok c.originBox) ∧
    ∀ v ∈ p.vias, Box.Ok v.upper.originBox ∧ Box.Ok v.lower.originBox ∧ Box.Ok v.cut.originBox) ∧
  (∀ c ∈ i.blk.metals, Box.Ok c.originBox) ∧ ∀ v ∈ i.blk.vias, Box.Ok v.upper.originBox ∧ Box.Ok v.lower.originBox ∧ Box.Ok v.cut.originBox

/-- `i'` is the variant `i` with everything in it placed by `f`. -/
def PlacedInst (f : Pt → Pt) (i i' : Inst) : Prop :=
  i'.w = i.w ∧ i'.h = i.h ∧ i'.originBox = i.originBox ∧
  (∀ p, In p i.originBox ↔ In (f p) i'.blk.placedBox) ∧
  List.Forall₂ (fun p p' : Pin => p'.name = p.name ∧ List.Forall₂ (PlacedBy f) p.contacts p'.contacts ∧ List.Forall₂ (PlacedViaBy f) p.vias p'.vias)
    i.blk.pins i'.blk.pins ∧
  List.Forall₂ (PlacedBy f) i.blk.metals i'.blk.metals ∧ List.Forall₂ (PlacedViaBy f) i.blk.vias i'.blk.vias

/-- Terminal `i` is on net `k`. -/
def OnNet (nets : List Net) (i k : Nat) : Prop := ∃ n, nets[k]? = some n ∧ ∃ c ∈ n.conns, c.term = true ∧ c.iter = i

/-- The contact `d` of a block pin is on net `k`. -/
def PinContact (blocks : List Bc) (nets : List Net) (k : Nat) (d : Contact) : Prop :=
  ∃ n, nets[k]? = some n ∧ ∃ c ∈ n.conns, c.term = false ∧ ∃ b, blocks[c.iter2]? = some b ∧ ∃ i, b.inst[b.sel]? = some i ∧
    ∃ p, i.blk.pins[c.iter]? = some p ∧ d ∈ p.contacts

/-! ## Proofs -/

open Lean.Parser.Tactic in
/-- Splits a step of a computation that may fail. -/
macro "obind" l:location : tactic => `(tactic| ((try rw [Option.bind_eq_bind] $l:location); rw [Option.bind_eq_some_iff] $l:location))

theorem pos_eq (t p : Pt) (w h : Int) (o : Ort) : tPoint t w h o .fwd p = ⟨(pos p w h o).x + t.x, (pos p w h o).y + t.y⟩ := by
  cases o <;> rfl

theorem posPnr_eq (t p : Pt) (w h : Int) (o : Ort) : tPoint t w h o .fwd p = ⟨(posPnr p w h o).x + t.x, (posPnr p w h o).y + t.y⟩ := by
  cases o <;> rfl

theorem convert_corners (w h : Int) (o : Ort) (l : Pt) {b : Box} (hb : Box.Ok b) :
    convert (absPoly w h o l (corners b)) = some (tBox l w h o .fwd b) := by
  obtain ⟨⟨a, c⟩, ⟨d, e⟩⟩ := b
  obtain ⟨h1, h2⟩ := hb
  simp only at h1 h2
  simp only [absPoly, corners, List.map, convert, List.foldl, Option.some.injEq]
  cases o <;> simp only [pos, tBox, Pt.add, Box.mk.injEq, Pt.mk.injEq] <;> refine ⟨⟨?_, ?_⟩, ?_, ?_⟩ <;> split_ifs <;> omega

theorem absBox_eq (w h : Int) (o : Ort) (l : Pt) {b : Box} (hb : Box.Ok b) : absBox w h o l b = tBox l w h o .fwd b := by
  obtain ⟨⟨a, c⟩, ⟨d, e⟩⟩ := b
  obtain ⟨h1, h2⟩ := hb
  simp only at h1 h2
  cases o <;> simp only [absBox, posPnr, tBox, Pt.add, Box.mk.injEq, Pt.mk.injEq] <;> omega

theorem contact_placed (w h : Int) (o : Ort) (l : Pt) {c : Contact} (hc : Box.Ok c.originBox) :
    ∃ c', writeContact w h o l c = some c' ∧ PlacedBy (tPoint l w h o .fwd) c c' := by
  unfold writeContact
  rw [convert_corners w h o l hc]
  refine ⟨_, rfl, rfl, rfl, rfl, ?_, ?_⟩
  · show absPos w h o l c.originCenter = _
    rw [pos_eq]
    rfl
  · exact (C105_box l w h o .fwd c.originBox).1

theorem metal_placed (w h : Int) (o : Ort) (l : Pt) {c : Contact} (hc : Box.Ok c.originBox) :
    PlacedBy (tPoint l w h o .fwd) c (writeMetal w h o l c) := by
  refine ⟨rfl, rfl, rfl, ?_, ?_⟩
  · show absPoint w h o l c.originCenter = _
    rw [posPnr_eq]
    rfl
  · show ∀ p, _ ↔ In _ (absBox w h o l c.originBox)
    rw [absBox_eq w h o l hc]
    exact (C105_box l w h o .fwd c.originBox).1

theorem via_placed (w h : Int) (o : Ort) (l : Pt) {v : Via} (hv : Box.Ok v.upper.originBox ∧ Box.Ok v.lower.originBox ∧ Box.Ok v.cut.originBox) :
    PlacedViaBy (tPoint l w h o .fwd) v (writeVia w h o l v) := by
  refine ⟨rfl, ?_, metal_placed w h o l hv.1, metal_placed w h o l hv.2.1, metal_placed w h o l hv.2.2⟩
  show absPoint w h o l v.originpos = _
  rw [posPnr_eq]
  rfl

theorem mapM_rel {α β : Type} {f : α → Option β} {R : α → β → Prop} : ∀ {l : List α}, (∀ a ∈ l, ∃ b, f a = some b ∧ R a b) →
    ∃ m, l.mapM f = some m ∧ List.Forall₂ R l m
  | [], _ => ⟨[], rfl, .nil⟩
  | a :: l, h => by
    obtain ⟨b, hb, hr⟩ := h a (List.mem_cons_self ..)
    obtain ⟨m, hm, hrm⟩ := mapM_rel fun x hx => h x (List.mem_cons_of_mem _ hx)
    refine ⟨b :: m, ?_, .cons hr hrm⟩
    rw [List.mapM_cons, hb, hm]
    rfl

theorem map_rel {α β : Type} {f : α → β} {R : α → β → Prop} {l : List α} (h : ∀ a ∈ l, R a (f a)) : List.Forall₂ R l (l.map f) := by
  rw [List.forall₂_map_right_iff, List.forall₂_same]
  exact h

/-- A variant is written with everything in it placed at the position of the block, with its orientation; its box has the corner there if the
origin box starts at the origin, and the centre is the middle of that box up to rounding. -/
theorem C106_variant (o : Ort) (s : Spot) {i : Inst} (hi : i.Ok) : ∃ i', writeInst o s i = some i' ∧ i'.orient = o ∧
    PlacedInst (tPoint ⟨s.x, s.y⟩ i.w i.h o .fwd) i i' ∧
    (i.originBox = ⟨⟨0, 0⟩, ⟨i.w, i.h⟩⟩ → i'.blk.placedBox.ll = ⟨s.x, s.y⟩ ∧
      (i'.blk.placedBox.ur.x - i'.blk.placedBox.ll.x, i'.blk.placedBox.ur.y - i'.blk.placedBox.ll.y) = turned o i.w i.h ∧
      (2 * i'.blk.placedCenter.x ≤ i'.blk.placedBox.ll.x + i'.blk.placedBox.ur.x ∧ i'.blk.placedBox.ll.x + i'.blk.placedBox.ur.x ≤ 2 * i'.blk.placedCenter.x + 1) ∧
      (2 * i'.blk.placedCenter.y ≤ i'.blk.placedBox.ll.y + i'.blk.placedBox.ur.y ∧ i'.blk.placedBox.ll.y + i'.blk.placedBox.ur.y ≤ 2 * i'.blk.placedCenter.y + 1)) := by
  obtain ⟨h0, h1, h2, h3⟩ := hi
  have hp : ∀ p ∈ i.blk.pins, ∃ p', writePin i.w i.h o ⟨s.x, s.y⟩ p = some p' ∧ (p'.name = p.name ∧
      List.Forall₂ (PlacedBy (tPoint ⟨s.x, s.y⟩ i.w i.h o .fwd)) p.contacts p'.contacts ∧
      List.Forall₂ (PlacedViaBy (tPoint ⟨s.x, s.y⟩ i.w i.h o .fwd)) p.vias p'.vias) := by
    intro p hp
    obtain ⟨cs, hcs, hr⟩ := mapM_rel (f := writeContact i.w i.h o ⟨s.x, s.y⟩) fun c hc => contact_placed i.w i.h o ⟨s.x, s.y⟩ ((h1 p hp).1 c hc)
    refine ⟨{ p with contacts := cs, vias := p.vias.map (writeVia i.w i.h o ⟨s.x, s.y⟩) }, by unfold writePin; rw [hcs]; rfl, rfl, hr, map_rel fun v hv => via_placed i.w i.h o ⟨s.x, s.y⟩ ((h1 p hp).2 v hv)⟩
  obtain ⟨ps, hps, hpr⟩ := mapM_rel hp
  have e : writeInst o s i = some { i with
      orient := o
      blk := { i.blk with
        placedBox := tBox ⟨s.x, s.y⟩ i.w i.h o .fwd i.originBox
        placedCenter := absCenter i.w i.h o ⟨s.x, s.y⟩
        pins := ps
        metals := i.blk.metals.map (writeMetal i.w i.h o ⟨s.x, s.y⟩)
        vias := i.blk.vias.map (writeVia i.w i.h o ⟨s.x, s.y⟩) } } := by
    unfold writeInst
    simp only [convert_corners _ _ _ _ h0, hps]
    rfl
  refine ⟨_, e, rfl, ⟨rfl, rfl, rfl, ?_, hpr, ?_, ?_⟩, ?_⟩
  · exact (C105_box ⟨s.x, s.y⟩ i.w i.h o .fwd i.originBox).1
  · exact map_rel fun c hc => metal_placed i.w i.h o ⟨s.x, s.y⟩ (h2 c hc)
  · exact map_rel fun v hv => via_placed i.w i.h o ⟨s.x, s.y⟩ (h3 v hv)
  · intro e
    rw [e] at h0
    obtain ⟨h4, h5⟩ := h0
    simp only at h4 h5
    simp only [e]
    have a1 := Int.mul_tdiv_add_tmod i.w 2
    have a2 := Int.mul_tdiv_add_tmod i.h 2
    have b1 := Int.tmod_nonneg 2 h4
    have b2 := Int.tmod_nonneg 2 h5
    have c1 := Int.tmod_lt_of_pos i.w (b := 2) (by decide)
    have c2 := Int.tmod_lt_of_pos i.h (b := 2) (by decide)
    cases o <;> simp [tBox, Pt.add, turned, mat, absCenter, blockWidth, blockHeight] <;> omega

/-- A block that is mirrored left and right, or up and down, gets the orientation that mirrors so. -/
theorem C106_flips (s : Spot) : mat (ortOf s) = ((if s.hflip then -1 else 1, 0), (0, if s.vflip then -1 else 1)) := by
  obtain ⟨x, y, a, b⟩ := s
  cases a <;> cases b <;> rfl

theorem foldl_inner (l : List Bc) (a : Rat) : l.foldl (fun a b => a + innerOf b) a = a + (l.map innerOf).sum := by
  induction l generalizing a with
  | nil => simp
  | cons b l ih => rw [List.foldl_cons, ih, List.map_cons, List.sum_cons, add_assoc]

theorem writeAxis_blocks {spots : List Spot} {groups : List Group} {axes : List Bool} {s : SNet} {n n' : Node} (h : writeAxis spots groups axes n s = some n') :
    n'.blocks = n.blocks ∧ n'.terms = n.terms ∧ n'.pins = n.pins ∧ n'.width = n.width ∧ n'.height = n.height ∧ n'.hpwlExt = n.hpwlExt ∧
      n'.hpwlExtWo = n.hpwlExtWo ∧ n'.nets.map (fun t => (t.name, t.conns)) = n.nets.map (fun t => (t.name, t.conns)) := by
  unfold writeAxis at h
  by_cases c : s.sb < 0
  · rw [if_pos c] at h
    cases h
    exact ⟨rfl, rfl, rfl, rfl, rfl, rfl, rfl, rfl⟩
  · rw [if_neg c] at h
    obind at h
    obtain ⟨g, -, h⟩ := h
    obind at h
    obtain ⟨v, -, h⟩ := h
    obind at h
    obtain ⟨a, -, h⟩ := h
    cases h
    refine ⟨rfl, rfl, rfl, rfl, rfl, rfl, rfl, ?_⟩
    rw [List.map_map]
    refine List.map_congr_left fun t _ => ?_
    simp only [Function.comp]
    split_ifs <;> rfl

theorem writeAxes_blocks {spots : List Spot} {groups : List Group} {axes : List Bool} : ∀ {l : List SNet} {n n' : Node},
    l.foldlM (writeAxis spots groups axes) n = some n' →
    n'.blocks = n.blocks ∧ n'.terms = n.terms ∧ n'.pins = n.pins ∧ n'.width = n.width ∧ n'.height = n.height ∧ n'.hpwlExt = n.hpwlExt ∧
      n'.hpwlExtWo = n.hpwlExtWo ∧ n'.nets.map (fun t => (t.name, t.conns)) = n.nets.map (fun t => (t.name, t.conns))
  | [], n, n', h => by
    cases h
    exact ⟨rfl, rfl, rfl, rfl, rfl, rfl, rfl, rfl⟩
  | s :: l, n, n', h => by
    rw [List.foldlM_cons] at h
    obind at h
    obtain ⟨m, hm, h⟩ := h
    obtain ⟨a1, a2, a3, a4, a5, a6, a7, a8⟩ := writeAxis_blocks hm
    obtain ⟨b1, b2, b3, b4, b5, b6, b7, b8⟩ := writeAxes_blocks h
    exact ⟨b1.trans a1, b2.trans a2, b3.trans a3, b4.trans a4, b5.trans a5, b6.trans a6, b7.trans a7, b8.trans a8⟩

theorem mapM_zipIdx {α β : Type} {f : α × Nat → Option β} {l : List α} {m : List β} (h : (l.zipIdx).mapM f = some m) :
    m.length = l.length ∧ ∀ i a, l[i]? = some a → ∃ b, m[i]? = some b ∧ f (a, i) = some b := by
  have key : ∀ (l : List α) (k : Nat) (m : List β), (l.zipIdx k).mapM f = some m →
      m.length = l.length ∧ ∀ i a, l[i]? = some a → ∃ b, m[i]? = some b ∧ f (a, k + i) = some b := by
    intro l
    induction l with
    | nil =>
      intro k m h
      cases h
      exact ⟨rfl, fun i a h => by simp at h⟩
    | cons x l ih =>
      intro k m h
      rw [List.zipIdx_cons, List.mapM_cons] at h
      obind at h
      obtain ⟨y, hy, h⟩ := h
      obind at h
      obtain ⟨ys, hys, h⟩ := h
      cases h
      obtain ⟨h1, h2⟩ := ih (k + 1) ys hys
      refine ⟨by simp [h1], fun i a hi => ?_⟩
      cases i with
      | zero =>
        simp only [List.getElem?_cons_zero, Option.some.injEq] at hi
        subst hi
        exact ⟨y, rfl, hy⟩
      | succ i =>
        rw [List.getElem?_cons_succ] at hi
        obtain ⟨b, hb, hf⟩ := h2 i a hi
        exact ⟨b, by rw [List.getElem?_cons_succ]; exact hb, by rw [← hf]; congr 2; omega⟩
  obtain ⟨h1, h2⟩ := key l 0 m h
  refine ⟨h1, fun i a hi => ?_⟩
  obtain ⟨b, hb, hf⟩ := h2 i a hi
  exact ⟨b, hb, by rw [Nat.zero_add] at hf; exact hf⟩

theorem writeTerms_inv {m0 : String} {n n' : Node} (h : writeTerms m0 n = some n') :
    n'.blocks = n.blocks ∧ n'.nets = n.nets ∧ n'.width = n.width ∧ n'.height = n.height ∧ n'.hpwlExt = n.hpwlExt ∧ n'.hpwlExtWo = n.hpwlExtWo ∧
    n'.pins = n.pins ++ n'.terms.map (fun t => ⟨t.name, t.contacts.map fun c => { c with metal := m0 }, []⟩) ∧ n'.terms.length = n.terms.length ∧
    ∀ i t, n.terms[i]? = some t → ∃ t', n'.terms[i]? = some t' ∧ t'.name = t.name ∧ t'.netIter = t.netIter ∧ (t.netIter = -1 → t' = t) ∧
      (t.netIter ≠ -1 → ∃ net, n.nets[termNet n.nets i]? = some net ∧ gather n.blocks net = some t'.contacts) := by
  unfold writeTerms at h
  obind at h
  obtain ⟨ts, hts, h⟩ := h
  cases h
  obtain ⟨h1, h2⟩ := mapM_zipIdx hts
  refine ⟨rfl, rfl, rfl, rfl, rfl, rfl, rfl, h1, fun i t hi => ?_⟩
  obtain ⟨t', ht', hf⟩ := h2 i t hi
  refine ⟨t', ht', ?_⟩
  simp only at hf
  by_cases c : t.netIter = -1
  · rw [if_pos c] at hf
    cases hf
    exact ⟨rfl, rfl, fun _ => rfl, fun h => absurd c h⟩
  · rw [if_neg c] at hf
    obind at hf
    obtain ⟨net, hnet, hf⟩ := hf
    obind at hf
    obtain ⟨cs, hcs, hf⟩ := hf
    cases hf
    exact ⟨rfl, rfl, fun h => absurd h c, fun _ => ⟨net, hnet, hcs⟩⟩

/-- Parts of a run. -/
theorem writeNode_inv {hx hy : Int} {m0 : String} {groups : List Group} {snets : List SNet} {sol : Sol} {n n' : Node}
    (h : writeNode hx hy m0 groups snets sol n = some n') : ∃ bs n1 n2, writeBlocks sol n = some bs ∧
      n1 = { n with blocks := bs, width := sol.ur.x + hx, height := sol.ur.y + hy, hpwlExt := sol.hpwlExt + (bs.map innerOf).sum,
                    hpwlExtWo := sol.hpwlExt - sol.hpwlTerm + (bs.map innerOf).sum } ∧
      writeTerms m0 n1 = some n2 ∧ n'.blocks = bs ∧ n'.terms = n2.terms ∧ n'.pins = n2.pins ∧ n'.width = n1.width ∧ n'.height = n1.height ∧
      n'.hpwlExt = n1.hpwlExt ∧ n'.hpwlExtWo = n1.hpwlExtWo ∧ n'.nets.map (fun t => (t.name, t.conns)) = n.nets.map (fun t => (t.name, t.conns)) ∧
      (if sol.enumerated then n' = n2 else snets.foldlM (writeAxis sol.spots groups sol.axes) n2 = some n') := by
  unfold writeNode at h
  obind at h
  obtain ⟨bs, hbs, h⟩ := h
  simp only [foldl_inner] at h
  obind at h
  obtain ⟨n2, h2, h⟩ := h
  obtain ⟨a1, a2, a3, a4, a5, a6, -⟩ := writeTerms_inv h2
  refine ⟨bs, _, n2, hbs, rfl, h2, ?_⟩
  by_cases c : sol.enumerated = true
  · rw [if_pos c] at h
    cases h
    refine ⟨a1, rfl, rfl, a3, a4, a5, a6, by rw [a2], by rw [if_pos c]⟩
  · rw [if_neg c] at h
    obtain ⟨b1, b2, b3, b4, b5, b6, b7, b8⟩ := writeAxes_blocks h
    exact ⟨b1.trans a1, b2, b3, b4.trans a3, b5.trans a4, b6.trans a5, b7.trans a6, by rw [b8, a2], by rw [if_neg c]; exact h⟩

/-- Each block has the variant chosen for it, placed where the placer has put it and mirrored as it says; its other variants stay as they are. -/
theorem C106_blocks {hx hy : Int} {m0 : String} {groups : List Group} {snets : List SNet} {sol : Sol} {n n' : Node}
    (h : writeNode hx hy m0 groups snets sol n = some n') (hn : ∀ b ∈ n.blocks, ∀ i ∈ b.inst, i.Ok) :
    n'.blocks.length = n.blocks.length ∧ ∀ (k : Nat) (b : Bc), n.blocks[k]? = some b → ∃ (b' : Bc) (s : Spot) (v : Nat) (i i' : Inst),
      n'.blocks[k]? = some b' ∧ sol.spots[k]? = some s ∧ sol.selected[k]? = some v ∧ b.inst[v]? = some i ∧ b'.sel = v ∧ b'.inst[v]? = some i' ∧
      (∀ u, u ≠ v → b'.inst[u]? = b.inst[u]?) ∧
      ∃ f, Places ⟨s.x, s.y⟩ i.w i.h i'.orient f ∧ PlacedInst f i i' ∧ mat i'.orient = ((if s.hflip then -1 else 1, 0), (0, if s.vflip then -1 else 1)) := by
  obtain ⟨bs, n1, n2, hbs, -, -, e, -⟩ := writeNode_inv h
  rw [e]
  unfold writeBlocks at hbs
  obtain ⟨h1, h2⟩ := mapM_zipIdx hbs
  refine ⟨h1, fun k b hk => ?_⟩
  obtain ⟨b', hb', hf⟩ := h2 k b hk
  simp only at hf
  obind at hf
  obtain ⟨s, hs, hf⟩ := hf
  obind at hf
  obtain ⟨v, hv, hf⟩ := hf
  obind at hf
  obtain ⟨i, hi, hf⟩ := hf
  obind at hf
  obtain ⟨i', hi', hf⟩ := hf
  cases hf
  obtain ⟨j, hj, ho, hp, -⟩ := C106_variant (ortOf s) s (hn b (List.mem_of_getElem? hk) i (List.mem_of_getElem? hi))
  rw [hj] at hi'
  cases hi'
  refine ⟨_, s, v, i, i', hb', hs, hv, hi, rfl, ?_, ?_, tPoint ⟨s.x, s.y⟩ i.w i.h (ortOf s) .fwd, ?_, hp, ?_⟩
  · have := (List.getElem?_eq_some_iff.1 hi).1
    simp [this]
  · intro u hu
    simp [Ne.symm hu]
  · rw [ho]
    exact C105_point _ _ _ _
  · rw [ho]
    exact C106_flips s

/-- Size and wire lengths: those of the placement, with the halo, and with the wire lengths inside the chosen variants; one of them without the nets
that have terminals. -/
theorem C106_sizes {hx hy : Int} {m0 : String} {groups : List Group} {snets : List SNet} {sol : Sol} {n n' : Node}
    (h : writeNode hx hy m0 groups snets sol n = some n') : n'.width = sol.ur.x + hx ∧ n'.height = sol.ur.y + hy ∧
      n'.hpwlExt = sol.hpwlExt + (n'.blocks.map fun b => (b.inst[b.sel]?.map fun i => i.inner).getD 0).sum ∧
      n'.hpwlExtWo = n'.hpwlExt - sol.hpwlTerm := by
  obtain ⟨bs, n1, n2, -, e1, -, e2, -, -, e3, e4, e5, e6, -⟩ := writeNode_inv h
  subst e1
  rw [e2]
  refine ⟨e3, e4, e5, ?_⟩
  rw [e6, e5]
  simp only
  exact (sub_add_eq_add_sub _ _ _)

/-! ### Terminals -/

theorem termNet_eq {nets : List Net} {i k : Nat} (h1 : ∀ n ∈ nets, ∀ c ∈ n.conns, ∀ c' ∈ n.conns, c.term = true → c'.term = true → c.iter = c'.iter)
    (hk : OnNet nets i k) (hu : ∀ k', OnNet nets i k' → k' = k) : termNet nets i = k := by
  classical
  have first : ∀ n ∈ nets, firstTerm n = some i ↔ ∃ c ∈ n.conns, c.term = true ∧ c.iter = i := by
    intro n hn
    unfold firstTerm
    constructor
    · intro h
      rw [Option.map_eq_some_iff] at h
      obtain ⟨c, hc, e⟩ := h
      exact ⟨c, List.mem_of_find?_eq_some hc, by simpa using List.find?_some hc, e⟩
    · rintro ⟨c, hc, ht, e⟩
      have : (n.conns.find? fun c => c.term).isSome = true := by
        rw [List.find?_isSome]
        exact ⟨c, hc, ht⟩
      obtain ⟨c', hc'⟩ := Option.isSome_iff_exists.1 this
      rw [hc', Option.map_some, ← e]
      congr 1
      exact h1 n hn c' (List.mem_of_find?_eq_some hc') c hc (by simpa using List.find?_some hc') ht
  have key : ∀ (l : List Net) (m j : Nat), (∀ (q : Nat) (n : Net), l[q]? = some n → n ∈ nets) →
      ((∀ (q : Nat) (n : Net), l[q]? = some n → firstTerm n = some i → m + q = k) →
        (l.zipIdx m).foldl (fun m nk => match firstTerm nk.1 with
          | some j => if j = i then nk.2 else m
          | none => m) j = if ∃ (q : Nat) (n : Net), l[q]? = some n ∧ firstTerm n = some i then k else j) := by
    intro l
    induction l with
    | nil => intro m j _ _; simp
    | cons x l ih =>
      intro m j hl hq
      rw [List.zipIdx_cons, List.foldl_cons]
      have ih' := fun j => ih (m + 1) j (fun q n hn => hl (q + 1) n (by rw [List.getElem?_cons_succ]; exact hn))
        (fun q n hn hf => by have := hq (q + 1) n (by rw [List.getElem?_cons_succ]; exact hn) hf; omega)
      by_cases c : firstTerm x = some i
      · have e := hq 0 x rfl c
        have c' : ∃ (q : Nat) (n : Net), (x :: l)[q]? = some n ∧ firstTerm n = some i := ⟨0, x, rfl, c⟩
        rw [if_pos c']
        simp only [c, if_true]
        rw [ih']
        split_ifs
        · rfl
        · omega
      · have step : (match firstTerm x with
            | some j' => if j' = i then m else j
            | none => j) = j := by
          cases hx : firstTerm x with
          | none => rfl
          | some a =>
            simp only
            rw [if_neg]
            rintro rfl
            exact c hx
        simp only [step]
        rw [ih']
        have : (∃ (q : Nat) (n : Net), (x :: l)[q]? = some n ∧ firstTerm n = some i) ↔ ∃ (q : Nat) (n : Net), l[q]? = some n ∧ firstTerm n = some i := by
          constructor
          · rintro ⟨q, n, hn, hf⟩
            cases q with
            | zero =>
              simp only [List.getElem?_cons_zero, Option.some.injEq] at hn
              subst hn
              exact absurd hf c
            | succ q => exact ⟨q, n, by rw [List.getElem?_cons_succ] at hn; exact hn, hf⟩
          · rintro ⟨q, n, hn, hf⟩
            exact ⟨q + 1, n, by rw [List.getElem?_cons_succ]; exact hn, hf⟩
        simp only [this]
  unfold termNet
  rw [key nets 0 0 (fun q n hn => List.mem_of_getElem? hn) (fun q n hn hf => by
    rw [Nat.zero_add]
    exact hu q ⟨n, hn, (first n (List.mem_of_getElem? hn)).1 hf⟩), if_pos]
  obtain ⟨n, hn, hc⟩ := hk
  exact ⟨k, n, hn, (first n (List.mem_of_getElem? hn)).2 hc⟩

theorem gather_mem {blocks : List Bc} {nets : List Net} {k : Nat} {n : Net} (hn : nets[k]? = some n) {cs : List Contact} (h : gather blocks n = some cs) (e : Contact) :
    e ∈ cs ↔ ∃ d, PinContact blocks nets k d ∧ e.metal = d.metal ∧ e.placedBox = d.placedBox ∧ e.placedCenter = d.placedCenter ∧ e.originBox = d.placedBox ∧
      e.originCenter = d.placedCenter := by
  unfold gather at h
  obind at h
  obtain ⟨l, hl, h⟩ := h
  cases h
  generalize hg : (fun c : Conn => (do
    let b ← blocks[c.iter2]?
    let i ← b.inst[b.sel]?
    let p ← i.blk.pins[c.iter]?
    some (p.contacts.map fun d : Contact => { d with originBox := d.placedBox, originCenter := d.placedCenter }))) = g at hl
  have hmem : ∀ (cs : List Conn) (l : List (List Contact)), cs.mapM g = some l → ∀ x, x ∈ l ↔ ∃ c ∈ cs, g c = some x := by
    intro cs
    induction cs with
    | nil =>
      intro l h x
      cases h
      simp
    | cons c cs ih =>
      intro l h x
      rw [List.mapM_cons] at h
      obind at h
      obtain ⟨y, hy, h⟩ := h
      obind at h
      obtain ⟨ys, hys, h⟩ := h
      cases h
      rw [List.mem_cons, ih ys hys x]
      constructor
      · rintro (rfl | ⟨c', hc', h⟩)
        · exact ⟨c, List.mem_cons_self .., hy⟩
        · exact ⟨c', List.mem_cons_of_mem _ hc', h⟩
      · rintro ⟨c', hc', h⟩
        rcases List.mem_cons.1 hc' with rfl | hc'
        · rw [hy] at h
          cases h
          exact Or.inl rfl
        · exact Or.inr ⟨c', hc', h⟩
  rw [List.mem_flatten]
  constructor
  · rintro ⟨x, hx, he⟩
    obtain ⟨c, hc, hgc⟩ := (hmem _ _ hl x).1 hx
    rw [List.mem_filter] at hc
    subst hg
    simp only at hgc
    obind at hgc
    obtain ⟨b, hb, hgc⟩ := hgc
    obind at hgc
    obtain ⟨i, hi, hgc⟩ := hgc
    obind at hgc
    obtain ⟨p, hp, hgc⟩ := hgc
    cases hgc
    rw [List.mem_map] at he
    obtain ⟨d, hd, rfl⟩ := he
    exact ⟨d, ⟨n, hn, c, hc.1, by simpa using hc.2, b, hb, i, hi, p, hp, hd⟩, rfl, rfl, rfl, rfl, rfl⟩
  · rintro ⟨d, ⟨n', hn', c, hc, ht, b, hb, i, hi, p, hp, hd⟩, e1, e2, e3, e4, e5⟩
    rw [hn] at hn'
    cases hn'
    refine ⟨p.contacts.map fun d : Contact => { d with originBox := d.placedBox, originCenter := d.placedCenter }, ?_, ?_⟩
    · rw [hmem _ _ hl]
      refine ⟨c, List.mem_filter.2 ⟨hc, by simp [ht]⟩, ?_⟩
      subst hg
      show ((blocks[c.iter2]?).bind fun b => (b.inst[b.sel]?).bind fun i => (i.blk.pins[c.iter]?).bind fun p => some _) = _
      rw [hb, Option.bind_some, hi, Option.bind_some, hp, Option.bind_some]
    · rw [List.mem_map]
      refine ⟨d, hd, ?_⟩
      obtain ⟨m, a1, a2, a3, a4⟩ := e
      simp only at e1 e2 e3 e4 e5
      subst e1 e2 e3 e4 e5
      rfl

/-- Each terminal has the contacts of the pins on its net, at their places, if no net has two terminals and the terminal is on one net; and the node
gets a pin of the name of the terminal with the same boxes. Terminals without a net keep their contacts. -/
theorem C106_terminals_partial {hx hy : Int} {m0 : String} {groups : List Group} {snets : List SNet} {sol : Sol} {n n' : Node}
    (h : writeNode hx hy m0 groups snets sol n = some n')
    (h1 : ∀ t ∈ n.nets, ∀ c ∈ t.conns, ∀ c' ∈ t.conns, c.term = true → c'.term = true → c.iter = c'.iter) :
    n'.terms.length = n.terms.length ∧
    (∃ ps, n'.pins = n.pins ++ ps ∧ List.Forall₂ (fun (t : Term) (p : Pin) => p.name = t.name ∧ p.vias = [] ∧
      List.Forall₂ (fun c c' : Contact => c'.placedBox = c.placedBox ∧ c'.originBox = c.originBox ∧ c'.placedCenter = c.placedCenter ∧ c'.originCenter = c.originCenter)
        t.contacts p.contacts) n'.terms ps) ∧
    ∀ (i : Nat) (t : Term), n.terms[i]? = some t → ∃ t', n'.terms[i]? = some t' ∧ t'.name = t.name ∧ (t.netIter = -1 → t' = t) ∧
      ∀ k, t.netIter ≠ -1 → OnNet n.nets i k → (∀ k', OnNet n.nets i k' → k' = k) →
        ∀ e, e ∈ t'.contacts ↔ ∃ d, PinContact n'.blocks n.nets k d ∧ e.metal = d.metal ∧ e.placedBox = d.placedBox ∧ e.placedCenter = d.placedCenter ∧
          e.originBox = d.placedBox ∧ e.originCenter = d.placedCenter := by
  obtain ⟨bs, n1, n2, -, e1, h2, e2, e3, e4, -⟩ := writeNode_inv h
  obtain ⟨-, -, -, -, -, -, hp, hl, ht⟩ := writeTerms_inv h2
  subst e1
  rw [e2, e3, e4]
  refine ⟨hl, ⟨_, hp, ?_⟩, fun i t hi => ?_⟩
  · exact map_rel fun t _ => ⟨rfl, rfl, map_rel fun c _ => ⟨rfl, rfl, rfl, rfl⟩⟩
  · obtain ⟨t', a1, a2, -, a3, a4⟩ := ht i t hi
    refine ⟨t', a1, a2, a3, fun k hne hk hu e => ?_⟩
    obtain ⟨net, b1, b2⟩ := a4 hne
    rw [termNet_eq h1 hk hu] at b1
    exact gather_mem b1 b2 e

/-! ### Axes -/

/-- The axis written for a self symmetric block is its middle, rounded down, and for a pair of blocks that are mirror images of each other it is at
most two units below the axis between them; it is exact if positions are even and sizes multiples of four. -/
theorem C106_axis_partial {nb : Nat} {xs ws : Nat → Int} {g : Group} {a : Int} (h : axisOf nb xs ws g = some a)
    (hb : ∀ i < nb, 0 ≤ xs i ∧ 0 ≤ ws i) (hg : (∀ i ∈ g.selfsym, i < nb) ∧ ∀ p ∈ g.pairs, p.1 < nb ∧ p.2 < nb) :
    (∀ i l, g.selfsym = i :: l → 2 * a ≤ xs i + (xs i + ws i) ∧ xs i + (xs i + ws i) ≤ 2 * a + 1) ∧
    ∀ i j l A, g.selfsym = [] → g.pairs = (i, j) :: l → ws i = ws j → xs i + (xs j + ws j) = 2 * A → (a ≤ A ∧ A ≤ a + 2) ∧
      (2 ∣ xs i → 2 ∣ xs j → 4 ∣ ws i → a = A) := by
  unfold axisOf at h
  constructor
  · intro i l e
    rw [e] at h
    simp only [Option.some.injEq] at h
    have hi := hb i (hg.1 i (by rw [e]; exact List.mem_cons_self ..))
    have := Int.mul_tdiv_add_tmod (ws i) 2
    have := Int.tmod_nonneg 2 hi.2
    have := Int.tmod_lt_of_pos (ws i) (b := 2) (by decide)
    omega
  · intro i j l A e1 e2 hw hA
    rw [e1, e2] at h
    have hij := hg.2 (i, j) (by rw [e2]; exact List.mem_cons_self ..)
    simp only at hij
    simp only [if_pos hij, Option.some.injEq] at h
    have hi := hb i hij.1
    have hj := hb j hij.2
    rw [Int.tdiv_eq_ediv_of_nonneg hi.1, Int.tdiv_eq_ediv_of_nonneg hi.2, Int.tdiv_eq_ediv_of_nonneg hj.1, Int.tdiv_eq_ediv_of_nonneg hj.2] at h
    refine ⟨by omega, fun d1 d2 d3 => by omega⟩

/-- Symmetric nets of a group get the axis of the group, other nets keep theirs (for one pair of nets). -/
theorem C106_axis_nets {spots : List Spot} {groups : List Group} {axes : List Bool} {s : SNet} {n n' : Node} (h : writeAxis spots groups axes n s = some n') :
    (s.sb < 0 → n' = n) ∧ (0 ≤ s.sb → ∃ g v a, groups[s.sb.toNat]? = some g ∧ axes[s.sb.toNat]? = some v ∧
      axisOf spots.length (spotAt spots v) (sizeAt n.blocks v) g = some a ∧
      List.Forall₂ (fun t t' : Net => t'.name = t.name ∧ t'.conns = t.conns ∧ ((t.name = s.net1 ∨ t.name = s.net2) → t'.vert = v ∧ t'.axis = a) ∧
        (t.name ≠ s.net1 → t.name ≠ s.net2 → t' = t)) n.nets n'.nets) := by
  unfold writeAxis at h
  by_cases c : s.sb < 0
  · rw [if_pos c] at h
    cases h
    exact ⟨fun _ => rfl, fun h => by omega⟩
  · rw [if_neg c] at h
    refine ⟨fun h => absurd h c, fun _ => ?_⟩
    obind at h
    obtain ⟨g, hg, h⟩ := h
    obind at h
    obtain ⟨v, hv, h⟩ := h
    obind at h
    obtain ⟨a, ha, h⟩ := h
    cases h
    refine ⟨g, v, a, hg, hv, ha, map_rel fun t _ => ?_⟩
    by_cases c' : t.name = s.net1 ∨ t.name = s.net2
    · rw [if_pos c']
      exact ⟨rfl, rfl, fun _ => ⟨rfl, rfl⟩, fun h1 h2 => by rcases c' with c' | c' <;> contradiction⟩
    · rw [if_neg c']
      exact ⟨rfl, rfl, fun h => absurd h c', fun _ _ => rfl⟩

theorem axis_at {spots : List Spot} {groups : List Group} {axes : List Bool} {s : SNet} {n n' : Node} (h : writeAxis spots groups axes n s = some n') {k : Nat} {t : Net}
    (hk : n.nets[k]? = some t) : ∃ t', n'.nets[k]? = some t' ∧ t'.name = t.name ∧
      ((s.sb < 0 ∨ (t.name ≠ s.net1 ∧ t.name ≠ s.net2)) → t' = t) ∧
      (0 ≤ s.sb → (t.name = s.net1 ∨ t.name = s.net2) → ∃ g a, groups[s.sb.toNat]? = some g ∧ axes[s.sb.toNat]? = some t'.vert ∧ t'.axis = a ∧
        axisOf spots.length (spotAt spots t'.vert) (sizeAt n.blocks t'.vert) g = some a) := by
  obtain ⟨h1, h2⟩ := C106_axis_nets h
  by_cases c : s.sb < 0
  · rw [h1 c]
    exact ⟨t, hk, rfl, fun _ => rfl, fun h => by omega⟩
  · obtain ⟨g, v, a, hg, hv, ha, hr⟩ := h2 (by omega)
    have hlen := hr.length_eq
    have hlt := (List.getElem?_eq_some_iff.1 hk).1
    have hlt' : k < n'.nets.length := by omega
    have := List.forall₂_iff_get.1 hr
    have := this.2 k hlt hlt'
    simp only [List.get_eq_getElem] at this
    have e : n.nets[k] = t := (List.getElem?_eq_some_iff.1 hk).2
    rw [e] at this
    refine ⟨n'.nets[k], List.getElem?_eq_getElem hlt', this.1, ?_, fun _ hn => ?_⟩
    · rintro (h | ⟨h, h'⟩)
      · exact absurd h c
      · exact this.2.2.2 h h'
    · obtain ⟨e1, e2⟩ := this.2.2.1 hn
      exact ⟨g, a, hg, by rw [e1]; exact hv, e2, by rw [e1]; exact ha⟩

theorem axes_keep {spots : List Spot} {groups : List Group} {axes : List Bool} : ∀ {l : List SNet} {n n' : Node}, l.foldlM (writeAxis spots groups axes) n = some n' →
    ∀ {k : Nat} {t : Net}, n.nets[k]? = some t → (∀ s ∈ l, s.sb < 0 ∨ (t.name ≠ s.net1 ∧ t.name ≠ s.net2)) → n'.nets[k]? = some t
  | [], n, n', h, k, t, hk, _ => by
    cases h
    exact hk
  | s :: l, n, n', h, k, t, hk, hl => by
    rw [List.foldlM_cons] at h
    obind at h
    obtain ⟨m, hm, h⟩ := h
    obtain ⟨t', ht', -, ha, -⟩ := axis_at hm hk
    rw [ha (hl s (List.mem_cons_self ..))] at ht'
    exact axes_keep h ht' fun s hs => hl s (List.mem_cons_of_mem _ hs)

/-- A net has the axis of the last group that one of its symmetric pairs belongs to, computed from the placement that was written; a net in no such
pair keeps its axis. -/
theorem C106_axes_partial {hx hy : Int} {m0 : String} {groups : List Group} {snets : List SNet} {sol : Sol} {n n' : Node}
    (h : writeNode hx hy m0 groups snets sol n = some n') (he : sol.enumerated = false) {k : Nat} {t : Net} (hk : n.nets[k]? = some t) :
    ((∀ s ∈ snets, s.sb < 0 ∨ (t.name ≠ s.net1 ∧ t.name ≠ s.net2)) → n'.nets[k]? = some t) ∧
    ∀ l s m, snets = l ++ s :: m → 0 ≤ s.sb → (t.name = s.net1 ∨ t.name = s.net2) → (∀ s' ∈ m, s'.sb < 0 ∨ (t.name ≠ s'.net1 ∧ t.name ≠ s'.net2)) →
      ∃ t' g, n'.nets[k]? = some t' ∧ t'.name = t.name ∧ groups[s.sb.toNat]? = some g ∧ sol.axes[s.sb.toNat]? = some t'.vert ∧
        axisOf sol.spots.length (spotAt sol.spots t'.vert) (sizeAt n'.blocks t'.vert) g = some t'.axis := by
  obtain ⟨bs, n1, n2, -, e1, h2, e2, -, -, -, -, -, -, -, hf⟩ := writeNode_inv h
  obtain ⟨b1, b2, -⟩ := writeTerms_inv h2
  subst e1
  rw [if_neg (by rw [he]; decide)] at hf
  have hk2 : n2.nets[k]? = some t := by rw [b2]; exact hk
  refine ⟨fun hs => axes_keep hf hk2 hs, fun l s m e hsb hn hm => ?_⟩
  rw [e, List.foldlM_append] at hf
  obind at hf
  obtain ⟨n3, hn3, hf⟩ := hf
  rw [List.foldlM_cons] at hf
  obind at hf
  obtain ⟨n4, hn4, hf⟩ := hf
  have hb3 := (writeAxes_blocks hn3).1
  have hnames := (writeAxes_blocks hn3).2.2.2.2.2.2.2
  have h3 : ∃ t3, n3.nets[k]? = some t3 ∧ t3.name = t.name := by
    have h0 : (n2.nets.map fun t => (t.name, t.conns))[k]? = some (t.name, t.conns) := by rw [List.getElem?_map, hk2]; rfl
    rw [← hnames, List.getElem?_map, Option.map_eq_some_iff] at h0
    obtain ⟨t3, ht3, e3⟩ := h0
    exact ⟨t3, ht3, by simp only [Prod.mk.injEq] at e3; exact e3.1⟩
  obtain ⟨t3, ht3, en⟩ := h3
  obtain ⟨t', ht', en', -, ha⟩ := axis_at hn4 ht3
  rw [en] at ha
  obtain ⟨g, a, hg, hv, rfl, hax⟩ := ha hsb hn
  refine ⟨t', g, axes_keep hf ht' (by rw [en', en]; exact hm), en'.trans en, hg, hv, ?_⟩
  rw [e2, ← hax, hb3, b1]

/-! ### Runs end -/

theorem mapM_zipIdx_some {α β : Type} {f : α × Nat → Option β} {l : List α} (h : ∀ i a, l[i]? = some a → ∃ b, f (a, i) = some b) :
    ∃ m, (l.zipIdx).mapM f = some m := by
  have key : ∀ (l : List α) (k : Nat), (∀ i a, l[i]? = some a → ∃ b, f (a, k + i) = some b) → ∃ m, (l.zipIdx k).mapM f = some m := by
    intro l
    induction l with
    | nil => exact fun k _ => ⟨[], rfl⟩
    | cons x l ih =>
      intro k h
      obtain ⟨b, hb⟩ := h 0 x rfl
      obtain ⟨m, hm⟩ := ih (k + 1) fun i a hi => by
        obtain ⟨c, hc⟩ := h (i + 1) a (by rw [List.getElem?_cons_succ]; exact hi)
        exact ⟨c, by rw [← hc]; congr 2; omega⟩
      rw [Nat.add_zero] at hb
      exact ⟨b :: m, by rw [List.zipIdx_cons, List.mapM_cons, hb, hm]; rfl⟩
  exact key l 0 fun i a hi => by rw [Nat.zero_add]; exact h i a hi

theorem termNet_lt {nets : List Net} (i : Nat) (h : nets ≠ []) : termNet nets i < nets.length := by
  have key : ∀ (l : List Net) (m j N : Nat), j < N → m + l.length ≤ N →
      (l.zipIdx m).foldl (fun m nk => match firstTerm nk.1 with
          | some j => if j = i then nk.2 else m
          | none => m) j < N := by
    intro l
    induction l with
    | nil => exact fun m j N hj _ => hj
    | cons x l ih =>
      intro m j N hj hm
      rw [List.length_cons] at hm
      rw [List.zipIdx_cons, List.foldl_cons]
      refine ih (m + 1) _ N ?_ (by omega)
      simp only
      split
      · split_ifs
        · omega
        · exact hj
      · exact hj
  exact key nets 0 0 nets.length (List.length_pos_iff.2 h) (by omega)

theorem axes_done {spots : List Spot} {groups : List Group} {axes : List Bool} : ∀ (l : List SNet) (n : Node),
    (∀ s ∈ l, 0 ≤ s.sb → ∃ g v, groups[s.sb.toNat]? = some g ∧ axes[s.sb.toNat]? = some v ∧ (g.selfsym ≠ [] ∨ g.pairs ≠ [])) →
    ∃ n', l.foldlM (writeAxis spots groups axes) n = some n'
  | [], n, _ => ⟨n, rfl⟩
  | s :: l, n, h => by
    have : ∃ m, writeAxis spots groups axes n s = some m := by
      unfold writeAxis
      by_cases c : s.sb < 0
      · rw [if_pos c]
        exact ⟨n, rfl⟩
      · rw [if_neg c]
        obtain ⟨g, v, hg, hv, hne⟩ := h s (List.mem_cons_self ..) (by omega)
        have : ∃ a, axisOf spots.length (spotAt spots v) (sizeAt n.blocks v) g = some a := by
          unfold axisOf
          rcases hs : g.selfsym with _ | ⟨a, _⟩
          · rcases hp : g.pairs with _ | ⟨⟨a, b⟩, _⟩
            · rcases hne with h | h
              · exact absurd hs h
              · exact absurd hp h
            · exact ⟨_, rfl⟩
          · exact ⟨_, rfl⟩
        obtain ⟨a, ha⟩ := this
        simp only [hg, hv, Option.bind_eq_bind, Option.bind_some, ha]
        exact ⟨_, rfl⟩
    obtain ⟨m, hm⟩ := this
    obtain ⟨n', hn'⟩ := axes_done l m fun t ht => h t (List.mem_cons_of_mem _ ht)
    exact ⟨n', by rw [List.foldlM_cons, hm]; exact hn'⟩

/-- The placement is written if every block has a position and a variant, nets connect existing pins, there is a net if there are terminals, and
groups are not empty. -/
theorem C106_done {groups : List Group} {snets : List SNet} {sol : Sol} {n : Node} (hx hy : Int) (m0 : String)
    (hb : ∀ (k : Nat) (b : Bc), n.blocks[k]? = some b → ∃ s v i, sol.spots[k]? = some s ∧ sol.selected[k]? = some v ∧ b.inst[v]? = some i ∧ i.Ok)
    (hc : ∀ t ∈ n.nets, ∀ c ∈ t.conns, c.term = false → ∃ b v i p, n.blocks[c.iter2]? = some b ∧ sol.selected[c.iter2]? = some v ∧ b.inst[v]? = some i ∧
      i.blk.pins[c.iter]? = some p)
    (hn : n.terms ≠ [] → n.nets ≠ [])
    (hg : ∀ s ∈ snets, 0 ≤ s.sb → ∃ g v, groups[s.sb.toNat]? = some g ∧ sol.axes[s.sb.toNat]? = some v ∧ (g.selfsym ≠ [] ∨ g.pairs ≠ [])) :
    ∃ n', writeNode hx hy m0 groups snets sol n = some n' := by
  have h1 : ∃ bs, writeBlocks sol n = some bs := by
    refine mapM_zipIdx_some fun k b hk => ?_
    obtain ⟨s, v, i, hs, hv, hi, hok⟩ := hb k b hk
    obtain ⟨i', hi', -⟩ := C106_variant (ortOf s) s hok
    simp only [hs, hv, hi, hi', Option.bind_eq_bind, Option.bind_some]
    exact ⟨_, rfl⟩
  obtain ⟨bs, hbs⟩ := h1
  have h2 : ∀ n1 : Node, n1.nets = n.nets → n1.terms = n.terms → n1.blocks = bs → ∃ n2, writeTerms m0 n1 = some n2 := by
    intro n1 e1 e2 e3
    have : ∃ ts, (n1.terms.zipIdx).mapM (fun ti => if ti.1.netIter = -1 then some ti.1
        else do
          let net ← n1.nets[termNet n1.nets ti.2]?
          let cs ← gather n1.blocks net
          some { ti.1 with contacts := cs }) = some ts := by
      refine mapM_zipIdx_some fun k t hk => ?_
      simp only
      by_cases c : t.netIter = -1
      · rw [if_pos c]
        exact ⟨t, rfl⟩
      · rw [if_neg c, e1, e3]
        rw [e2] at hk
        have hlt := termNet_lt k (hn (List.ne_nil_of_mem (List.mem_of_getElem? hk)))
        have hnet := List.getElem?_eq_getElem hlt
        obtain ⟨cs, hcs⟩ : ∃ cs, gather bs (n.nets[termNet n.nets k]) = some cs := by
          unfold gather
          obtain ⟨l, hl, -⟩ := mapM_rel (R := fun _ _ => True) (f := fun c : Conn => (do
              let b ← bs[c.iter2]?
              let i ← b.inst[b.sel]?
              let p ← i.blk.pins[c.iter]?
              some (p.contacts.map fun d : Contact => { d with originBox := d.placedBox, originCenter := d.placedCenter })))
            (l := (n.nets[termNet n.nets k]).conns.filter fun c => !c.term) (by
              intro c hcm
              rw [List.mem_filter] at hcm
              obtain ⟨b, v, i, p, a1, a2, a3, a4⟩ := hc _ (List.getElem_mem hlt) c hcm.1 (by simpa using hcm.2)
              obtain ⟨b', d1, d2⟩ := (mapM_zipIdx hbs).2 c.iter2 b a1
              obtain ⟨s, v', i', g1, g2, g3, g4⟩ := hb c.iter2 b a1
              rw [g2] at a2
              cases a2
              rw [g3] at a3
              cases a3
              obtain ⟨j, j1, -, j2, -⟩ := C106_variant (ortOf s) s g4
              simp only [g1, g2, g3, j1, Option.bind_eq_bind, Option.bind_some, Option.some.injEq] at d2
              subst d2
              have hset : (b.inst.set v j)[v]? = some j := by
                have := (List.getElem?_eq_some_iff.1 g3).1
                simp [this]
              have hlen := j2.2.2.2.2.1.length_eq
              have hp : c.iter < j.blk.pins.length := by
                rw [← hlen]
                exact (List.getElem?_eq_some_iff.1 a4).1
              simp only [d1, Option.bind_eq_bind, Option.bind_some, hset, List.getElem?_eq_getElem hp]
              exact ⟨_, rfl, trivial⟩)
          rw [hl]
          exact ⟨_, rfl⟩
        simp only [hnet, Option.bind_eq_bind, Option.bind_some, hcs]
        exact ⟨_, rfl⟩
    obtain ⟨ts, hts⟩ := this
    unfold writeTerms
    rw [hts]
    exact ⟨_, rfl⟩
  obtain ⟨n2, hn2⟩ := h2 { n with blocks := bs, width := sol.ur.x + hx, height := sol.ur.y + hy, hpwlExt := bs.foldl (fun a b => a + innerOf b) sol.hpwlExt,
                                   hpwlExtWo := bs.foldl (fun a b => a + innerOf b) (sol.hpwlExt - sol.hpwlTerm) } rfl rfl rfl
  unfold writeNode
  simp only [hbs, Option.bind_eq_bind, Option.bind_some, hn2]
  by_cases c : sol.enumerated = true
  · rw [if_pos c]
    exact ⟨_, rfl⟩
  · rw [if_neg c]
    exact axes_done snets n2 hg

/-! ## Examples and violations -/

def exInst (m : String) : Inst :=
  ⟨⟨⟨⟨0, 0⟩, ⟨0, 0⟩⟩, ⟨0, 0⟩, [⟨"A", [⟨m, ⟨⟨0, 0⟩, ⟨0, 0⟩⟩, ⟨⟨0, 0⟩, ⟨1, 1⟩⟩, ⟨0, 0⟩, ⟨0, 0⟩⟩], []⟩], [], [], []⟩, ⟨⟨0, 0⟩, ⟨2, 2⟩⟩, 2, 2, 5, .N⟩

def exNode : Node := ⟨[⟨[exInst "M3"], 0⟩, ⟨[exInst "M3"], 0⟩], [⟨"p", [⟨true, 0, 0⟩, ⟨false, 0, 0⟩], false, 0⟩, ⟨"q", [⟨true, 1, 0⟩, ⟨false, 0, 1⟩], false, 0⟩],
  [⟨"p", 0, []⟩, ⟨"q", 1, []⟩], [], 0, 0, 0, 0⟩

def exSol (enumerated : Bool) : Sol := ⟨[⟨1, 0, false, false⟩, ⟨3, 0, true, false⟩], ⟨5, 2⟩, 7, 3, [0, 0], enumerated, [true]⟩

theorem exOk : ∀ b ∈ exNode.blocks, ∀ i ∈ b.inst, i.Ok := by
  intro b hb i hi
  have : i = exInst "M3" := by
    simp only [exNode, List.mem_cons, List.not_mem_nil, or_false] at hb
    rcases hb with rfl | rfl <;> simpa using hi
  subst this
  simp [Inst.Ok, Box.Ok, exInst]

example : (∀ b ∈ exNode.blocks, ∀ i ∈ b.inst, i.Ok) ∧ (∀ t ∈ exNode.nets, ∀ c ∈ t.conns, ∀ c' ∈ t.conns, c.term = true → c'.term = true → c.iter = c'.iter) ∧
    ∃ n', writeNode 1 1 "M1" [⟨[], [(0, 1)]⟩] [⟨"p", "q", 0⟩] (exSol false) exNode = some n' ∧ n'.width = 6 ∧ n'.hpwlExt = 17 ∧ n'.hpwlExtWo = 14 ∧
      n'.terms = [⟨"p", 0, [⟨"M3", ⟨⟨1, 0⟩, ⟨2, 1⟩⟩, ⟨⟨1, 0⟩, ⟨2, 1⟩⟩, ⟨1, 0⟩, ⟨1, 0⟩⟩]⟩, ⟨"q", 1, [⟨"M3", ⟨⟨4, 0⟩, ⟨5, 1⟩⟩, ⟨⟨4, 0⟩, ⟨5, 1⟩⟩, ⟨5, 0⟩, ⟨5, 0⟩⟩]⟩] := by
  refine ⟨exOk, by decide, _, rfl, by decide, by decide +kernel, by decide +kernel, by decide⟩

/-- Two blocks that are mirror images in the axis at 3 are given the axis 1. -/
theorem C106_violated_axis : ∃ n', writeNode 0 0 "M1" [⟨[], [(0, 1)]⟩] [⟨"p", "q", 0⟩] (exSol false) exNode = some n' ∧
    (n'.blocks.map fun b => b.inst.map fun i => i.blk.placedBox) = [[⟨⟨1, 0⟩, ⟨3, 2⟩⟩], [⟨⟨3, 0⟩, ⟨5, 2⟩⟩]] ∧ n'.nets.map (fun t => t.axis) = [1, 1] := by
  refine ⟨_, rfl, by decide, by decide⟩

/-- If the placements were enumerated, symmetric nets get no axis. -/
theorem C106_violated_enumerated : ∃ n', writeNode 0 0 "M1" [⟨[], [(0, 1)]⟩] [⟨"p", "q", 0⟩] (exSol true) exNode = some n' ∧ n'.nets = exNode.nets := by
  refine ⟨_, rfl, by decide⟩

/-- The pins of the node are said to be on the first metal, although their contacts are on the third. -/
theorem C106_violated_metal : ∃ n', writeNode 0 0 "M1" [] [] (exSol false) exNode = some n' ∧ (n'.terms.map fun t => t.contacts.map fun c => c.metal) = [["M3"], ["M3"]] ∧
    (n'.pins.map fun p => p.contacts.map fun c => c.metal) = [["M1"], ["M1"]] := by
  refine ⟨_, rfl, by decide, by decide⟩

/-- Of two terminals on one net the second gets the contacts of the first net. -/
theorem C106_violated_terminals : ∃ n n' : Node, writeNode 0 0 "M1" [] [] (exSol false) n = some n' ∧ OnNet n.nets 2 1 ∧ (∀ k, OnNet n.nets 2 k → k = 1) ∧
    ∃ t d, n'.terms[2]? = some t ∧ t.contacts ≠ [] ∧ (∀ e ∈ t.contacts, e.placedBox = d) ∧ ∀ c, PinContact n'.blocks n.nets 1 c → c.placedBox ≠ d := by
  refine ⟨{ exNode with nets := [⟨"p", [⟨true, 0, 0⟩, ⟨false, 0, 0⟩], false, 0⟩, ⟨"q", [⟨true, 1, 0⟩, ⟨true, 2, 0⟩, ⟨false, 0, 1⟩], false, 0⟩],
                        terms := [⟨"p", 0, []⟩, ⟨"q", 1, []⟩, ⟨"r", 1, []⟩] }, _, rfl, ⟨_, rfl, ⟨true, 2, 0⟩, by decide, rfl, rfl⟩, ?_,
    _, ⟨⟨1, 0⟩, ⟨2, 1⟩⟩, rfl, by decide, by decide, ?_⟩
  · rintro k ⟨n, hn, c, hc, ht, hi⟩
    match k with
    | 0 =>
      cases hn
      simp at hc
      rcases hc with rfl | rfl <;> simp at hi
    | 1 => rfl
    | k + 2 => simp at hn
  · rintro c ⟨n, hn, d, hd, ht, b, hb, i, hi, p, hp, hc⟩
    cases hn
    simp only [List.mem_cons, List.not_mem_nil, or_false] at hd
    rcases hd with rfl | rfl | rfl
    · simp at ht
    · simp at ht
    · cases hb
      cases hi
      cases hp
      revert c
      decide

/-- The analytical placer takes the direction of the axis of another group. -/
theorem C106_violated_analytic : ∃ (dirs : List Bool) (snets : List SNet) (i : Nat) (s : SNet), snets[i]? = some s ∧ 0 ≤ s.sb ∧
    analyticVert dirs i ≠ dirs[s.sb.toNat]? ∧ (dirs[s.sb.toNat]?).isSome := by
  exact ⟨[true, false], [⟨"p", "q", 1⟩], 0, ⟨"p", "q", 1⟩, rfl, by decide, by decide, rfl⟩

end Verif.WriteBack

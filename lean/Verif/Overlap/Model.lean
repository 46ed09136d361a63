import Verif.Hier.Model

/-! # Drawn boxes, overlap checker and unit scaling: `align/pnr/render_placement.py`, `align/pnr/checkers.py` -/

namespace Verif.Overlap

open Verif.Geometry (Rect Transformation)
open Verif.Hier (Inst Design)

/-- An entry of `placement_verilog_d['modules']`: `bbox`, `parameters` and `instances`. -/
structure PMod where
  bbox : Rect
  params : List String
  insts : List Inst
deriving DecidableEq, Repr

/-- An entry of `placement_verilog_d['leaves']`: `bbox` and `terminals`. -/
structure PLeaf where
  bbox : Rect
  terminals : List (String × Rect)
deriving DecidableEq, Repr

/-- `placement_verilog_d`, by concrete name. -/
structure Placement where
  mods : List (String × PMod)
  leaves : List (String × PLeaf)
deriving DecidableEq, Repr

/-- The placement without the boxes, as in `Verif.Hier`. -/
def Placement.design (P : Placement) : Design :=
  { mods := P.mods.map fun e => (e.1, ⟨e.2.params, e.2.insts⟩)
    leaves := P.leaves.map fun e => (e.1, ⟨e.2.terminals⟩)
    globals := [] }

/-- What `gen_boxes_and_hovertext` yields. Of the text only the path (and the pin name at its end) is kept. -/
structure Trace where
  rect : Rect
  path : List String
  isLeaf : Bool
  lvl : Nat
  isPin : Bool
deriving DecidableEq, Repr

/-- `render_placement.py:182-189`, `get_rect`. -/
def getRect (P : Placement) (ctn : String) : Option (Rect × Bool) :=
  match P.leaves.lookup ctn with
  | some l => some (l.bbox, true)
  | none => (P.mods.lookup ctn).map fun m => (m.bbox, false)

/-- `render_placement.py:191-216`, the rectangle drawn by `gen_trace_xy` and `gen_pintrace_xy`. -/
def drawn (tr : Transformation) (r : Rect) : Rect := (tr.hitRect r).canonical

/-- `render_placement.py:219-242`, `aux`; `fuel` bounds the depth of recursion. -/
def traceAux (P : Placement) : Nat → List Inst → List String → Transformation → Nat → Option (List Trace)
  | 0, _, _, _, _ => none
  | fuel + 1, insts, pre, tr, lvl =>
    (insts.mapM fun (i : Inst) =>
      let path := pre ++ [i.name]
      let newTr := tr.postMult i.tr
      (getRect P i.template).bind fun rl =>
        (match P.mods.lookup i.template with
          | some m => traceAux P fuel m.insts path newTr (lvl + 1)
          | none => (P.leaves.lookup i.template).map fun (l : PLeaf) =>
              l.terminals.map fun (t : String × Rect) => (⟨drawn newTr t.2, path ++ [t.1], rl.2, lvl, true⟩ : Trace)).map fun rest =>
          (⟨drawn newTr rl.1, path, rl.2, lvl, false⟩ : Trace) :: rest).map List.flatten

/-- `render_placement.py:170-249`, `gen_boxes_and_hovertext`. -/
def traces (P : Placement) (fuel : Nat) (top : String) : Option (List Trace) :=
  match P.leaves.lookup top with
  | some l => some [⟨drawn {} l.bbox, [], true, 0, false⟩]
  | none =>
    match P.mods.lookup top with
    | some m => traceAux P fuel m.insts [] {} 0
    | none => some []

/-- `render_placement.py:252-253`, `rects_overlap`. -/
def rectsOverlap (a b : Rect) : Bool :=
  decide (max a.llx b.llx < min a.urx b.urx) && decide (max a.lly b.lly < min a.ury b.ury)

/-- `render_placement.py:259-263`, the loop over `combinations(leaves, 2)`: the assertion fails at the first overlap. -/
def noOverlap : List Rect → Bool
  | [] => true
  | r :: rs => (rs.all fun s => !rectsOverlap r s) && noOverlap rs

/-- `render_placement.py:251-264`, `standalone_overlap_checker`; `none` is the assertion. -/
def overlapChecker (P : Placement) (fuel : Nat) (top : String) : Option Bool :=
  (traces P fuel top).bind fun ts =>
    if noOverlap ((ts.filter fun t => t.isLeaf && !t.isPin).map Trace.rect) then some true else none

/-! ## Scaling -/

/-- `render_placement.py:128-139`, `scalar_rational_scaling`, for integers: the result and whether an error is
logged. The branch for a float `mul` (drawing only) is not modelled. -/
def scaleInt (mul div v : Int) : Int × Bool :=
  ((mul * v).fdiv div, decide ((mul * v).fmod div ≠ 0))

/-- `render_placement.py:141-142`, `array_rational_scaling`, for a rectangle. -/
def scaleRect (mul div : Int) (r : Rect) : Rect × Bool :=
  (⟨(scaleInt mul div r.llx).1, (scaleInt mul div r.lly).1, (scaleInt mul div r.urx).1, (scaleInt mul div r.ury).1⟩,
    (scaleInt mul div r.llx).2 || (scaleInt mul div r.lly).2 || (scaleInt mul div r.urx).2 || (scaleInt mul div r.ury).2)

/-- `render_placement.py:157-160`: the shifts `oX`, `oY` of an instance. -/
def scaleInst (mul div : Int) (i : Inst) : Inst × Bool :=
  ({ i with tr := { i.tr with oX := (scaleInt mul div i.tr.oX).1, oY := (scaleInt mul div i.tr.oY).1 } },
    (scaleInt mul div i.tr.oX).2 || (scaleInt mul div i.tr.oY).2)

/-- `render_placement.py:155-160`. -/
def scaleMod (mul div : Int) (m : PMod) : PMod × Bool :=
  (⟨(scaleRect mul div m.bbox).1, m.params, m.insts.map fun i => (scaleInst mul div i).1⟩,
    (scaleRect mul div m.bbox).2 || m.insts.any fun i => (scaleInst mul div i).2)

/-- `render_placement.py:162-165`. -/
def scaleLeaf (mul div : Int) (l : PLeaf) : PLeaf × Bool :=
  (⟨(scaleRect mul div l.bbox).1, l.terminals.map fun t => (t.1, (scaleRect mul div t.2).1)⟩,
    (scaleRect mul div l.bbox).2 || l.terminals.any fun t => (scaleRect mul div t.2).2)

/-- `render_placement.py:155-167`, the body of `scale_placement_verilog`. -/
def scaleBy (mul div : Int) (P : Placement) : Placement × Bool :=
  (⟨P.mods.map fun e => (e.1, (scaleMod mul div e.2).1), P.leaves.map fun e => (e.1, (scaleLeaf mul div e.2).1)⟩,
    (P.mods.any fun e => (scaleMod mul div e.2).2) || (P.leaves.any fun e => (scaleLeaf mul div e.2).2))

/-- `render_placement.py:144-167`, `scale_placement_verilog`. -/
def scalePlacement (P : Placement) (scale : Int) (invert : Bool) : Placement × Bool :=
  if invert then scaleBy 2 scale P else scaleBy scale 2 P

/-- `checkers.py:14-24`, `rational_scaling`: `none` for the assertion on the box; the second component lists the
terminals for which an error is appended. -/
def rationalScaling (mul div : Int) (l : PLeaf) : Option (PLeaf × List (String × Rect)) :=
  let whole (r : Rect) : Bool := r.toList.all fun c => decide ((mul * c).fmod div = 0)
  let scale (r : Rect) : Rect :=
    ⟨(mul * r.llx).fdiv div, (mul * r.lly).fdiv div, (mul * r.urx).fdiv div, (mul * r.ury).fdiv div⟩
  if whole l.bbox then
    some (⟨scale l.bbox, l.terminals.map fun t => (t.1, scale t.2)⟩, l.terminals.filter fun t => !whole t.2)
  else none

end Verif.Overlap

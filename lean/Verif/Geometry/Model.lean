/-!
# Model of `align/cell_fabric/transformation.py` and of the canvas transformation stack

Python integers are `Int`.
-/

namespace Verif.Geometry

/-- `transformation.py:2-7`, class `Rect`. The model has no `None` coordinates. -/
structure Rect where
  llx : Int
  lly : Int
  urx : Int
  ury : Int
deriving DecidableEq, Repr

/-- `transformation.py:9-13`, `Rect.canonical`: swap the coordinates that are in the wrong order. -/
def Rect.canonical (r : Rect) : Rect :=
  let (llx, urx) := if r.llx > r.urx then (r.urx, r.llx) else (r.llx, r.urx)
  let (lly, ury) := if r.lly > r.ury then (r.ury, r.lly) else (r.lly, r.ury)
  ⟨llx, lly, urx, ury⟩

/-- `transformation.py:15-16`, `Rect.toList`. -/
def Rect.toList (r : Rect) : List Int := [r.llx, r.lly, r.urx, r.ury]

/-- `transformation.py:27-31`, class `Transformation`, with the defaults of `__init__`. -/
structure Transformation where
  oX : Int := 0
  oY : Int := 0
  sX : Int := 1
  sY : Int := 1
deriving DecidableEq, Repr

/-- `transformation.py:22-25`, `genTr`. The dictionary lookup raises `KeyError` (`none`) for other tags. -/
def Transformation.genTr (tag : String) (w h : Int) : Option Transformation :=
  let signs : Option (Int × Int) :=
    if tag = "FN" then some (-1, 1)
    else if tag = "FS" then some (1, -1)
    else if tag = "N" then some (1, 1)
    else if tag = "S" then some (-1, -1)
    else none
  signs.map fun (sX, sY) =>
    { sX := sX, sY := sY, oX := if sX = 1 then 0 else w, oY := if sY = 1 then 0 else h }

/-- `transformation.py:48-50`, `hit`. -/
def Transformation.hit (t : Transformation) (p : Int × Int) : Int × Int :=
  (t.sX * p.1 + t.oX, t.sY * p.2 + t.oY)

/-- `transformation.py:52-55`, `hitRect`. -/
def Transformation.hitRect (t : Transformation) (r : Rect) : Rect :=
  let ll := t.hit (r.llx, r.lly)
  let ur := t.hit (r.urx, r.ury)
  ⟨ll.1, ll.2, ur.1, ur.2⟩

/-- `transformation.py:57-71`, `inv`. -/
def Transformation.inv (t : Transformation) : Transformation :=
  { sX := t.sX, sY := t.sY, oX := -t.oX * t.sX, oY := -t.oY * t.sY }

/-- `transformation.py:73-83`, `mult`. -/
def Transformation.mult (A B : Transformation) : Transformation :=
  { sX := A.sX * B.sX
    sY := A.sY * B.sY
    oX := A.sX * B.oX + A.oX
    oY := A.sY * B.oY + A.oY }

/-- `transformation.py:85-86`, `preMult`. -/
def Transformation.preMult (self A : Transformation) : Transformation := mult A self

/-- `transformation.py:88-89`, `postMult`. -/
def Transformation.postMult (self A : Transformation) : Transformation := mult self A

/-! ## Canvas stack (`align/cell_fabric/canvas.py`) -/

/-- The part of `Canvas` used here: `trStack` (`canvas.py:383`, top of the stack first in the model) and the
rectangles of `terminals` (`canvas.py:380`, in order of insertion). Other fields of a terminal are not touched
by the stack and are left out. -/
structure Canvas where
  trStack : List Transformation
  terminals : List Rect
deriving DecidableEq, Repr

/-- `canvas.py:375-392`, initial state. -/
def Canvas.init : Canvas := ⟨[{}], []⟩

/-- `canvas.py:394-395`, `pushTr`; `trStack[-1]` on an empty list raises. -/
def Canvas.pushTr (c : Canvas) (tr : Transformation) : Option Canvas :=
  match c.trStack with
  | [] => none
  | top :: rest => some { c with trStack := top.postMult tr :: top :: rest }

/-- `canvas.py:397-398`, `hitTopTr`. -/
def Canvas.hitTopTr (c : Canvas) (tr : Transformation) : Option Canvas :=
  match c.trStack with
  | [] => none
  | top :: rest => some { c with trStack := top.postMult tr :: rest }

/-- `canvas.py:400-402`, `popTr`: pops, then asserts that something is left. -/
def Canvas.popTr (c : Canvas) : Option Canvas :=
  match c.trStack with
  | [] => none
  | _ :: rest => if rest = [] then none else some { c with trStack := rest }

/-- `canvas.py:44-47`, `transform_and_add`. -/
def Canvas.transformAndAdd (c : Canvas) (r : Rect) : Option Canvas :=
  match c.trStack with
  | [] => none
  | top :: _ => some { c with terminals := c.terminals ++ [(top.hitRect r).canonical] }

/-- A call made by a client of the canvas. -/
inductive Call
  | push (t : Transformation)
  | hitTop (t : Transformation)
  | pop
  | add (r : Rect)
deriving DecidableEq, Repr

/-- Execute one call. -/
def Canvas.exec (c : Canvas) : Call → Option Canvas
  | .push t => c.pushTr t
  | .hitTop t => c.hitTopTr t
  | .pop => c.popTr
  | .add r => c.transformAndAdd r

/-- Execute a sequence of calls, stopping at the first exception. -/
def Canvas.run (c : Canvas) : List Call → Option Canvas
  | [] => some c
  | k :: ks => (c.exec k).bind fun c' => c'.run ks

/-- `align/cell_fabric/positive_coord.py:3-21`, `json_pos`: the bounding box and the terminal rectangles of the
layout. File reading and writing are left out, as are fields that the function does not touch. -/
def jsonPos (bbox : Rect) (terminals : List Rect) : Rect × List Rect :=
  let x0 := bbox.llx
  let y0 := bbox.lly
  (⟨0, 0, bbox.urx - x0, bbox.ury - y0⟩,
   terminals.map fun r => ⟨r.llx - x0, r.lly - y0, r.urx - x0, r.ury - y0⟩)

end Verif.Geometry

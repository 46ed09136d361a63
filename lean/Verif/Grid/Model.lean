import Verif.Util.Sort

/-!
# Model of `align/cell_fabric/grid.py`

A grid line is a pair of a coordinate and attributes; attributes are an arbitrary type `α` here.
Failed asserts and raised exceptions are `none`.
-/

namespace Verif.Grid

/-- `grid.py:7-13`, class `Grid`. `legalIndices` is a set of positions in `grid`; the model uses a list, whose
order and repetitions do not matter to any function below. -/
structure Grid (α : Type) where
  grid : List (Int × α)
  legalIndices : List Nat

/-- `grid.py:7-13`, the grid without lines. -/
def Grid.empty {α : Type} : Grid α := ⟨[], []⟩

/-- `grid.py:18-21`, `addGridLine`. -/
def Grid.addGridLine {α : Type} (g : Grid α) (value : Int) (isLegal : Bool) (attrs : α) : Grid α :=
  let grid := g.grid ++ [(value, attrs)]
  ⟨grid, if isLegal then g.legalIndices ++ [grid.length - 1] else g.legalIndices⟩

/-- `grid.py:23-29`, `copyShift` with a shift. The legal indices are shared with the original. -/
def Grid.copyShift {α : Type} (g : Grid α) (shift : Int) : Grid α :=
  ⟨g.grid.map fun (c, a) => (c + shift, a), g.legalIndices⟩

/-- `grid.py:31-33`, property `n`. -/
def Grid.n {α : Type} (g : Grid α) : Int := (g.grid.length : Int) - 1

/-- `grid.py:35-37`, property `period`; indexing an empty grid raises. -/
def Grid.period {α : Type} (g : Grid α) : Option Int :=
  match g.grid.getLast?, g.grid.head? with
  | some l, some f => some (l.1 - f.1)
  | _, _ => none

/-- `grid.py:44-49`, the loop of `inverseBounds`; `prev` is the index part of `monotonic_grid[i-1]`
(for `i = 0` Python's index -1 gives the last entry). Running off the end returns `None`. -/
def scan (offset r q : Int) (prev : Nat) : List (Nat × Int) → Option ((Int × Int) × (Int × Int))
  | [] => none
  | (idx, val) :: rest =>
    if val - offset = r then some ((q, idx), (q, idx))
    else if val - offset > r then some ((q, prev), (q, idx))
    else scan offset r q idx rest

/-- `grid.py:42-43`: the enumerated coordinates, stably sorted by coordinate. -/
def Grid.monotonicGrid {α : Type} (g : Grid α) : List (Nat × Int) :=
  pySort (fun a b => decide (a.2 ≤ b.2)) (g.grid.zipIdx.map fun (v, i) => (i, v.1))

/-- `grid.py:39-49`, `inverseBounds`. Python's `divmod` is floor division; a zero period raises. -/
def Grid.inverseBounds {α : Type} (g : Grid α) (physical : Int) :
    Option ((Int × Int) × (Int × Int)) :=
  match g.grid.head?, g.period with
  | some f, some p =>
    if p = 0 then none
    else
      let offset := f.1
      let q := (physical - offset).fdiv p
      let r := (physical - offset).fmod p
      let mg := g.monotonicGrid
      scan offset r q ((mg.getLast?.map Prod.fst).getD 0) mg
  | _, _ => none

/-- `grid.py:51-65`, `snapToLegal`. -/
def Grid.snapToLegal {α : Type} (g : Grid α) (idx : Int × Int) (direction : Int) :
    Option (Int × Int) :=
  if g.legalIndices = [] then none
  else if direction = -1 then
    match (g.legalIndices.filter fun (x : Nat) => decide ((x : Int) ≤ idx.2)).max? with
    | some m => some (idx.1, m)
    | none => g.legalIndices.max?.map fun m => (idx.1 + direction, (m : Int))
  else if direction = 1 then
    match (g.legalIndices.filter fun (x : Nat) => decide ((x : Int) ≥ idx.2)).min? with
    | some m => some (idx.1, m)
    | none => g.legalIndices.min?.map fun m => (idx.1 + direction, (m : Int))
  else none

/-- `grid.py:66-74`, `value` on a flat integer index. -/
def Grid.valueFlat {α : Type} (g : Grid α) (v : Int) (check : Bool) : Option (Int × α) :=
  if g.n > 0 then
    let whole := v.fdiv g.n
    let fract := v.fmod g.n
    if check && !(g.legalIndices.contains fract.toNat) then none
    else
      match g.grid[fract.toNat]?, g.period with
      | some (c, attrs), some p => some (c + whole * p, attrs)
      | _, _ => none
  else none

/-- `grid.py:66-74`, `value` on a tuple index. -/
def Grid.value {α : Type} (g : Grid α) (idx : Int × Int) (check : Bool) : Option (Int × α) :=
  g.valueFlat (idx.1 * g.n + idx.2) check

/-- Attributes of a center line: width and optional colour (`grid.py:87-89`). -/
abbrev LineAttr := Int × Option String

/-- `grid.py:87-89`, `addCenterLine`; an odd width raises. -/
def addCenterLine (g : Grid LineAttr) (value width : Int) (isLegal : Bool) (color : Option String) :
    Option (Grid LineAttr) :=
  if width.fmod 2 = 0 then some (g.addGridLine value isLegal (width, color)) else none

/-- `grid.py:91-94`, `CenterLineGrid.semantic`. -/
def centerLineSemantic (g : Grid LineAttr) : Option (Grid LineAttr) :=
  if g.n > 0 ∧ (g.grid.head?.map Prod.snd) = (g.grid.getLast?.map Prod.snd) then some g else none

/-- `grid.py:97-103`, `UncoloredCenterLineGrid`. -/
def uncoloredCenterLineGrid (pitch width offset : Int) (repeats : Nat) : Option (Grid LineAttr) :=
  ((List.range (repeats + 1)).foldlM
    (fun g (i : Nat) => addCenterLine g (offset + i * pitch) width true none) Grid.empty).bind
    centerLineSemantic

/-- `grid.py:111-114`: the colours used, `(colors * repeat)[:repeat]` when `repeat` is given. -/
def repeatColors (colors : List String) : Option Nat → List String
  | some k => ((List.replicate k colors).flatten).take k
  | none => colors

/-- `grid.py:106-117`, `ColoredCenterLineGrid`; an empty list `c` raises at `c[0]`. -/
def coloredCenterLineGrid (colors : List String) (pitch width offset : Int) (repeats : Option Nat) :
    Option (Grid LineAttr) :=
  if colors.length % 2 = 0 then
    let c := repeatColors colors repeats
    match c with
    | [] => none
    | c0 :: _ =>
      ((c ++ [c0]).zipIdx.foldlM
        (fun g ci => addCenterLine g (offset + ci.2 * pitch) width true (some ci.1)) Grid.empty).bind
        centerLineSemantic
  else none

/-- `grid.py:77-82`, `CenteredGrid`. -/
def centeredGrid (pitch offset : Int) : Grid Unit :=
  ((Grid.empty.addGridLine offset false ()).addGridLine (offset + pitch.fdiv 2) true ()).addGridLine
    (offset + pitch) false ()

/-- `grid.py:120-131`, `EnclosureGrid` (the `check` argument only logs). -/
def enclosureGrid (pitch offset stoppoint : Int) : Grid Unit :=
  ((((Grid.empty.addGridLine offset false ()).addGridLine (offset + stoppoint) true ()).addGridLine
    (offset + pitch.fdiv 2) false ()).addGridLine (offset + pitch - stoppoint) true ()).addGridLine
    (offset + pitch) false ()

/-- `grid.py:134-139`, `SingleGrid`; `semantic` asserts `n > 0`. -/
def singleGrid (pitch offset : Int) (repeats : Nat) : Option (Grid Unit) :=
  let g := (List.range (repeats + 1)).foldl
    (fun g (i : Nat) => g.addGridLine (offset + i * pitch) true ()) (Grid.empty (α := Unit))
  if g.n > 0 then some g else none

/-- `align/cell_fabric/generators.py:11-23`, the rectangle of `Wire.segment`: `clg` is the center line grid of the
wire, `spg` its stop point grid (used for both ends). The result is `[llx, lly, urx, ury]`. -/
def wireSegment {β : Type} (clg : Grid LineAttr) (spg : Grid β) (horizontal : Bool)
    (center bIdx eIdx : Int × Int) : Option (List Int) :=
  match clg.value center true, spg.value bIdx true, spg.value eIdx true with
  | some (c, (w, _)), some (b, _), some (e, _) =>
    let c0 := c - w.fdiv 2
    let c1 := c + w.fdiv 2
    some (if horizontal then [b, c0, e, c1] else [c0, b, c1, e])
  | _, _, _ => none

/-- `align/cell_fabric/canvas.py:62-90`, `addWireAndMultiViaSet`: the physical end points of the wire drawn along
a set of vias. Each via is given by its center along the wire (`value(idx, check=False)`, lines 66) and its
`center_to_metal_edge` (lines 72-73); `spg` is the stop point grid of the wire. The vias themselves are added
unchanged (lines 83-88) and are left out. An empty via list raises in `min`. -/
def viaWireSpan {β : Type} (spg : Grid β) (vias : List (Int × Int)) : Option (Int × Int) := do
  let mn0 ← (vias.map Prod.fst).min?
  let mx0 ← (vias.map Prod.fst).max?
  let vmn ← vias.find? fun v => v.1 = mn0
  let vmx ← vias.find? fun v => v.1 = mx0
  let mnP := mn0 - vmn.2
  let mxP := mx0 + vmx.2
  let (mn, _) ← spg.inverseBounds mnP
  let (_, mx) ← spg.inverseBounds mxP
  let mn ← spg.snapToLegal mn (-1)
  let mx ← spg.snapToLegal mx 1
  let b ← spg.value mn true
  let e ← spg.value mx true
  some (b.1, e.1)

end Verif.Grid

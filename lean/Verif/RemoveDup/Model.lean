import Verif.RemoveDup.UnionFind
import Verif.Util.Sort

/-!
# Model of `RemoveDuplicates` in `align/cell_fabric/remove_duplicates.py`

Python objects of class `ScanlineRect` are numbered in order of creation; the heap is `St`. `none` stands for a
failed assertion (or a loop that does not end, which never happens, see `C12_root_iff_linked`).

Simplifications:
* a net name containing `:` is given already split into instance and pin (`Label.pin`); names with two or more
  colons, which fail an assertion, cannot be written;
* `netType` is one of `drawing`, `pin`, `blockage`, the three values produced in the repository, so that
  `'pin' in netType` is `netType = pin`;
* messages of shorts, opens and different widths are replaced by the data they are built from;
* `subinsts` is a list of (terminal, object) pairs in order of registration.
-/

namespace Verif.RemoveDup

/-- Direction of a layer; `via` is `'*'`. -/
inductive Dir
  | h | v | via
deriving DecidableEq, Repr

/-- `[x0, y0, x1, y1]`. -/
structure Rect where
  x0 : Int
  y0 : Int
  x1 : Int
  y1 : Int
deriving DecidableEq, Repr

/-- `rect[dIndex]`, with `dIndex` from `remove_duplicates.py:178`. -/
def Rect.lo (r : Rect) : Dir → Int
  | .h => r.x0
  | .v => r.y0
  | .via => r.y0

/-- `rect[dIndex + 2]`. -/
def Rect.hi (r : Rect) : Dir → Int
  | .h => r.x1
  | .v => r.y1
  | .via => r.y1

/-- `rect[indices[0]]`, with `indices` from `remove_duplicates.py:178`. -/
def Rect.c0 (r : Rect) : Dir → Int
  | .h => r.y0
  | .v => r.x0
  | .via => r.x0

/-- `rect[indices[1]]`. -/
def Rect.c1 (r : Rect) : Dir → Int
  | .h => r.y1
  | .v => r.x1
  | .via => r.x1

/-- Assignment `rect[dIndex + 2] = v`. -/
def Rect.setHi (r : Rect) (d : Dir) (v : Int) : Rect :=
  match d with
  | .h => { r with x1 := v }
  | .v => { r with y1 := v }
  | .via => { r with y1 := v }

/-- `remove_duplicates.py:131-134`, `touching`. -/
def touching (a b : Rect) : Bool :=
  !(decide (a.x1 < b.x0) || decide (b.x1 < a.x0) || decide (a.y1 < b.y0) || decide (b.y1 < a.y0))

/-- The `netName` entry of a terminal: nothing, a net, or `instance:pin`. -/
inductive Label
  | unnamed
  | net (name : String)
  | pin (inst pin : String)
deriving DecidableEq, Repr

inductive NetType
  | drawing | pin | blockage
deriving DecidableEq, Repr

/-- An entry of `canvas.terminals`. -/
structure Shape where
  layer : String
  rect : Rect
  label : Label
  netType : NetType
deriving DecidableEq, Repr

/-- `remove_duplicates.py:29-36`, `ScanlineRect` without `dad`. -/
structure Node where
  rect : Rect
  netName : Option String
  netType : NetType
  terminal : Option (String × String)
  isPorted : Bool
deriving DecidableEq, Repr

/-- The heap, and the attributes `shorts` and `subinsts[..].pins[..]`. -/
structure St where
  uf : UF
  node : Nat → Node
  shorts : List (Nat × Nat)
  pins : List ((String × String) × Nat)

/-- Default content of unallocated objects. -/
def Node.dflt : Node := ⟨⟨0, 0, 0, 0⟩, none, .drawing, none, false⟩

def St.init : St := ⟨UF.init, fun _ => Node.dflt, [], []⟩

/-- Update one object. -/
def St.upd (s : St) (i : Nat) (f : Node → Node) : St :=
  { s with node := fun j => if j = i then f (s.node j) else s.node j }

/-- `remove_duplicates.py:51-62`, `new_slr_no_add`. -/
def mkNode (t : Shape) : Node :=
  match t.label with
  | .unnamed => ⟨t.rect, none, t.netType, none, t.netType = .pin⟩
  | .net x => ⟨t.rect, some x, t.netType, none, t.netType = .pin⟩
  | .pin i p => ⟨t.rect, none, t.netType, some (i, p), t.netType = .pin⟩

def St.alloc (s : St) (t : Shape) : St × Nat :=
  ({ s with uf := s.uf.new, node := fun j => if j = s.uf.n then mkNode t else s.node j }, s.uf.n)

/-- `subinsts[t[0]].pins[t[1]].add(i)` for the terminal of `i`, if it has one. -/
def St.register (s : St) (i : Nat) : St :=
  match (s.node i).terminal with
  | none => s
  | some t => { s with pins := s.pins ++ [(t, i)] }

/-- `remove_duplicates.py:285-302`, `connectPair`. -/
def connectPair (s : St) (a b : Nat) : Option (St × Bool) := do
  let (s1, ok) ←
    if (s.node a).netName = none then do
      let uf ← s.uf.connect a b
      some ({ s.upd a (fun nd => { nd with netName := (s.node b).netName }) with uf := uf }, true)
    else if (s.node b).netName = none ∨ (s.node a).netName = (s.node b).netName then do
      let uf ← s.uf.connect a b
      some ({ s.upd b (fun nd => { nd with netName := (s.node a).netName }) with uf := uf }, true)
    else some ({ s with shorts := s.shorts ++ [(a, b)] }, false)
  if (s1.node a).terminal = none ∧ (s1.node b).terminal = none then some (s1, ok)
  else some ((s1.register a).register b, false)

/-- `remove_duplicates.py:72-74`, `merge_slr`. -/
def mergeSlr (s : St) (d : Dir) (base new : Nat) : St :=
  s.upd base fun nd => { nd with
    rect := nd.rect.setHi d (max (nd.rect.hi d) ((s.node new).rect.hi d))
    isPorted := nd.isPorted || (s.node new).isPorted }

/-- `remove_duplicates.py:226-243`, body of the loop over the sorted rectangles of one centre line; `rects` is
`sl.rects`, and `current_slr` is its last element (asserted in lines 242-243). -/
def scanStep (d : Dir) (s : St) (rects : List Nat) (t : Shape) : Option (St × List Nat) :=
  let (s1, p) := s.alloc t
  match rects.getLast? with
  | none => some (s1, rects ++ [p])
  | some c =>
    if t.rect.lo d ≤ (s1.node c).rect.hi d ∧
        t.rect.c0 d = (s1.node c).rect.c0 d ∧ t.rect.c1 d = (s1.node c).rect.c1 d then do
      let (s2, ok) ← connectPair s1 c p
      if ok then
        if (s2.node p).netType ≠ .blockage ∧ (s2.node c).netType ≠ .blockage then
          some (mergeSlr s2 d c p, rects)
        else some (s2, rects ++ [p])
      else some (s2, rects ++ [p])
    else some (s1, rects ++ [p])

def scanLoop (d : Dir) : St → List Nat → List Shape → Option (St × List Nat)
  | s, rects, [] => some (s, rects)
  | s, rects, t :: ts => (scanStep d s rects t).bind fun r => scanLoop d r.1 r.2 ts

/-- `remove_duplicates.py:223-243`, one centre line: `sorted` by the start of the rectangle. -/
def buildLine (d : Dir) (s : St) (v : List Shape) : Option (St × List Nat) :=
  scanLoop d s [] (pySort (fun a b => decide (a.rect.lo d ≤ b.rect.lo d)) v)

/-- Append to the entry of a `defaultdict(list)`, which keeps its keys in order of first insertion. -/
def addBin {κ α : Type} [DecidableEq κ] (k : κ) (a : α) : List (κ × List α) → List (κ × List α)
  | [] => [(k, [a])]
  | (k', v) :: tl => if k' = k then (k', v ++ [a]) :: tl else (k', v) :: addBin k a tl

/-- `remove_duplicates.py:181-199`, `build_centerline_tbl`, the part `tbl[layer]`: the shapes of one layer by twice
their centre line. -/
def centerlines (d : Dir) (ts : List Shape) : List (Int × List Shape) :=
  ts.foldl (fun tbl t => addBin (t.rect.c0 d + t.rect.c1 d) t tbl) []

/-- `remove_duplicates.py:188-189`: pins must be named (`netName` may also be `instance:pin`). -/
def pinsNamed (ts : List Shape) : Bool :=
  ts.all fun t => !(decide (t.netType = .pin) && decide (t.label = .unnamed))

/-- One scan line of `store_scan_lines`. -/
structure Line where
  layer : String
  dir : Dir
  center : Int
  rects : List Nat
deriving Repr, DecidableEq

/-- `remove_duplicates.py:207-243`: the centre lines of one layer. -/
def buildLayer (s : St) (layer : String) (d : Dir) : List (Int × List Shape) → Option (St × List Line)
  | [] => some (s, [])
  | (c, v) :: tl => do
    let (s1, rects) ← buildLine d s v
    let (s2, ls) ← buildLayer s1 layer d tl
    some (s2, ⟨layer, d, c, rects⟩ :: ls)

/-- `remove_duplicates.py:202-247`, `build_scan_lines`, over the layers in order; shapes on layers in
`skip_layers` or on unknown layers are not looked at. -/
def buildScanLines (skip : List String) (ts : List Shape) : St → List (String × Dir) →
    Option (St × List Line)
  | s, [] => some (s, [])
  | s, (layer, d) :: tl => do
    let (s1, l1) ← buildLayer s layer d
      (centerlines d (ts.filter fun t => decide (t.layer = layer) && !skip.contains layer))
    let (s2, l2) ← buildScanLines skip ts s1 tl
    some (s2, l1 ++ l2)

/-- `remove_duplicates.py:213-222`: the report of different widths for one centre line is not empty. -/
def differentWidths (d : Dir) (v : List Shape) : Bool :=
  match v with
  | [] => false
  | t0 :: tl => tl.any fun t => !(decide (t.rect.c0 d = t0.rect.c0 d) && decide (t.rect.c1 d = t0.rect.c1 d))

/-- `remove_duplicates.py:79-90`, `find_touching`. -/
def findTouching (s : St) (r : Rect) (rects : List Nat) : Option Nat :=
  rects.find? fun i => touching r (s.node i).rect

def findLine (ls : List Line) (layer : String) (c : Int) : Option Line :=
  ls.find? fun l => decide (l.layer = layer) && decide (l.center = c)

/-- `remove_duplicates.py:262-264`: connect one via with the metal below on the scan line `ml`. -/
def viaV (s : St) (ml : Line) (v : Nat) : Option St := do
  let m ← findTouching s (s.node v).rect ml.rects
  let (u1, rm) ← s.uf.root m
  let (u2, rv) ← u1.root v
  let (s', _) ← connectPair { s with uf := u2 } rm rv
  some s'

/-- `remove_duplicates.py:267-274`: connect one via with the metal above. -/
def viaH (s : St) (ls : List Line) (mh : String) (v : Nat) : Option St :=
  match findLine ls mh ((s.node v).rect.y0 + (s.node v).rect.y1) with
  | none => some s
  | some ml => do
    let m ← findTouching s (s.node v).rect ml.rects
    let (u1, rv) ← s.uf.root v
    let (u2, rm) ← u1.root m
    let (s', _) ← connectPair { s with uf := u2 } rv rm
    some s'

/-- `remove_duplicates.py:257-274`: one via scan line. -/
def viaLine (ls : List Line) (mv mh : Option String) (s : St) (vl : Line) : Option St :=
  match mv with
  | some mvn =>
    match findLine ls mvn vl.center with
    | none => some s      -- `continue`: the metal above is not looked at either
    | some ml => do
      let s1 ← vl.rects.foldlM (fun s v => viaV s ml v) s
      match mh with
      | none => some s1
      | some mhn => vl.rects.foldlM (fun s v => viaH s ls mhn v) s1
  | none =>
    match mh with
    | none => some s
    | some mhn => vl.rects.foldlM (fun s v => viaH s ls mhn v) s

/-- `remove_duplicates.py:253-276`, `check_shorts_induced_by_vias`; `stack` is `canvas.layer_stack`. -/
def checkVias (ls : List Line) (stack : List (String × Option String × Option String)) (s : St) :
    Option St :=
  stack.foldlM (fun s e => (ls.filter fun l => decide (l.layer = e.1)).foldlM (viaLine ls e.2.1 e.2.2) s) s

/-- The root of an object and its name, as used in the reports (path compression has no visible effect, see
`C12_compression_invisible`). -/
def rootOf (s : St) (i : Nat) : Option Nat := (s.uf.root i).map Prod.snd

def rootName (s : St) (i : Nat) : Option String := (rootOf s i).bind fun r => (s.node r).netName

/-- All objects on scan lines, in order. -/
def allRects (ls : List Line) : List Nat := ls.flatMap (·.rects)

/-- `remove_duplicates.py:109-115`: the name and the root under which an object is entered, if it has a name. -/
def openEntry (s : St) (i : Nat) : Option (String × Nat) :=
  (rootName s i).bind fun nm => (rootOf s i).map fun r => (nm, r)

/-- `remove_duplicates.py:105-115`, `check_opens`: `tbl[nm]` has the roots of the objects with root name `nm`. -/
def openTbl (s : St) (ls : List Line) : List (String × List Nat) :=
  ((allRects ls).filterMap (openEntry s)).foldl (fun tbl e => addBin e.1 e.2 tbl) []

/-- What is reported as open: a net, or a terminal without a net. -/
inductive Opn
  | net (name : String)
  | terminal (inst pin : String)
deriving DecidableEq, Repr

/-- `remove_duplicates.py:105-122` and `152-154`; `allowed` are the nets allowed to be open. -/
def checkOpens (allowed : List String) (allowOpens : Bool) (s : St) (ls : List Line) : List Opn :=
  (if allowOpens then [] else
    (allRects ls).filterMap fun i =>
      match rootName s i, (s.node i).terminal with
      | none, some t => some (.terminal t.1 t.2)
      | _, _ => none) ++
  (openTbl s ls).filterMap fun e =>
    if e.2.eraseDups.length > 1 ∧ ¬ e.1 ∈ allowed ∧ allowOpens = false then some (.net e.1) else none

/-- `remove_duplicates.py:304-326`, `generate_rectangles`: an output rectangle. -/
structure Out where
  layer : String
  rect : Rect
  netName : Option String
  netType : NetType
  terminal : Option (String × String)
deriving DecidableEq, Repr

/-- The shapes on skipped layers come first, unchanged; then the rectangles on scan lines. -/
def generateRectangles (s : St) (ls : List Line) : List Out :=
  ls.flatMap fun l => l.rects.map fun i =>
    ⟨l.layer, (s.node i).rect, rootName s i,
      if (s.node i).isPorted then .pin else (s.node i).netType, (s.node i).terminal⟩

/-- `remove_duplicates.py:328-354`, `remove_duplicates`: final heap and scan lines. -/
def run (skip : List String) (layers : List (String × Dir))
    (stack : List (String × Option String × Option String)) (ts : List Shape) :
    Option (St × List Line) := do
  if pinsNamed ts then
    let (s, ls) ← buildScanLines skip ts St.init layers
    let s' ← checkVias ls stack s
    some (s', ls)
  else none

end Verif.RemoveDup

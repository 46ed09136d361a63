import Verif.RemoveDup.Model
import Mathlib.Data.Rat.Defs
import Mathlib.Algebra.Order.Field.Rat

/-!
# Model of `align/cell_fabric/pex.py`

Simplifications: node names are structured (`net_layer_x_y` is formatted injectively for the nets in use); the
floating point quotients are exact rationals.
-/

namespace Verif.Pex

open Verif.RemoveDup (Rect Dir)

/-- `pex.py:109`, `ceil((endi - starti) / pitch)`. -/
def numCells (s e pitch : Int) : Nat := (-((-(e - s)).fdiv pitch)).toNat

/-- `pex.py:108-126`, `_stamp_netcells`: the cells `(cellstart, cellend)`, in order. -/
def stampCells (pitch s e : Int) : List (Int × Int) :=
  let n := numCells s e pitch
  (List.range n).map fun i : Nat =>
    (s + i * pitch, if (i : Int) = (n : Int) - 1 then e else s + i * pitch + pitch)

/-- `pex.py:131-141`: the loop over the ports with `prev_port`. -/
def extractLoop (pitch s e : Int) : Option Int → List Int → List (Int × Int)
  | prev, [] => stampCells pitch (prev.getD s) e
  | none, p :: ps =>
    if p > s then stampCells pitch s p ++ extractLoop pitch s e (some p) ps
    else extractLoop pitch s e none ps
  | some q, p :: ps =>
    if p > e then stampCells pitch q e
    else stampCells pitch q p ++ extractLoop pitch s e (some p) ps

/-- `pex.py:128-141`, `_extract_metal_rectangle`. -/
def extract (pitch s e : Int) (ports : List Int) : List (Int × Int) := extractLoop pitch s e none ports

/-- A via of a layer between two metals (`None` at the ends of the stack). -/
structure ViaShape where
  rect : Rect
  below : Option String
  above : Option String

/-- `pex.py:70-71`: `x0` (centre along y). -/
def ViaShape.cy (v : ViaShape) : Int := (v.rect.y0 + v.rect.y1).fdiv 2
/-- `pex.py:70-71`: `x1` (centre along x). -/
def ViaShape.cx (v : ViaShape) : Int := (v.rect.x0 + v.rect.x1).fdiv 2

/-- `pex.py:56-64`, `_stamp_port` for the metal `m` with direction `d`: adds the position to the port list of the
track `c` (twice the centre line). -/
def stampPort (m : String) (d : Dir) (c : Int) (ports : List Int) (v : ViaShape) (end_ : Option String) :
    List Int :=
  if end_ = some m then
    match d with
    | .h => if v.cy * 2 = c then (if v.cx ∈ ports then ports else ports ++ [v.cx]) else ports
    | _ => if v.cx * 2 = c then (if v.cy ∈ ports then ports else ports ++ [v.cy]) else ports
  else ports

/-- `pex.py:66-74` and `27-30`: the sorted port list of the track `c` of the metal `m`. -/
def ports (m : String) (d : Dir) (c : Int) (vias : List ViaShape) : List Int :=
  pySort (fun a b : Int => decide (a ≤ b))
    (vias.foldl (fun ps v => stampPort m d c (stampPort m d c ps v v.below) v v.above) [])

/-! ## Components -/

/-- A wire on a scan line. -/
structure Wire where
  net : String
  layer : String
  dir : Dir
  center2 : Int
  lo : Int
  hi : Int
deriving DecidableEq

/-- `pex.py:96-98`, the node name. -/
structure Node where
  net : String
  layer : String
  x : Int
  y : Int
deriving DecidableEq

/-- `pex.py:116-121`: a position along the wire as a node. -/
def Wire.node (w : Wire) (p : Int) : Node :=
  match w.dir with
  | .h => ⟨w.net, w.layer, p, w.center2.fdiv 2⟩
  | _ => ⟨w.net, w.layer, w.center2.fdiv 2, p⟩

/-- An entry of `netCells` for a metal: the key and the layer and extent of the cell. -/
structure Cell where
  key : Node × Node
  layer : String
  s : Int
  e : Int
deriving DecidableEq

/-- `pex.py:116-125`. -/
def wireCells (pitch : Int) (vias : List ViaShape) (w : Wire) : List Cell :=
  (extract pitch w.lo w.hi (ports w.layer w.dir w.center2 vias)).map fun (s, e) =>
    ⟨(w.node s, w.node e), w.layer, s, e⟩

/-- Assignment `self.netCells[key] = value` of an ordered dictionary: an existing key keeps its place. -/
def dictSet (cells : List Cell) (c : Cell) : List Cell :=
  if cells.any (fun c' => c'.key == c.key) then cells.map fun c' => if c'.key = c.key then c else c'
  else cells ++ [c]

/-- `pex.py:32-39`: all metal cells. -/
def netCells (pitch : Int) (vias : List ViaShape) (ws : List Wire) : List Cell :=
  (ws.flatMap (wireCells pitch vias)).foldl dictSet []

/-- A component of the result; the third terminal kind is the middle of a tee. -/
inductive Comp where
  | res (a b : Node ⊕ (Node × Node)) (v : ℚ)
  | cap (a : Node ⊕ (Node × Node)) (v : ℚ)

/-- `pex.py:153-155`. -/
def dist (s e : Int) : ℚ := (|s - e| : Int) / 1000

/-- `pex.py:157-160`. -/
def pi (a b : Node) (r c : ℚ) : List Comp := [.res (.inl a) (.inl b) r, .cap (.inl a) (c / 2), .cap (.inl b) (c / 2)]

/-- `pex.py:162-166`. -/
def tee (a b : Node) (r c : ℚ) : List Comp :=
  [.res (.inl a) (.inr (a, b)) (r / 2), .res (.inr (a, b)) (.inl b) (r / 2), .cap (.inr (a, b)) c]

/-- `pex.py:41-50`: the components of the metal cells, in either mode. -/
def components (usePi : Bool) (unitR unitC : String → ℚ) (cells : List Cell) : List Comp :=
  cells.flatMap fun c =>
    (if usePi then pi else tee) c.key.1 c.key.2 (unitR c.layer * dist c.s c.e) (unitC c.layer * dist c.s c.e)

/-- The net of a terminal. -/
def netOf : Node ⊕ (Node × Node) → String
  | .inl n => n.net
  | .inr (n, _) => n.net

/-- The step of the loop in `getSummaryCaps`. -/
def addCap (net : String) (acc : ℚ) : Comp → ℚ
  | .cap a v => if netOf a = net then acc + v else acc
  | .res _ _ _ => acc

/-- `pex.py:168-188`, `getSummaryCaps`: the capacitance of a net, summed over its capacitors (the net is read off
the node name by a regular expression there). -/
def summaryCap (net : String) (cs : List Comp) : ℚ :=
  cs.foldl (addCap net) 0

end Verif.Pex

import Verif.RemoveDup.Model
import Verif.Grid.Model

/-!
# Model of `align/cell_fabric/drc.py`

A scan line is given by the list of its rectangles (`sl.rects[..].rect`) and its direction. Error messages are
replaced by the rectangles they name.
-/

namespace Verif.Drc

open Verif.RemoveDup (Rect Dir)

/-- `drc.py:14-21`, `contained_in`: the loop over the regions. -/
def containedIn (regions : List Rect) (r : Rect) : Bool :=
  match regions with
  | [] => false
  | g :: gs =>
    if g.x0 ≤ r.x0 ∧ r.x1 ≤ g.x1 ∧ g.y0 ≤ r.y0 ∧ r.y1 ≤ g.y1 then true else containedIn gs r

/-- `drc.py:228-239`, `_check_min_length`: the rectangles reported, in order. -/
def checkMinLength (regions : List Rect) (minL : Int) (d : Dir) : List Rect → List Rect
  | [] => []
  | r :: rs =>
    if r.hi d - r.lo d < minL then
      if containedIn regions r then checkMinLength regions minL d rs
      else r :: checkMinLength regions minL d rs
    else checkMinLength regions minL d rs

/-- `drc.py:241-255`, `_check_min_spacing`, loop with `prev_slr`: the pairs reported. -/
def spacingLoop (regions : List Rect) (minS : Int) (d : Dir) : Option Rect → List Rect → List (Rect × Rect)
  | _, [] => []
  | prev, r :: rs =>
    match prev with
    | none => spacingLoop regions minS d (some r) rs
    | some p =>
      if 0 < r.lo d - p.hi d ∧ r.lo d - p.hi d < minS then
        if containedIn regions r then spacingLoop regions minS d (some r) rs
        else (p, r) :: spacingLoop regions minS d (some r) rs
      else spacingLoop regions minS d (some r) rs

def checkMinSpacing (regions : List Rect) (minS : Int) (d : Dir) (rs : List Rect) : List (Rect × Rect) :=
  spacingLoop regions minS d none rs

/-- `drc.py:198-211`, `binary_search(l, u, v)` on the scan line; indexing outside the list raises. -/
def binarySearch (d : Dir) (rs : List Rect) (v : Int) : Nat → Nat → Nat → Option (Option Rect)
  | 0, _, _ => none
  | fuel + 1, l, u =>
    if l = u then some none
    else if l + 1 = u then
      match rs[l]? with
      | none => none
      | some r => if r.lo d ≤ v ∧ v ≤ r.hi d then some (some r) else some none
    else
      let m := (l + u + 1) / 2
      match rs[m]? with
      | none => none
      | some r => if r.lo d ≤ v then binarySearch d rs v fuel m u else binarySearch d rs v fuel l m

/-- `drc.py:192-218`, `_find_rect_covering_via` on the scan line `rs` of the metal, which has the centre line of the
via; `c2a` is twice the centre of the via along the metal. The recursion halves the interval, so the length is
enough fuel (`C17_terminates`). -/
def findCovering (d : Dir) (rs : List Rect) (via : Rect) : Option (Option Rect) :=
  binarySearch d rs ((via.lo d + via.hi d).fdiv 2) (rs.length + 1) 0 rs.length

/-- `drc.py:152-162`, `check_single_metal`: `some true` means that an error is reported. -/
def checkSingleMetal (d : Dir) (rs : List Rect) (via : Rect) (enc : Int) : Option Bool :=
  (findCovering d rs via).map fun res =>
    match res with
    | none => true
    | some m => decide (m.lo d > via.lo d - enc) || decide (m.hi d < via.hi d + enc)

/-- `drc.py:106-111`: the new value of `count`. -/
def nextCount (prev : Option Int) (count : Nat) (idx : Int) : Nat :=
  match prev with
  | none => 1
  | some p => if idx - p = 1 then count + 1 else 0

/-- `drc.py:103-114` (and `128-139`): the loop with `idx_prev` and `count`; `true` entries are reports. -/
def adjacentLoop (k : Nat) : Option Int → Nat → List Int → List Bool
  | _, _, [] => []
  | prev, count, idx :: rest =>
    decide (nextCount prev count idx > k) :: adjacentLoop k (some idx) (nextCount prev count idx) rest

/-- Whether the list of track numbers gives a report. -/
def adjacentError (k : Nat) (idxs : List Int) : Bool := (adjacentLoop k none 0 idxs).any id

/-- `drc.py:104-105`: the number used for a via is the first component of `inverseBounds` of its centre. -/
def viaIndex {α : Type} (g : Verif.Grid.Grid α) (d : Dir) (r : Rect) : Option Int :=
  (g.inverseBounds ((r.lo d + r.hi d).fdiv 2)).map fun b => b.1.1

/-- `drc.py:99-114`: the vertical check of one via scan line. -/
def checkMaxAdjacent {α : Type} (g : Verif.Grid.Grid α) (d : Dir) (k : Nat) (rs : List Rect) : Option Bool :=
  (rs.mapM (viaIndex g d)).map (adjacentError k)

/-- `drc.py:71-81`: vertical via spacing on one scan line, and `drc.py:90-97` with rectangles sorted by `x0`
on one row: neighbours with a gap below the required space. -/
def viaSpaceErrors (d : Dir) (space : Int) : List Rect → List (Rect × Rect)
  | r0 :: r1 :: rs =>
    if r0.hi d < r1.lo d ∧ r0.hi d + space > r1.lo d then (r0, r1) :: viaSpaceErrors d space (r1 :: rs)
    else viaSpaceErrors d space (r1 :: rs)
  | _ => []

/-- `drc.py:183-190`, `_check_adjacent_metals` for two neighbouring tracks. -/
def attackerErrors (o : Dir) (dist : Int) (v0 v1 : List Rect) : List (Rect × Rect) :=
  v0.flatMap fun r0 => (v1.filter fun r1 =>
    decide (0 < r1.lo o - r0.hi o) && decide (r1.lo o - r0.hi o ≤ dist)).map fun r1 => (r0, r1)

end Verif.Drc

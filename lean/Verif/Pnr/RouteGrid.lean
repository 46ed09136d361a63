import Verif.Pnr.AStar
import Mathlib.Tactic.Linarith

/-!
# The grid of the detailed router (C115)

The constructor of `Grid` from the tiles of the global route (`Grid.cpp` 3140-3555): for each layer and each row of tiles it lays the
nodes on the crossings with the tracks of the layers beside, connects the nodes of a track to the ones before, and connects nodes of
neighbouring layers at the same point. The rows of tiles (steps 4 and 5, 3185-3249) are a parameter, as are the rules of the layers.
-/

namespace Verif.RouteGrid
open Verif.AStar (Vertex Grid Rules Sound put)

/-! ## The code -/

/-- What is read of `drc_info` and `grid_scale`; `direct` is 0 for vertical and 1 for horizontal layers. -/
structure Tech where
  layerNo : Nat
  direct : Nat → Int
  unitX : Nat → Int
  unitY : Nat → Int
  offset : Nat → Int
  scale : Int

/-- First and last tile of a row of tiles: middle, width and height. -/
structure Row where
  x1 : Int
  x2 : Int
  y1 : Int
  y2 : Int
  w1 : Int
  w2 : Int
  h1 : Int
  h2 : Int

/-- `x_unit` and `y_unit` (3165-3183). -/
def xUnit (t : Tech) (i : Nat) : Int := if t.direct i = 0 then t.unitX i * t.scale else 0
def yUnit (t : Tech) (i : Nat) : Int := if t.direct i = 1 then t.unitY i * t.scale else 0

/-- `int(ceil(double(lo - offset) / unit)) * unit + offset` (3287, 3293, ...). -/
def firstOn (lo offset unit : Int) : Int := -Int.fdiv (-(lo - offset)) unit * unit + offset

/-- A loop `for (Y = lo; Y <= hi; Y += unit)` (3298, ...), after `n` more rounds. -/
def stepsFrom (hi unit : Int) : Nat → Int → List Int
  | 0, _ => []
  | n + 1, y => if y ≤ hi then y :: stepsFrom hi unit n (y + unit) else []

/-- The places of the tracks of a layer between `lo` and `hi`; with a unit that is not positive the division fails or the loop does not
end. There are no more than `hi - first + 1` rounds. -/
def steps (lo hi offset unit : Int) : Option (List Int) :=
  if unit ≤ 0 then none
  else some (stepsFrom hi unit (hi - firstOn lo offset unit + 1).toNat (firstOn lo offset unit))

/-- `std::set<int>::insert`. -/
def insert (y : Int) : List Int → List Int
  | [] => [y]
  | z :: l => if y < z then y :: z :: l else if y = z then z :: l else z :: insert y l

/-- `adj_layer_y` (3292-3330) and `adj_layer_x` (3413-3445): the places of the tracks of the layers beside. `unit` is `y_unit` or
`x_unit`; a layer that does not exist is read if there is only one. -/
def crossings (t : Tech) (unit : Nat → Int) (i : Nat) (lo hi : Int) : Option (List Int) :=
  if i = 0 then (if t.layerNo ≤ 1 then none else (steps lo hi (t.offset 1) (unit 1)).map (fun l => l.foldr insert []))
  else if i + 1 = t.layerNo then (steps lo hi (t.offset (i - 1)) (unit (i - 1))).map (fun l => l.foldr insert [])
  else match steps lo hi (t.offset (i - 1)) (unit (i - 1)), steps lo hi (t.offset (i + 1)) (unit (i + 1)) with
    | some a, some b => some ((a ++ b).foldr insert [])
    | _, _ => none

/-- `pmark` (3344-3362, 3459-3477). -/
def marked (t : Tech) (unit : Nat → Int) (i : Nat) (y : Int) : Bool :=
  if i = 0 then true
  else if i + 1 = t.layerNo then true
  else decide (Int.tmod y (unit (i - 1)) = t.offset (i - 1)) || decide (Int.tmod y (unit (i + 1)) = t.offset (i + 1))

/-- The grid in the making: the nodes and `vertices_total_map`, an entry of which stays when it is inserted again. -/
structure St where
  size : Nat
  vert : Nat → Vertex
  places : List ((Nat × Int × Int) × Nat)

/-- Place of a vertex along and across the direction of its layer. -/
def along (hor : Bool) (v : Vertex) : Int := if hor then v.x else v.y
def across (hor : Bool) (v : Vertex) : Int := if hor then v.y else v.x

/-- The loop `for (w = tmpv.index - 1; w >= nb_start; w--)` (3393-3403, 3508-3518), from `w - 1` on. -/
def scan (vert : Nat → Vertex) (hor : Bool) (ln y : Int) (start : Nat) : Nat → Option Nat
  | 0 => none
  | w + 1 =>
    if w < start then none
    else if across hor (vert w) = ln then (if 1 ≤ y - along hor (vert w) then some w else scan vert hor ln y start w)
    else none

/-- A new vertex (3371-3388, 3486-3503). -/
def fresh (i : Nat) (hor : Bool) (ln y : Int) : Vertex :=
  { x := if hor then y else ln, y := if hor then ln else y, metal := i, active := true, viaUp := true, viaDown := true,
    north := [], south := [], east := [], west := [], up := none, down := none }

/-- One vertex (3343-3412, 3458-3527), with `nb_start`. -/
def addNode (t : Tech) (unit : Nat → Int) (i : Nat) (hor : Bool) (ln : Int) (s : St × Option Nat) (y : Int) : St × Option Nat :=
  if marked t unit i y then
    let p := (i, (fresh i hor ln y).x, (fresh i hor ln y).y)
    match s.2 with
    | none => (⟨s.1.size + 1, put s.1.vert s.1.size (fresh i hor ln y), s.1.places ++ [(p, s.1.size)]⟩, some s.1.size)
    | some start =>
      match scan s.1.vert hor ln y start s.1.size with
      | none => (⟨s.1.size + 1, put s.1.vert s.1.size (fresh i hor ln y), s.1.places ++ [(p, s.1.size)]⟩, some start)
      | some w =>
        let v := fresh i hor ln y
        let v' := if hor then { v with west := [w] } else { v with south := [w] }
        let u := s.1.vert w
        let u' := if hor then { u with east := u.east ++ [s.1.size] } else { u with north := u.north ++ [s.1.size] }
        (⟨s.1.size + 1, put (put s.1.vert w u') s.1.size v', s.1.places ++ [(p, s.1.size)]⟩, some start)
  else s

/-- One track (3333-3413, 3448-3528). -/
def addTrack (t : Tech) (unit : Nat → Int) (i : Nat) (hor : Bool) (ys : List Int) (s : St) (ln : Int) : St :=
  (ys.foldl (addNode t unit i hor ln) (s, none)).1

/-- One row of tiles (3258-3534). -/
def addRow (t : Tech) (llx lly urx ury : Int) (i : Nat) (s : St) (q : Row) : Option St :=
  let x0 := max (q.x1 - Int.tdiv q.w1 2) llx
  let y0 := max (q.y1 - Int.tdiv q.h1 2) lly
  let x3 := min (q.x2 + Int.tdiv q.w2 2) urx
  let y3 := min (q.y2 + Int.tdiv q.h2 2) ury
  if t.direct i = 0 then
    if q.x1 ≠ q.x2 then some s
    else match crossings t (yUnit t) i y0 y3, steps x0 x3 (t.offset i) (xUnit t i) with
      | some ys, some xs => some (xs.foldl (addTrack t (yUnit t) i false ys) s)
      | _, _ => none
  else if t.direct i = 1 then
    if q.y1 ≠ q.y2 then some s
    else match crossings t (xUnit t) i x0 x3, steps y0 y3 (t.offset i) (yUnit t i) with
      | some xs, some ys => some (ys.foldl (addTrack t (xUnit t) i true xs) s)
      | _, _ => none
  else some s

/-- One layer (3252-3537); the result has `Start_index_metal_vertices` and one more than `End_index_metal_vertices` of the layers. -/
def addLayer (t : Tech) (llx lly urx ury : Int) (rows : Nat → List Row) (s : St × List (Nat × Nat × Nat)) (i : Nat) :
    Option (St × List (Nat × Nat × Nat)) :=
  if t.layerNo ≤ i then none
  else match (rows i).foldlM (addRow t llx lly urx ury i) s.1 with
    | none => none
    | some s' => some (s', s.2 ++ [(i, s.1.size, s'.size)])

/-- `vertices_total_map.at(k).find` . -/
def find (places : List ((Nat × Int × Int) × Nat)) (k : Nat) (x y : Int) : Option Nat :=
  (places.find? (fun e => decide (e.1 = (k, x, y)))).map (fun e => e.2)

/-- One round of the loop of step 7 (3543-3551). -/
def linkNode (places : List ((Nat × Int × Int) × Nat)) (k : Nat) (vert : Nat → Vertex) (i : Nat) : Nat → Vertex :=
  match find places (k + 1) (vert i).x (vert i).y with
  | none => vert
  | some n => put (put vert i { vert i with up := some n }) n { put vert i { vert i with up := some n } n with down := some i }

/-- Step 7 for one layer (3541-3552). -/
def linkLayer (places : List ((Nat × Int × Int) × Nat)) (high : Nat) (vert : Nat → Vertex) (e : Nat × Nat × Nat) : Nat → Vertex :=
  if e.1 < high then (List.range' e.2.1 (e.2.2 - e.2.1)).foldl (linkNode places e.1) vert else vert

/-- The vertices before step 7. -/
def nodes (t : Tech) (llx lly urx ury : Int) (rows : Nat → List Row) (low high : Nat) : Option (St × List (Nat × Nat × Nat)) :=
  (List.range' low (high + 1 - low)).foldlM (addLayer t llx lly urx ury rows) (⟨0, fun _ => fresh 0 false 0 0, []⟩, [])

/-- The constructor (3140-3555); the centre is computed elsewhere. -/
def build (t : Tech) (llx lly urx ury : Int) (rows : Nat → List Row) (low high : Nat) (cx cy : Int) : Option Grid :=
  match nodes t llx lly urx ury rows low high with
  | none => none
  | some (s, ranges) => some ⟨s.size, ranges.foldl (linkLayer s.places high) s.vert, cx, cy⟩

/-! ## What the property says -/

/-- A place on a track of the layer. -/
def OnTrack (t : Tech) (m : Nat) (x y : Int) : Prop :=
  (t.direct m = 0 ∧ (t.unitX m * t.scale) ∣ x - t.offset m) ∨ (t.direct m = 1 ∧ (t.unitY m * t.scale) ∣ y - t.offset m)

/-- A node as it should be: on a layer that is asked for, within the box, on a track of its layer and on a track of a layer beside,
free, and free for vias. -/
structure Good (t : Tech) (llx lly urx ury : Int) (low high : Nat) (v : Vertex) : Prop where
  layer : low ≤ v.metal ∧ v.metal ≤ high
  box : llx ≤ v.x ∧ v.x ≤ urx ∧ lly ≤ v.y ∧ v.y ≤ ury
  own : OnTrack t v.metal v.x v.y
  beside : ∃ m, (m + 1 = v.metal ∨ m = v.metal + 1) ∧ m < t.layerNo ∧ OnTrack t m v.x v.y
  free : v.active = true ∧ v.viaUp = true ∧ v.viaDown = true

/-! ## Proofs -/

theorem put_eq {α : Type} (f : Nat → α) (i : Nat) (a : α) : put f i a i = a := by simp [put]
theorem put_ne {α : Type} (f : Nat → α) {i j : Nat} (a : α) (h : j ≠ i) : put f i a j = f j := by simp [put, h]

/-- The part of a vertex which never changes. -/
def Same (u v : Vertex) : Prop :=
  u.x = v.x ∧ u.y = v.y ∧ u.metal = v.metal ∧ u.active = v.active ∧ u.viaUp = v.viaUp ∧ u.viaDown = v.viaDown

/-- Beside each other on the layer: the conditions of `Sound` on these. -/
structure Beside (hz : Nat → Bool) (size : Nat) (vert : Nat → Vertex) : Prop where
  north : ∀ v n, v < size → n ∈ (vert v).north → n = v + 1 ∧ n < size ∧ (vert n).metal = (vert v).metal
    ∧ hz (vert v).metal = false ∧ (vert n).x = (vert v).x ∧ (vert v).y < (vert n).y
  south : ∀ v n, v < size → n ∈ (vert v).south → v = n + 1 ∧ (vert n).metal = (vert v).metal
    ∧ hz (vert v).metal = false ∧ (vert n).x = (vert v).x ∧ (vert n).y < (vert v).y
  east : ∀ v n, v < size → n ∈ (vert v).east → n = v + 1 ∧ n < size ∧ (vert n).metal = (vert v).metal
    ∧ hz (vert v).metal = true ∧ (vert n).y = (vert v).y ∧ (vert v).x < (vert n).x
  west : ∀ v n, v < size → n ∈ (vert v).west → v = n + 1 ∧ (vert n).metal = (vert v).metal
    ∧ hz (vert v).metal = true ∧ (vert n).y = (vert v).y ∧ (vert n).x < (vert v).x

/-- Adding a vertex that is not beside any. -/
theorem beside_add {hz : Nat → Bool} {size : Nat} {vert : Nat → Vertex} (h : Beside hz size vert) (i : Nat) (hor : Bool) (ln y : Int) :
    Beside hz (size + 1) (put vert size (fresh i hor ln y)) := by
  constructor
  · intro v n hv hn
    by_cases e : v = size
    · rw [e, put_eq] at hn; simp [fresh] at hn
    · rw [put_ne _ _ e] at hn ⊢
      obtain ⟨k1, k2, k3⟩ := h.north v n (by omega) hn
      rw [put_ne _ _ (by omega : n ≠ size)]
      exact ⟨k1, by omega, k3⟩
  · intro v n hv hn
    by_cases e : v = size
    · rw [e, put_eq] at hn; simp [fresh] at hn
    · rw [put_ne _ _ e] at hn ⊢
      obtain ⟨k1, k3⟩ := h.south v n (by omega) hn
      rw [put_ne _ _ (by omega : n ≠ size)]
      exact ⟨k1, k3⟩
  · intro v n hv hn
    by_cases e : v = size
    · rw [e, put_eq] at hn; simp [fresh] at hn
    · rw [put_ne _ _ e] at hn ⊢
      obtain ⟨k1, k2, k3⟩ := h.east v n (by omega) hn
      rw [put_ne _ _ (by omega : n ≠ size)]
      exact ⟨k1, by omega, k3⟩
  · intro v n hv hn
    by_cases e : v = size
    · rw [e, put_eq] at hn; simp [fresh] at hn
    · rw [put_ne _ _ e] at hn ⊢
      obtain ⟨k1, k3⟩ := h.west v n (by omega) hn
      rw [put_ne _ _ (by omega : n ≠ size)]
      exact ⟨k1, k3⟩

/-- Listing more nodes beside a vertex. -/
theorem beside_congr {hz : Nat → Bool} {size : Nat} {vert vert' : Nat → Vertex} (h : Beside hz size vert)
    (hs : ∀ v, v < size → Same (vert' v) (vert v))
    (hn : ∀ v n, v < size → n ∈ (vert' v).north → n ∈ (vert v).north ∨ (n = v + 1 ∧ n < size ∧ (vert n).metal = (vert v).metal
      ∧ hz (vert v).metal = false ∧ (vert n).x = (vert v).x ∧ (vert v).y < (vert n).y))
    (hso : ∀ v n, v < size → n ∈ (vert' v).south → n ∈ (vert v).south ∨ (v = n + 1 ∧ (vert n).metal = (vert v).metal
      ∧ hz (vert v).metal = false ∧ (vert n).x = (vert v).x ∧ (vert n).y < (vert v).y))
    (he : ∀ v n, v < size → n ∈ (vert' v).east → n ∈ (vert v).east ∨ (n = v + 1 ∧ n < size ∧ (vert n).metal = (vert v).metal
      ∧ hz (vert v).metal = true ∧ (vert n).y = (vert v).y ∧ (vert v).x < (vert n).x))
    (hw : ∀ v n, v < size → n ∈ (vert' v).west → n ∈ (vert v).west ∨ (v = n + 1 ∧ (vert n).metal = (vert v).metal
      ∧ hz (vert v).metal = true ∧ (vert n).y = (vert v).y ∧ (vert n).x < (vert v).x)) : Beside hz size vert' := by
  constructor
  · intro v n hv hm
    obtain ⟨k1, k2, k3⟩ : n = v + 1 ∧ n < size ∧ (vert n).metal = (vert v).metal
      ∧ hz (vert v).metal = false ∧ (vert n).x = (vert v).x ∧ (vert v).y < (vert n).y := (hn v n hv hm).elim (h.north v n hv) id
    obtain ⟨a1, a2, a3, _⟩ := hs v hv
    obtain ⟨b1, b2, b3, _⟩ := hs n k2
    rw [a1, a2, a3, b1, b2, b3]
    exact ⟨k1, k2, k3⟩
  · intro v n hv hm
    obtain ⟨k1, k3⟩ : v = n + 1 ∧ (vert n).metal = (vert v).metal
      ∧ hz (vert v).metal = false ∧ (vert n).x = (vert v).x ∧ (vert n).y < (vert v).y := (hso v n hv hm).elim (h.south v n hv) id
    obtain ⟨a1, a2, a3, _⟩ := hs v hv
    obtain ⟨b1, b2, b3, _⟩ := hs n (by omega)
    rw [a1, a2, a3, b1, b2, b3]
    exact ⟨k1, k3⟩
  · intro v n hv hm
    obtain ⟨k1, k2, k3⟩ : n = v + 1 ∧ n < size ∧ (vert n).metal = (vert v).metal
      ∧ hz (vert v).metal = true ∧ (vert n).y = (vert v).y ∧ (vert v).x < (vert n).x := (he v n hv hm).elim (h.east v n hv) id
    obtain ⟨a1, a2, a3, _⟩ := hs v hv
    obtain ⟨b1, b2, b3, _⟩ := hs n k2
    rw [a1, a2, a3, b1, b2, b3]
    exact ⟨k1, k2, k3⟩
  · intro v n hv hm
    obtain ⟨k1, k3⟩ : v = n + 1 ∧ (vert n).metal = (vert v).metal
      ∧ hz (vert v).metal = true ∧ (vert n).y = (vert v).y ∧ (vert n).x < (vert v).x := (hw v n hv hm).elim (h.west v n hv) id
    obtain ⟨a1, a2, a3, _⟩ := hs v hv
    obtain ⟨b1, b2, b3, _⟩ := hs n (by omega)
    rw [a1, a2, a3, b1, b2, b3]
    exact ⟨k1, k3⟩

/-- What holds while the nodes are laid. -/
structure Inv (t : Tech) (llx lly urx ury : Int) (low high : Nat) (s : St) : Prop where
  beside : Beside (fun m => decide (t.direct m = 1)) s.size s.vert
  good : ∀ v, v < s.size → Good t llx lly urx ury low high (s.vert v)
  alone : ∀ v, v < s.size → (s.vert v).up = none ∧ (s.vert v).down = none
  sound : ∀ e ∈ s.places, e.2 < s.size ∧ (s.vert e.2).metal = e.1.1 ∧ (s.vert e.2).x = e.1.2.1 ∧ (s.vert e.2).y = e.1.2.2
  all : ∀ v, v < s.size → ∃ e ∈ s.places, e.1 = ((s.vert v).metal, (s.vert v).x, (s.vert v).y)

theorem scan_top {vert : Nat → Vertex} {hor : Bool} {ln y : Int} {start size : Nat} (h0 : start < size)
    (h1 : across hor (vert (size - 1)) = ln) (h2 : along hor (vert (size - 1)) < y) : scan vert hor ln y start size = some (size - 1) := by
  obtain ⟨w, rfl⟩ : ∃ w, size = w + 1 := ⟨size - 1, by omega⟩
  simp only [Nat.add_sub_cancel] at h1 h2 ⊢
  unfold scan
  rw [if_neg (by omega), if_pos h1, if_pos (by omega)]

/-- More nodes, all on the layer `i`. -/
def Grows (i : Nat) (s s' : St) : Prop :=
  s.size ≤ s'.size ∧ (∀ v, v < s.size → (s'.vert v).metal = (s.vert v).metal) ∧ ∀ v, s.size ≤ v → v < s'.size → (s'.vert v).metal = i

theorem grows_refl (i : Nat) (s : St) : Grows i s s := ⟨Nat.le_refl _, fun _ _ => rfl, fun _ _ _ => by omega⟩

theorem grows_trans {i : Nat} {a b c : St} (h : Grows i a b) (h' : Grows i b c) : Grows i a c := by
  refine ⟨Nat.le_trans h.1 h'.1, fun v hv => (h'.2.1 v (Nat.lt_of_lt_of_le hv h.1)).trans (h.2.1 v hv), fun v h1 h2 => ?_⟩
  by_cases k : v < b.size
  · exact (h'.2.1 v k).trans (h.2.2 v h1 k)
  · exact h'.2.2 v (by omega) h2

/-- What holds within a track, with the places still to come. -/
def InTrack (i : Nat) (hor : Bool) (ln : Int) (ys : List Int) (s : St × Option Nat) : Prop :=
  s.2 = none ∨ ∃ start, s.2 = some start ∧ start < s.1.size ∧ (s.1.vert (s.1.size - 1)).metal = i
    ∧ across hor (s.1.vert (s.1.size - 1)) = ln ∧ ∀ y ∈ ys, along hor (s.1.vert (s.1.size - 1)) < y

theorem inv_fresh {t : Tech} {llx lly urx ury : Int} {low high : Nat} {s : St} (h : Inv t llx lly urx ury low high s) {i : Nat} {hor : Bool}
    {ln y : Int} (hg : Good t llx lly urx ury low high (fresh i hor ln y)) :
    Inv t llx lly urx ury low high ⟨s.size + 1, put s.vert s.size (fresh i hor ln y),
      s.places ++ [((i, (fresh i hor ln y).x, (fresh i hor ln y).y), s.size)]⟩ := by
  constructor
  · exact beside_add h.beside i hor ln y
  · intro v hv
    have hv : v < s.size + 1 := hv
    show Good _ _ _ _ _ _ _ (put s.vert s.size (fresh i hor ln y) v)
    by_cases e : v = s.size
    · rw [e, put_eq]; exact hg
    · rw [put_ne _ _ e]; exact h.good v (by omega)
  · intro v hv
    have hv : v < s.size + 1 := hv
    show (put s.vert s.size (fresh i hor ln y) v).up = none ∧ (put s.vert s.size (fresh i hor ln y) v).down = none
    by_cases e : v = s.size
    · rw [e, put_eq]; exact ⟨rfl, rfl⟩
    · rw [put_ne _ _ e]; exact h.alone v (by omega)
  · intro e he
    show e.2 < s.size + 1 ∧ (put s.vert s.size (fresh i hor ln y) e.2).metal = e.1.1 ∧ (put s.vert s.size (fresh i hor ln y) e.2).x = e.1.2.1
      ∧ (put s.vert s.size (fresh i hor ln y) e.2).y = e.1.2.2
    rcases List.mem_append.1 he with he | he
    · obtain ⟨k1, k2⟩ := h.sound e he
      rw [put_ne _ _ (by omega : e.2 ≠ s.size)]
      exact ⟨by omega, k2⟩
    · rw [List.mem_singleton.1 he]
      simp only [put_eq]
      exact ⟨by omega, rfl, trivial, trivial⟩
  · intro v hv
    have hv : v < s.size + 1 := hv
    show ∃ e ∈ s.places ++ [((i, (fresh i hor ln y).x, (fresh i hor ln y).y), s.size)],
      e.1 = ((put s.vert s.size (fresh i hor ln y) v).metal, (put s.vert s.size (fresh i hor ln y) v).x,
        (put s.vert s.size (fresh i hor ln y) v).y)
    by_cases e : v = s.size
    · rw [e, put_eq]
      exact ⟨_, List.mem_append_right _ (List.mem_singleton.2 rfl), rfl⟩
    · rw [put_ne _ _ e]
      obtain ⟨q, q1, q2⟩ := h.all v (by omega)
      exact ⟨q, List.mem_append_left _ q1, q2⟩

theorem inv_congr {t : Tech} {llx lly urx ury : Int} {low high : Nat} {s : St} (h : Inv t llx lly urx ury low high s) {vert' : Nat → Vertex}
    (hs : ∀ v, v < s.size → Same (vert' v) (s.vert v)) (hl : ∀ v, v < s.size → (vert' v).up = (s.vert v).up ∧ (vert' v).down = (s.vert v).down)
    (hb : Beside (fun m => decide (t.direct m = 1)) s.size vert') : Inv t llx lly urx ury low high ⟨s.size, vert', s.places⟩ := by
  constructor
  · exact hb
  · intro v hv
    obtain ⟨a1, a2, a3, a4, a5, a6⟩ := hs v hv
    obtain ⟨b1, b2, b3, b4, b5⟩ := h.good v hv
    constructor
    · show low ≤ (vert' v).metal ∧ _
      rw [a3]; exact b1
    · show llx ≤ (vert' v).x ∧ (vert' v).x ≤ urx ∧ lly ≤ (vert' v).y ∧ (vert' v).y ≤ ury
      rw [a1, a2]; exact b2
    · show OnTrack t (vert' v).metal (vert' v).x (vert' v).y
      rw [a1, a2, a3]; exact b3
    · show ∃ m, (m + 1 = (vert' v).metal ∨ m = (vert' v).metal + 1) ∧ m < t.layerNo ∧ OnTrack t m (vert' v).x (vert' v).y
      rw [a1, a2, a3]; exact b4
    · show (vert' v).active = true ∧ (vert' v).viaUp = true ∧ (vert' v).viaDown = true
      rw [a4, a5, a6]; exact b5
  · intro v hv
    show (vert' v).up = none ∧ (vert' v).down = none
    rw [(hl v hv).1, (hl v hv).2]
    exact h.alone v hv
  · intro e he
    obtain ⟨k1, k2⟩ := h.sound e he
    obtain ⟨a1, a2, a3, _⟩ := hs e.2 k1
    show e.2 < s.size ∧ (vert' e.2).metal = e.1.1 ∧ (vert' e.2).x = e.1.2.1 ∧ (vert' e.2).y = e.1.2.2
    rw [a1, a2, a3]
    exact ⟨k1, k2⟩
  · intro v hv
    obtain ⟨a1, a2, a3, _⟩ := hs v hv
    show ∃ e ∈ s.places, e.1 = ((vert' v).metal, (vert' v).x, (vert' v).y)
    rw [a1, a2, a3]
    exact h.all v hv

theorem inv_node {t : Tech} {llx lly urx ury : Int} {low high : Nat} {unit : Nat → Int} {i : Nat} {hor : Bool} {ln y : Int} {ys : List Int}
    {s : St × Option Nat} (h : Inv t llx lly urx ury low high s.1) (hi : InTrack i hor ln (y :: ys) s) (hd : decide (t.direct i = 1) = hor)
    (hsort : ∀ z ∈ ys, y < z) (hg : marked t unit i y = true → Good t llx lly urx ury low high (fresh i hor ln y)) :
    Inv t llx lly urx ury low high (addNode t unit i hor ln s y).1 ∧ InTrack i hor ln ys (addNode t unit i hor ln s y)
      ∧ Grows i s.1 (addNode t unit i hor ln s y).1 := by
  unfold addNode
  by_cases hm : marked t unit i y = true
  · rw [if_pos hm]
    have hf := inv_fresh h (hg hm)
    have hmet : (fresh i hor ln y).metal = i := rfl
    have hac : across hor (fresh i hor ln y) = ln := by cases hor <;> rfl
    have hal : along hor (fresh i hor ln y) = y := by cases hor <;> rfl
    rcases hi with hi | ⟨start, hi, h1, h2, h3, h4⟩
    · simp only [hi]
      refine ⟨hf, Or.inr ⟨s.1.size, rfl, Nat.lt_succ_self _, ?_⟩, Nat.le_succ _, ?_, ?_⟩
      · simp only [Nat.add_sub_cancel, put_eq]
        exact ⟨hmet, hac, by rw [hal]; exact hsort⟩
      · intro v hv
        simp only [put_ne _ _ (by omega : v ≠ s.1.size)]
      · intro v h1 h2
        have h2 : v < s.1.size + 1 := h2
        rw [show v = s.1.size by omega]
        simp only [put_eq]
        exact hmet
    · have hsc := scan_top (vert := s.1.vert) (hor := hor) (ln := ln) (y := y) h1 h3 (h4 y List.mem_cons_self)
      simp only [hi, hsc]
      generalize hz : s.1.size = z at *
      obtain ⟨w, rfl⟩ : ∃ w, z = w + 1 := ⟨z - 1, by omega⟩
      simp only [Nat.add_sub_cancel] at h2 h3 h4 hsc ⊢
      refine ⟨?_, Or.inr ⟨start, rfl, by simp only; omega, ?_⟩, by rw [hz]; exact Nat.le_succ _, ?_, ?_⟩
      · -- compare with the grid without the new connection
        have hle := h4 y List.mem_cons_self
        have key := inv_congr hf (vert' := put (put s.1.vert w
            (if hor = true then { s.1.vert w with east := (s.1.vert w).east ++ [w + 1] }
              else { s.1.vert w with north := (s.1.vert w).north ++ [w + 1] })) (w + 1)
            (if hor = true then { fresh i hor ln y with west := [w] } else { fresh i hor ln y with south := [w] })) ?_ ?_ ?_
        · exact key
        · intro v hv
          have hv : v < w + 1 + 1 := hv
          show Same _ (put s.1.vert (w + 1) (fresh i hor ln y) v)
          by_cases e : v = w + 1
          · rw [e, put_eq, put_eq]
            cases hor <;> exact ⟨rfl, rfl, rfl, rfl, rfl, rfl⟩
          · rw [put_ne _ _ e, put_ne _ _ e]
            by_cases e' : v = w
            · rw [e', put_eq]
              cases hor <;> exact ⟨rfl, rfl, rfl, rfl, rfl, rfl⟩
            · rw [put_ne _ _ e']
              exact ⟨rfl, rfl, rfl, rfl, rfl, rfl⟩
        · intro v hv
          show _ = (put s.1.vert (w + 1) (fresh i hor ln y) v).up ∧ _ = (put s.1.vert (w + 1) (fresh i hor ln y) v).down
          by_cases e : v = w + 1
          · rw [e, put_eq, put_eq]
            cases hor <;> exact ⟨rfl, rfl⟩
          · rw [put_ne _ _ e, put_ne _ _ e]
            by_cases e' : v = w
            · rw [e', put_eq]
              cases hor <;> exact ⟨rfl, rfl⟩
            · rw [put_ne _ _ e']
              exact ⟨rfl, rfl⟩
        · have hb : Beside (fun m => decide (t.direct m = 1)) (w + 1 + 1) (put s.1.vert (w + 1) (fresh i hor ln y)) := hf.beside
          show Beside (fun m => decide (t.direct m = 1)) (w + 1 + 1) _
          have hww : put s.1.vert (w + 1) (fresh i hor ln y) w = s.1.vert w := put_ne _ _ (by omega)
          have hwn : put s.1.vert (w + 1) (fresh i hor ln y) (w + 1) = fresh i hor ln y := put_eq _ _ _
          refine beside_congr hb ?_ ?_ ?_ ?_ ?_
          · intro v hv
            by_cases e : v = w + 1
            · rw [e, put_eq, put_eq]
              cases hor <;> exact ⟨rfl, rfl, rfl, rfl, rfl, rfl⟩
            · rw [put_ne _ _ e, put_ne _ _ e]
              by_cases e' : v = w
              · rw [e', put_eq]
                cases hor <;> exact ⟨rfl, rfl, rfl, rfl, rfl, rfl⟩
              · rw [put_ne _ _ e']
                exact ⟨rfl, rfl, rfl, rfl, rfl, rfl⟩
          · intro v n hv hn
            by_cases e : v = w + 1
            · rw [e, put_eq] at hn
              cases hor <;> simp [fresh] at hn
            · rw [put_ne _ _ e] at hn ⊢
              by_cases e' : v = w
              · rw [e', put_eq] at hn
                rw [e']
                cases hor with
                | true => exact Or.inl hn
                | false =>
                  rcases List.mem_append.1 hn with hn | hn
                  · exact Or.inl hn
                  · right
                    rw [List.mem_singleton.1 hn, hwn]
                    refine ⟨rfl, Nat.lt_succ_self _, by rw [h2]; rfl, by rw [h2]; exact hd, ?_, ?_⟩
                    · exact h3.symm
                    · exact hle
              · rw [put_ne _ _ e'] at hn
                exact Or.inl hn
          · intro v n hv hn
            by_cases e : v = w + 1
            · rw [e, put_eq] at hn
              cases hor with
              | true => simp [fresh] at hn
              | false =>
                right
                have hn : n = w := by simpa [fresh] using hn
                rw [hn, e, hww, hwn]
                exact ⟨rfl, by rw [h2]; rfl, hd, h3, hle⟩
            · rw [put_ne _ _ e] at hn ⊢
              by_cases e' : v = w
              · rw [e', put_eq] at hn
                rw [e']
                cases hor <;> exact Or.inl hn
              · rw [put_ne _ _ e'] at hn
                exact Or.inl hn
          · intro v n hv hn
            by_cases e : v = w + 1
            · rw [e, put_eq] at hn
              cases hor <;> simp [fresh] at hn
            · rw [put_ne _ _ e] at hn ⊢
              by_cases e' : v = w
              · rw [e', put_eq] at hn
                rw [e']
                cases hor with
                | false => exact Or.inl hn
                | true =>
                  rcases List.mem_append.1 hn with hn | hn
                  · exact Or.inl hn
                  · right
                    rw [List.mem_singleton.1 hn, hwn]
                    refine ⟨rfl, Nat.lt_succ_self _, by rw [h2]; rfl, by rw [h2]; exact hd, ?_, ?_⟩
                    · exact h3.symm
                    · exact hle
              · rw [put_ne _ _ e'] at hn
                exact Or.inl hn
          · intro v n hv hn
            by_cases e : v = w + 1
            · rw [e, put_eq] at hn
              cases hor with
              | false => simp [fresh] at hn
              | true =>
                right
                have hn : n = w := by simpa [fresh] using hn
                rw [hn, e, hww, hwn]
                exact ⟨rfl, by rw [h2]; rfl, hd, h3, hle⟩
            · rw [put_ne _ _ e] at hn ⊢
              by_cases e' : v = w
              · rw [e', put_eq] at hn
                rw [e']
                cases hor <;> exact Or.inl hn
              · rw [put_ne _ _ e'] at hn
                exact Or.inl hn
      · simp only [Nat.add_sub_cancel, put_eq]
        refine ⟨by cases hor <;> rfl, by rw [← hac]; cases hor <;> rfl, ?_⟩
        intro z hz'
        have : along hor (if hor = true then { fresh i hor ln y with west := [w] } else { fresh i hor ln y with south := [w] }) = y := by
          rw [← hal]; cases hor <;> rfl
        rw [this]
        exact hsort z hz'
      · intro v hv
        have hv : v < w + 1 := by omega
        simp only [put_ne _ _ (by omega : v ≠ w + 1)]
        by_cases e : v = w
        · rw [e, put_eq]; cases hor <;> rfl
        · rw [put_ne _ _ e]
      · intro v k1 k2
        have k2 : v < w + 1 + 1 := k2
        rw [show v = w + 1 by omega]
        simp only [put_eq]
        cases hor <;> rfl
  · rw [if_neg hm]
    refine ⟨h, ?_, grows_refl _ _⟩
    rcases hi with hi | ⟨start, hi, h1, h2, h3, h4⟩
    · exact Or.inl hi
    · exact Or.inr ⟨start, hi, h1, h2, h3, fun z hz => h4 z (List.mem_cons_of_mem _ hz)⟩

theorem inv_track {t : Tech} {llx lly urx ury : Int} {low high : Nat} {unit : Nat → Int} {i : Nat} {hor : Bool} {ln : Int}
    (hd : decide (t.direct i = 1) = hor) : ∀ {ys : List Int} {s : St × Option Nat}, Inv t llx lly urx ury low high s.1 →
    InTrack i hor ln ys s → ys.Pairwise (· < ·) → (∀ y ∈ ys, marked t unit i y = true → Good t llx lly urx ury low high (fresh i hor ln y)) →
    Inv t llx lly urx ury low high (ys.foldl (addNode t unit i hor ln) s).1 ∧ Grows i s.1 (ys.foldl (addNode t unit i hor ln) s).1
  | [], _, h, _, _, _ => ⟨h, grows_refl _ _⟩
  | y :: ys, s, h, hi, hs, hg => by
    rw [List.pairwise_cons] at hs
    obtain ⟨h1, h2, h3⟩ := inv_node (unit := unit) h hi hd hs.1 (hg y List.mem_cons_self)
    obtain ⟨h4, h5⟩ := inv_track hd h1 h2 hs.2 (fun z hz => hg z (List.mem_cons_of_mem _ hz))
    rw [List.foldl_cons]
    exact ⟨h4, grows_trans h3 h5⟩

theorem inv_tracks {t : Tech} {llx lly urx ury : Int} {low high : Nat} {unit : Nat → Int} {i : Nat} {hor : Bool} {ys : List Int}
    (hd : decide (t.direct i = 1) = hor) (hs : ys.Pairwise (· < ·)) : ∀ {lns : List Int} {s : St}, Inv t llx lly urx ury low high s →
    (∀ ln ∈ lns, ∀ y ∈ ys, marked t unit i y = true → Good t llx lly urx ury low high (fresh i hor ln y)) →
    Inv t llx lly urx ury low high (lns.foldl (addTrack t unit i hor ys) s) ∧ Grows i s (lns.foldl (addTrack t unit i hor ys) s)
  | [], _, h, _ => ⟨h, grows_refl _ _⟩
  | ln :: lns, s, h, hg => by
    obtain ⟨h1, h2⟩ := inv_track (unit := unit) (ln := ln) hd (s := (s, none)) h (Or.inl rfl) hs (hg ln List.mem_cons_self)
    obtain ⟨h3, h4⟩ := inv_tracks hd hs (lns := lns) (s := addTrack t unit i hor ys s ln) h1
      (fun z hz => hg z (List.mem_cons_of_mem _ hz))
    rw [List.foldl_cons]
    exact ⟨h3, grows_trans h2 h4⟩

/-! ### The places of the tracks -/

theorem firstOn_ge {lo offset unit : Int} (h : 0 < unit) : lo ≤ firstOn lo offset unit ∧ unit ∣ firstOn lo offset unit - offset := by
  unfold firstOn
  rw [Int.fdiv_eq_ediv_of_nonneg _ (by omega)]
  constructor
  · have h1 := Int.mul_ediv_add_emod (-(lo - offset)) unit
    have h2 := Int.emod_nonneg (-(lo - offset)) (by omega : unit ≠ 0)
    have h3 : -(-(lo - offset) / unit) * unit = -(unit * (-(lo - offset) / unit)) := by
      rw [Int.neg_mul, Int.mul_comm]
    rw [h3]
    omega
  · exact ⟨-(-(lo - offset) / unit), by rw [Int.mul_comm]; omega⟩

theorem stepsFrom_mem {hi unit offset : Int} : ∀ {n : Nat} {y z : Int}, 0 < unit → unit ∣ y - offset → z ∈ stepsFrom hi unit n y →
    y ≤ z ∧ z ≤ hi ∧ unit ∣ z - offset
  | 0, _, _, _, _, h => by simp [stepsFrom] at h
  | n + 1, y, z, hu, hd, h => by
    unfold stepsFrom at h
    by_cases hy : y ≤ hi
    · rw [if_pos hy] at h
      rcases List.mem_cons.1 h with h | h
      · rw [h]; exact ⟨Int.le_refl _, hy, hd⟩
      · obtain ⟨k1, k2, k3⟩ := stepsFrom_mem (offset := offset) hu (by
          have : y + unit - offset = (y - offset) + unit := by omega
          rw [this]
          exact Int.dvd_add hd (Int.dvd_refl _)) h
        exact ⟨by omega, k2, k3⟩
    · rw [if_neg hy] at h; simp at h

theorem steps_spec {lo hi offset unit : Int} {l : List Int} (h : steps lo hi offset unit = some l) :
    0 < unit ∧ ∀ z ∈ l, lo ≤ z ∧ z ≤ hi ∧ unit ∣ z - offset := by
  unfold steps at h
  by_cases hu : unit ≤ 0
  · rw [if_pos hu] at h; simp at h
  rw [if_neg hu] at h
  have hu : 0 < unit := by omega
  refine ⟨hu, ?_⟩
  intro z hz
  rw [← Option.some.inj h] at hz
  obtain ⟨k1, k2⟩ := firstOn_ge (lo := lo) (offset := offset) hu
  obtain ⟨j1, j2, j3⟩ := stepsFrom_mem hu k2 hz
  exact ⟨by omega, j2, j3⟩

theorem mem_insert {y z : Int} : ∀ {l : List Int}, z ∈ insert y l ↔ z = y ∨ z ∈ l
  | [] => by simp [insert]
  | a :: l => by
    unfold insert
    by_cases h1 : y < a
    · rw [if_pos h1]; simp
    · rw [if_neg h1]
      by_cases h2 : y = a
      · rw [if_pos h2, h2]; simp
      · rw [if_neg h2, List.mem_cons, mem_insert, List.mem_cons]
        tauto

theorem insert_sorted {y : Int} : ∀ {l : List Int}, l.Pairwise (· < ·) → (insert y l).Pairwise (· < ·)
  | [], _ => by simp [insert]
  | a :: l, h => by
    have h0 := h
    rw [List.pairwise_cons] at h
    unfold insert
    by_cases h1 : y < a
    · rw [if_pos h1, List.pairwise_cons]
      refine ⟨?_, h0⟩
      intro z hz
      rcases List.mem_cons.1 hz with hz | hz
      · rw [hz]; exact h1
      · have := h.1 z hz; omega
    · rw [if_neg h1]
      by_cases h2 : y = a
      · rw [if_pos h2]; exact h0
      · rw [if_neg h2, List.pairwise_cons]
        refine ⟨?_, insert_sorted h.2⟩
        intro z hz
        rcases mem_insert.1 hz with hz | hz
        · rw [hz]; omega
        · exact h.1 z hz

theorem foldr_insert (l : List Int) : (l.foldr insert []).Pairwise (· < ·) ∧ ∀ z, z ∈ l.foldr insert [] ↔ z ∈ l := by
  induction l with
  | nil => simp
  | cons a l ih =>
    rw [List.foldr_cons]
    refine ⟨insert_sorted ih.1, fun z => ?_⟩
    rw [mem_insert, ih.2, List.mem_cons]

theorem crossings_spec {t : Tech} {unit : Nat → Int} {i : Nat} {lo hi : Int} {l : List Int} (hi' : i < t.layerNo)
    (h : crossings t unit i lo hi = some l) : l.Pairwise (· < ·) ∧ ∀ z ∈ l, lo ≤ z ∧ z ≤ hi
      ∧ ∃ m, (m + 1 = i ∨ m = i + 1) ∧ m < t.layerNo ∧ 0 < unit m ∧ unit m ∣ z - t.offset m := by
  unfold crossings at h
  by_cases h0 : i = 0
  · rw [if_pos h0] at h
    by_cases h1 : t.layerNo ≤ 1
    · rw [if_pos h1] at h; simp at h
    rw [if_neg h1] at h
    obtain ⟨a, ha, e⟩ := Option.map_eq_some_iff.1 h
    obtain ⟨k1, k2⟩ := foldr_insert a
    rw [← e]
    refine ⟨k1, fun z hz => ?_⟩
    obtain ⟨j0, j⟩ := steps_spec ha
    obtain ⟨j1, j2, j3⟩ := j z ((k2 z).1 hz)
    exact ⟨j1, j2, 1, Or.inr (by omega), by omega, j0, j3⟩
  rw [if_neg h0] at h
  by_cases h1 : i + 1 = t.layerNo
  · rw [if_pos h1] at h
    obtain ⟨a, ha, e⟩ := Option.map_eq_some_iff.1 h
    obtain ⟨k1, k2⟩ := foldr_insert a
    rw [← e]
    refine ⟨k1, fun z hz => ?_⟩
    obtain ⟨j0, j⟩ := steps_spec ha
    obtain ⟨j1, j2, j3⟩ := j z ((k2 z).1 hz)
    exact ⟨j1, j2, i - 1, Or.inl (by omega), by omega, j0, j3⟩
  rw [if_neg h1] at h
  cases ha : steps lo hi (t.offset (i - 1)) (unit (i - 1)) with
  | none => rw [ha] at h; simp at h
  | some a =>
    cases hb : steps lo hi (t.offset (i + 1)) (unit (i + 1)) with
    | none => rw [ha, hb] at h; simp at h
    | some b =>
      rw [ha, hb] at h
      have e := Option.some.inj h
      obtain ⟨k1, k2⟩ := foldr_insert (a ++ b)
      rw [← e]
      refine ⟨k1, fun z hz => ?_⟩
      rcases List.mem_append.1 ((k2 z).1 hz) with hz | hz
      · obtain ⟨j0, j⟩ := steps_spec ha
        obtain ⟨j1, j2, j3⟩ := j z hz
        exact ⟨j1, j2, i - 1, Or.inl (by omega), by omega, j0, j3⟩
      · obtain ⟨j0, j⟩ := steps_spec hb
        obtain ⟨j1, j2, j3⟩ := j z hz
        exact ⟨j1, j2, i + 1, Or.inr rfl, by omega, j0, j3⟩

/-! ### Rows and layers -/

theorem xUnit_pos {t : Tech} {m : Nat} (h : 0 < xUnit t m) : t.direct m = 0 ∧ xUnit t m = t.unitX m * t.scale := by
  unfold xUnit at h ⊢
  by_cases k : t.direct m = 0
  · rw [if_pos k]; exact ⟨k, rfl⟩
  · rw [if_neg k] at h; omega

theorem yUnit_pos {t : Tech} {m : Nat} (h : 0 < yUnit t m) : t.direct m = 1 ∧ yUnit t m = t.unitY m * t.scale := by
  unfold yUnit at h ⊢
  by_cases k : t.direct m = 1
  · rw [if_pos k]; exact ⟨k, rfl⟩
  · rw [if_neg k] at h; omega

theorem inv_row {t : Tech} {llx lly urx ury : Int} {low high i : Nat} (hl : low ≤ i) (hh : i ≤ high) (hi : i < t.layerNo) {s s' : St} {q : Row}
    (h : Inv t llx lly urx ury low high s) (hr : addRow t llx lly urx ury i s q = some s') :
    Inv t llx lly urx ury low high s' ∧ Grows i s s' := by
  unfold addRow at hr
  simp only at hr
  by_cases h0 : t.direct i = 0
  · rw [if_pos h0] at hr
    by_cases hx : q.x1 ≠ q.x2
    · rw [if_pos hx] at hr
      rw [← Option.some.inj hr]; exact ⟨h, grows_refl _ _⟩
    rw [if_neg hx] at hr
    cases ha : crossings t (yUnit t) i (max (q.y1 - Int.tdiv q.h1 2) lly) (min (q.y2 + Int.tdiv q.h2 2) ury) with
    | none => rw [ha] at hr; simp at hr
    | some ys =>
      cases hb : steps (max (q.x1 - Int.tdiv q.w1 2) llx) (min (q.x2 + Int.tdiv q.w2 2) urx) (t.offset i) (xUnit t i) with
      | none => rw [ha, hb] at hr; simp at hr
      | some xs =>
        rw [ha, hb] at hr
        rw [← Option.some.inj hr]
        obtain ⟨k1, k2⟩ := crossings_spec hi ha
        obtain ⟨k3, k4⟩ := steps_spec hb
        obtain ⟨_, k5⟩ := xUnit_pos k3
        refine inv_tracks (by simp [h0]) k1 h ?_
        intro x hx' y hy _
        obtain ⟨y1, y2, m, m1, m2, m3, m4⟩ := k2 y hy
        obtain ⟨x1, x2, x3⟩ := k4 x hx'
        obtain ⟨m5, m6⟩ := yUnit_pos m3
        refine ⟨⟨hl, hh⟩, ⟨?_, ?_, ?_, ?_⟩, Or.inl ⟨h0, ?_⟩, ⟨m, m1, m2, Or.inr ⟨m5, ?_⟩⟩, ⟨rfl, rfl, rfl⟩⟩
        · show llx ≤ x
          omega
        · show x ≤ urx
          omega
        · show lly ≤ y
          omega
        · show y ≤ ury
          omega
        · show t.unitX i * t.scale ∣ x - t.offset i
          rw [← k5]; exact x3
        · show _ ∣ y - t.offset m
          rw [← m6]; exact m4
  rw [if_neg h0] at hr
  by_cases h1 : t.direct i = 1
  · rw [if_pos h1] at hr
    by_cases hy : q.y1 ≠ q.y2
    · rw [if_pos hy] at hr
      rw [← Option.some.inj hr]; exact ⟨h, grows_refl _ _⟩
    rw [if_neg hy] at hr
    cases ha : crossings t (xUnit t) i (max (q.x1 - Int.tdiv q.w1 2) llx) (min (q.x2 + Int.tdiv q.w2 2) urx) with
    | none => rw [ha] at hr; simp at hr
    | some xs =>
      cases hb : steps (max (q.y1 - Int.tdiv q.h1 2) lly) (min (q.y2 + Int.tdiv q.h2 2) ury) (t.offset i) (yUnit t i) with
      | none => rw [ha, hb] at hr; simp at hr
      | some ys =>
        rw [ha, hb] at hr
        rw [← Option.some.inj hr]
        obtain ⟨k1, k2⟩ := crossings_spec hi ha
        obtain ⟨k3, k4⟩ := steps_spec hb
        obtain ⟨_, k5⟩ := yUnit_pos k3
        refine inv_tracks (by simp [h1]) k1 h ?_
        intro y hy' x hx _
        obtain ⟨x1, x2, m, m1, m2, m3, m4⟩ := k2 x hx
        obtain ⟨y1, y2, y3⟩ := k4 y hy'
        obtain ⟨m5, m6⟩ := xUnit_pos m3
        refine ⟨⟨hl, hh⟩, ⟨?_, ?_, ?_, ?_⟩, Or.inr ⟨h1, ?_⟩, ⟨m, m1, m2, Or.inl ⟨m5, ?_⟩⟩, ⟨rfl, rfl, rfl⟩⟩
        · show llx ≤ x
          omega
        · show x ≤ urx
          omega
        · show lly ≤ y
          omega
        · show y ≤ ury
          omega
        · show t.unitY i * t.scale ∣ y - t.offset i
          rw [← k5]; exact y3
        · show _ ∣ x - t.offset m
          rw [← m6]; exact m4
  rw [if_neg h1] at hr
  rw [← Option.some.inj hr]; exact ⟨h, grows_refl _ _⟩

theorem inv_rows {t : Tech} {llx lly urx ury : Int} {low high i : Nat} (hl : low ≤ i) (hh : i ≤ high) (hi : i < t.layerNo) :
    ∀ {rows : List Row} {s s' : St}, Inv t llx lly urx ury low high s → rows.foldlM (addRow t llx lly urx ury i) s = some s' →
    Inv t llx lly urx ury low high s' ∧ Grows i s s'
  | [], s, s', h, hr => by
    have : s = s' := by simpa using hr
    rw [← this]; exact ⟨h, grows_refl _ _⟩
  | q :: rows, s, s', h, hr => by
    rw [List.foldlM_cons] at hr
    cases hq : addRow t llx lly urx ury i s q with
    | none => rw [hq] at hr; simp at hr
    | some s₁ =>
      rw [hq] at hr
      obtain ⟨h1, h2⟩ := inv_row hl hh hi h hq
      obtain ⟨h3, h4⟩ := inv_rows hl hh hi h1 (by simpa using hr)
      exact ⟨h3, grows_trans h2 h4⟩

/-- The ranges of the layers: every node is in the range of its layer, and nothing else is in it. -/
def Ranges (s : St) (ranges : List (Nat × Nat × Nat)) : Prop :=
  (∀ v, v < s.size → ∃ e ∈ ranges, e.1 = (s.vert v).metal ∧ e.2.1 ≤ v ∧ v < e.2.2)
    ∧ ∀ e ∈ ranges, e.2.2 ≤ s.size ∧ ∀ v, e.2.1 ≤ v → v < e.2.2 → (s.vert v).metal = e.1

theorem inv_layers {t : Tech} {llx lly urx ury : Int} {rows : Nat → List Row} {low high : Nat} : ∀ {l : List Nat} {s s' : St}
    {rs rs' : List (Nat × Nat × Nat)}, (∀ i ∈ l, low ≤ i ∧ i ≤ high) → Inv t llx lly urx ury low high s → Ranges s rs →
    l.foldlM (addLayer t llx lly urx ury rows) (s, rs) = some (s', rs') → Inv t llx lly urx ury low high s' ∧ Ranges s' rs'
  | [], s, s', rs, rs', _, h, hr, e => by
    have e : (s, rs) = (s', rs') := by simpa using e
    rw [← (Prod.mk.inj e).1, ← (Prod.mk.inj e).2]
    exact ⟨h, hr⟩
  | i :: l, s, s', rs, rs', hl, h, hr, e => by
    rw [List.foldlM_cons] at e
    cases hq : addLayer t llx lly urx ury rows (s, rs) i with
    | none => rw [hq] at e; simp at e
    | some q =>
      rw [hq] at e
      have e : l.foldlM (addLayer t llx lly urx ury rows) q = some (s', rs') := by simpa using e
      unfold addLayer at hq
      by_cases hno : t.layerNo ≤ i
      · rw [if_pos hno] at hq; simp at hq
      rw [if_neg hno] at hq
      cases hw : (rows i).foldlM (addRow t llx lly urx ury i) s with
      | none => simp only [hw] at hq; simp at hq
      | some s₁ =>
        simp only [hw] at hq
        have hq := Option.some.inj hq
        rw [← hq] at e
        obtain ⟨h1, h2⟩ := inv_rows (hl i List.mem_cons_self).1 (hl i List.mem_cons_self).2 (by omega) h hw
        refine inv_layers (fun j hj => hl j (List.mem_cons_of_mem _ hj)) h1 ?_ e
        constructor
        · intro v hv
          by_cases k : v < s.size
          · obtain ⟨z, z1, z2, z3⟩ := hr.1 v k
            exact ⟨z, List.mem_append_left _ z1, by rw [h2.2.1 v k]; exact z2, z3⟩
          · exact ⟨(i, s.size, s₁.size), List.mem_append_right _ (List.mem_singleton.2 rfl), (h2.2.2 v (by omega) hv).symm,
              by simp only; omega, hv⟩
        · intro z hz
          rcases List.mem_append.1 hz with hz | hz
          · obtain ⟨z1, z2⟩ := hr.2 z hz
            exact ⟨Nat.le_trans z1 h2.1, fun v k1 k2 => by rw [h2.2.1 v (by omega)]; exact z2 v k1 k2⟩
          · rw [List.mem_singleton.1 hz]
            exact ⟨Nat.le_refl _, fun v k1 k2 => h2.2.2 v k1 k2⟩

theorem nodes_spec {t : Tech} {llx lly urx ury : Int} {rows : Nat → List Row} {low high : Nat} {s : St} {rs : List (Nat × Nat × Nat)}
    (h : nodes t llx lly urx ury rows low high = some (s, rs)) : Inv t llx lly urx ury low high s ∧ Ranges s rs := by
  unfold nodes at h
  refine inv_layers ?_ ?_ ?_ h
  · intro i hi
    have := List.mem_range'_1.1 hi
    omega
  · constructor
    · constructor <;> intro v n hv <;> exact absurd hv (Nat.not_lt_zero v)
    · intro v hv; exact absurd hv (Nat.not_lt_zero v)
    · intro v hv; exact absurd hv (Nat.not_lt_zero v)
    · intro e he; exact absurd he (by simp)
    · intro v hv; exact absurd hv (Nat.not_lt_zero v)
  · exact ⟨fun v hv => absurd hv (Nat.not_lt_zero v), fun e he => absurd he (by simp)⟩

/-! ### Vias -/

theorem find_some {places : List ((Nat × Int × Int) × Nat)} {k n : Nat} {x y : Int} (h : find places k x y = some n) :
    ((k, x, y), n) ∈ places := by
  unfold find at h
  obtain ⟨e, he, h2⟩ := Option.map_eq_some_iff.1 h
  have h1 := List.mem_of_find?_eq_some he
  have h3 : e.1 = (k, x, y) := by simpa using List.find?_some he
  rw [← h2, ← h3]
  exact h1

theorem find_isSome {places : List ((Nat × Int × Int) × Nat)} {e : (Nat × Int × Int) × Nat} (h : e ∈ places) :
    ∃ n, find places e.1.1 e.1.2.1 e.1.2.2 = some n := by
  unfold find
  cases hf : places.find? (fun z => decide (z.1 = (e.1.1, e.1.2.1, e.1.2.2))) with
  | some q => exact ⟨q.2, by simp⟩
  | none =>
    have := List.find?_eq_none.1 hf e h
    simp at this

/-- All but the vias is as it was. -/
def Core (u v : Vertex) : Prop :=
  Same u v ∧ u.north = v.north ∧ u.south = v.south ∧ u.east = v.east ∧ u.west = v.west

/-- What holds while vias are added. -/
structure Vias (s : St) (vert : Nat → Vertex) : Prop where
  core : ∀ v, Core (vert v) (s.vert v)
  up : ∀ v n, v < s.size → (vert v).up = some n → n < s.size ∧ (s.vert n).metal = (s.vert v).metal + 1
    ∧ (s.vert n).x = (s.vert v).x ∧ (s.vert n).y = (s.vert v).y
  down : ∀ v n, v < s.size → (vert v).down = some n → n < s.size ∧ (s.vert v).metal = (s.vert n).metal + 1
    ∧ (s.vert n).x = (s.vert v).x ∧ (s.vert n).y = (s.vert v).y

theorem core_put {vert : Nat → Vertex} {v w : Nat} {u a : Vertex} (h : Core (vert w) u) (ha : v = w → Core a u) : Core (put vert v a w) u := by
  by_cases e : w = v
  · rw [e, put_eq]; exact ha e.symm
  · rw [put_ne _ _ e]; exact h

theorem vias_node {t : Tech} {llx lly urx ury : Int} {low high : Nat} {s : St} (h : Inv t llx lly urx ury low high s) {vert : Nat → Vertex}
    (hv : Vias s vert) {k i : Nat} (hi : i < s.size) (hk : (s.vert i).metal = k) :
    Vias s (linkNode s.places k vert i)
      ∧ (∀ v, ((vert v).up ≠ none → (linkNode s.places k vert i v).up ≠ none) ∧ ((vert v).down ≠ none → (linkNode s.places k vert i v).down ≠ none))
      ∧ (∀ n, find s.places (k + 1) (s.vert i).x (s.vert i).y = some n →
        (linkNode s.places k vert i i).up ≠ none ∧ (linkNode s.places k vert i n).down ≠ none) := by
  obtain ⟨⟨c1, c2, c3, _⟩, _⟩ := hv.core i
  unfold linkNode
  rw [c1, c2]
  cases hf : find s.places (k + 1) (s.vert i).x (s.vert i).y with
  | none => exact ⟨hv, fun v => ⟨id, id⟩, fun n e => by simp at e⟩
  | some n =>
    obtain ⟨n1, n2, n3, n4⟩ := h.sound _ (find_some hf)
    simp only at n1 n2 n3 n4
    have hne : n ≠ i := fun e : n = i => by rw [e, hk] at n2; omega
    simp only [put_ne vert _ hne]
    refine ⟨⟨?_, ?_, ?_⟩, ?_, ?_⟩
    · intro v
      apply core_put
      · exact core_put (hv.core v) (fun e : i = v => by rw [← e]; exact hv.core i)
      · intro e; rw [← e]; exact hv.core n
    · intro v m hvs hm
      by_cases e : v = n
      · rw [e, put_eq] at hm
        rw [e] at hvs ⊢
        exact hv.up n m hvs hm
      · rw [put_ne _ _ e] at hm
        by_cases e' : v = i
        · rw [e', put_eq] at hm
          have hm : n = m := by simpa using hm
          rw [e', ← hm]
          exact ⟨n1, by rw [n2, hk], n3, n4⟩
        · rw [put_ne _ _ e'] at hm
          exact hv.up v m hvs hm
    · intro v m hvs hm
      by_cases e : v = n
      · rw [e, put_eq] at hm
        have hm : i = m := by simpa using hm
        rw [e, ← hm]
        exact ⟨hi, by rw [n2, hk], n3.symm, n4.symm⟩
      · rw [put_ne _ _ e] at hm
        by_cases e' : v = i
        · rw [e', put_eq] at hm
          rw [e'] at hvs ⊢
          exact hv.down i m hvs hm
        · rw [put_ne _ _ e'] at hm
          exact hv.down v m hvs hm
    · intro v
      by_cases e : v = n
      · rw [e, put_eq]
        exact ⟨id, fun _ => by simp⟩
      · rw [put_ne _ _ e]
        by_cases e' : v = i
        · rw [e', put_eq]
          exact ⟨fun _ => by simp, id⟩
        · rw [put_ne _ _ e']
          exact ⟨id, id⟩
    · intro m hm
      have hm : n = m := by simpa using hm
      rw [← hm, put_eq, put_ne _ _ (fun e => hne e.symm), put_eq]
      simp

/-- The order in which nodes are connected upwards. -/
def jobs (high : Nat) (rs : List (Nat × Nat × Nat)) : List (Nat × Nat) :=
  rs.flatMap (fun e => if e.1 < high then (List.range' e.2.1 (e.2.2 - e.2.1)).map (fun i => (e.1, i)) else [])

theorem link_jobs (places : List ((Nat × Int × Int) × Nat)) (high : Nat) : ∀ (rs : List (Nat × Nat × Nat)) (vert : Nat → Vertex),
    rs.foldl (linkLayer places high) vert = (jobs high rs).foldl (fun vert j => linkNode places j.1 vert j.2) vert
  | [], _ => rfl
  | e :: rs, vert => by
    rw [List.foldl_cons, link_jobs places high rs]
    unfold jobs
    rw [List.flatMap_cons, List.foldl_append]
    congr 1
    unfold linkLayer
    by_cases h : e.1 < high
    · rw [if_pos h, if_pos h, List.foldl_map]
    · rw [if_neg h, if_neg h]; rfl

theorem vias_jobs {t : Tech} {llx lly urx ury : Int} {low high : Nat} {s : St} (h : Inv t llx lly urx ury low high s) :
    ∀ {js : List (Nat × Nat)} {vert : Nat → Vertex}, (∀ j ∈ js, j.2 < s.size ∧ (s.vert j.2).metal = j.1) → Vias s vert →
    Vias s (js.foldl (fun vert j => linkNode s.places j.1 vert j.2) vert)
      ∧ (∀ v, ((vert v).up ≠ none → (js.foldl (fun vert j => linkNode s.places j.1 vert j.2) vert v).up ≠ none)
        ∧ ((vert v).down ≠ none → (js.foldl (fun vert j => linkNode s.places j.1 vert j.2) vert v).down ≠ none))
      ∧ ∀ j ∈ js, ∀ n, find s.places (j.1 + 1) (s.vert j.2).x (s.vert j.2).y = some n →
        (js.foldl (fun vert j => linkNode s.places j.1 vert j.2) vert j.2).up ≠ none
        ∧ (js.foldl (fun vert j => linkNode s.places j.1 vert j.2) vert n).down ≠ none
  | [], vert, _, hv => ⟨hv, fun v => ⟨id, id⟩, fun j hj => absurd hj (by simp)⟩
  | j :: js, vert, hj, hv => by
    obtain ⟨j1, j2⟩ := hj j List.mem_cons_self
    obtain ⟨h1, h2, h3⟩ := vias_node h hv j1 j2
    obtain ⟨h4, h5, h6⟩ := vias_jobs h (js := js) (fun z hz => hj z (List.mem_cons_of_mem _ hz)) h1
    rw [List.foldl_cons]
    refine ⟨h4, fun v => ⟨fun k => (h5 v).1 ((h2 v).1 k), fun k => (h5 v).2 ((h2 v).2 k)⟩, ?_⟩
    intro z hz n hn
    rcases List.mem_cons.1 hz with e | hz
    · rw [e] at hn ⊢
      exact ⟨(h5 j.2).1 (h3 n hn).1, (h5 n).2 (h3 n hn).2⟩
    · exact h6 z hz n hn

theorem jobs_ok {high : Nat} {s : St} {rs : List (Nat × Nat × Nat)} (h2 : Ranges s rs) :
    ∀ j ∈ jobs high rs, j.2 < s.size ∧ (s.vert j.2).metal = j.1 := by
  intro j hj
  obtain ⟨e, e1, e2⟩ := List.mem_flatMap.1 hj
  by_cases k : e.1 < high
  · rw [if_pos k] at e2
    obtain ⟨i, i1, i2⟩ := List.mem_map.1 e2
    have := List.mem_range'_1.1 i1
    obtain ⟨z1, z2⟩ := h2.2 e e1
    rw [← i2]
    exact ⟨by simp only; omega, z2 i (by omega) (by omega)⟩
  · rw [if_neg k] at e2; simp at e2

theorem build_spec {t : Tech} {llx lly urx ury : Int} {rows : Nat → List Row} {low high : Nat} {cx cy : Int} {g : Grid}
    (h : build t llx lly urx ury rows low high cx cy = some g) : ∃ s rs, Inv t llx lly urx ury low high s ∧ Ranges s rs
      ∧ g.size = s.size ∧ Vias s g.vert ∧ ∀ v, v < s.size → (s.vert v).metal < high →
        ∀ n, find s.places ((s.vert v).metal + 1) (s.vert v).x (s.vert v).y = some n → (g.vert v).up ≠ none ∧ (g.vert n).down ≠ none := by
  unfold build at h
  cases hn : nodes t llx lly urx ury rows low high with
  | none => rw [hn] at h; simp at h
  | some q =>
    obtain ⟨s, rs⟩ := q
    rw [hn] at h
    have h := Option.some.inj h
    obtain ⟨h1, h2⟩ := nodes_spec hn
    have hv0 : Vias s s.vert := by
      refine ⟨fun v => ⟨⟨rfl, rfl, rfl, rfl, rfl, rfl⟩, rfl, rfl, rfl, rfl⟩, ?_, ?_⟩
      · intro v n hv e; rw [(h1.alone v hv).1] at e; simp at e
      · intro v n hv e; rw [(h1.alone v hv).2] at e; simp at e
    have hj := jobs_ok (high := high) h2
    obtain ⟨k1, _, k3⟩ := vias_jobs h1 hj hv0
    rw [← link_jobs] at k1 k3
    refine ⟨s, rs, h1, h2, by rw [← h], by rw [← h]; exact k1, ?_⟩
    intro v hv hm n hn'
    obtain ⟨e, e1, e2, e3, e4⟩ := h2.1 v hv
    have : ((s.vert v).metal, v) ∈ jobs high rs := by
      refine List.mem_flatMap.2 ⟨e, e1, ?_⟩
      rw [if_pos (by omega)]
      exact List.mem_map.2 ⟨v, List.mem_range'_1.2 ⟨e3, by omega⟩, by rw [e2]⟩
    rw [← h]
    exact k3 _ this n hn'

/-- C115: the grid is as the search needs it. -/
theorem C115_sound {t : Tech} {llx lly urx ury : Int} {rows : Nat → List Row} {low high : Nat} {cx cy : Int} {g : Grid} {r : Rules}
    (h : build t llx lly urx ury rows low high cx cy = some g) (hr : ∀ m, r.horizontal m = decide (t.direct m = 1)) : Sound g r := by
  obtain ⟨s, rs, h1, _, hsz, hv, _⟩ := build_spec h
  have hb := h1.beside
  have hc := hv.core
  have hx : ∀ v, (g.vert v).x = (s.vert v).x := fun v => (hc v).1.1
  have hy : ∀ v, (g.vert v).y = (s.vert v).y := fun v => (hc v).1.2.1
  have hm : ∀ v, (g.vert v).metal = (s.vert v).metal := fun v => (hc v).1.2.2.1
  constructor
  · intro v n hvs hn
    rw [hsz] at hvs ⊢
    rw [(hc v).2.1] at hn
    simp only [hx, hy, hm, hr]
    exact hb.north v n hvs hn
  · intro v n hvs hn
    rw [hsz] at hvs
    rw [(hc v).2.2.1] at hn
    simp only [hx, hy, hm, hr]
    exact hb.south v n hvs hn
  · intro v n hvs hn
    rw [hsz] at hvs ⊢
    rw [(hc v).2.2.2.1] at hn
    simp only [hx, hy, hm, hr]
    exact hb.east v n hvs hn
  · intro v n hvs hn
    rw [hsz] at hvs
    rw [(hc v).2.2.2.2] at hn
    simp only [hx, hy, hm, hr]
    exact hb.west v n hvs hn
  · intro v n hvs hn
    rw [hsz] at hvs ⊢
    simp only [hx, hy, hm]
    exact hv.up v n hvs hn
  · intro v n hvs hn
    rw [hsz] at hvs ⊢
    simp only [hx, hy, hm]
    exact hv.down v n hvs hn

/-- C115: every node is where it should be, and free. -/
theorem C115_good {t : Tech} {llx lly urx ury : Int} {rows : Nat → List Row} {low high : Nat} {cx cy : Int} {g : Grid}
    (h : build t llx lly urx ury rows low high cx cy = some g) : ∀ v, v < g.size → Good t llx lly urx ury low high (g.vert v) := by
  obtain ⟨s, rs, h1, _, hsz, hv, _⟩ := build_spec h
  intro v hvs
  obtain ⟨⟨a1, a2, a3, a4, a5, a6⟩, _⟩ := hv.core v
  obtain ⟨b1, b2, b3, b4, b5⟩ := h1.good v (by omega)
  exact ⟨by rw [a3]; exact b1, by rw [a1, a2]; exact b2, by rw [a1, a2, a3]; exact b3, by rw [a1, a2, a3]; exact b4,
    by rw [a4, a5, a6]; exact b5⟩

/-- C115: a node below another of the next layer has a via upwards. -/
theorem C115_up {t : Tech} {llx lly urx ury : Int} {rows : Nat → List Row} {low high : Nat} {cx cy : Int} {g : Grid}
    (h : build t llx lly urx ury rows low high cx cy = some g) {v w : Nat} (hv : v < g.size) (hw : w < g.size)
    (hm : (g.vert w).metal = (g.vert v).metal + 1) (hx : (g.vert w).x = (g.vert v).x) (hy : (g.vert w).y = (g.vert v).y) :
    (g.vert v).up ≠ none := by
  obtain ⟨s, rs, h1, _, hsz, hv', hup⟩ := build_spec h
  obtain ⟨⟨a1, a2, a3, _⟩, _⟩ := hv'.core v
  obtain ⟨⟨b1, b2, b3, _⟩, _⟩ := hv'.core w
  rw [a3, b3] at hm
  rw [a1, b1] at hx
  rw [a2, b2] at hy
  obtain ⟨e, e1, e2⟩ := h1.all w (by omega)
  obtain ⟨n, hn⟩ := find_isSome e1
  rw [e2] at hn
  simp only [hm, hx, hy] at hn
  have := (h1.good w (by omega)).layer
  exact (hup v (by omega) (by omega) n hn).1

/-- C115, in part: a node that is the only one of its layer at its point, above another of the layer before, has a via downwards. -/
theorem C115_down_partial {t : Tech} {llx lly urx ury : Int} {rows : Nat → List Row} {low high : Nat} {cx cy : Int} {g : Grid}
    (h : build t llx lly urx ury rows low high cx cy = some g) {v w : Nat} (hv : v < g.size) (hw : w < g.size)
    (hm : (g.vert w).metal = (g.vert v).metal + 1) (hx : (g.vert w).x = (g.vert v).x) (hy : (g.vert w).y = (g.vert v).y)
    (hone : ∀ u, u < g.size → (g.vert u).metal = (g.vert w).metal → (g.vert u).x = (g.vert w).x → (g.vert u).y = (g.vert w).y → u = w) :
    (g.vert w).down ≠ none := by
  obtain ⟨s, rs, h1, _, hsz, hv', hup⟩ := build_spec h
  have hc := fun u => (hv'.core u).1
  obtain ⟨e, e1, e2⟩ := h1.all w (by omega)
  obtain ⟨n, hn⟩ := find_isSome e1
  obtain ⟨n1, n2, n3, n4⟩ := h1.sound _ (find_some hn)
  simp only [e2] at n1 n2 n3 n4
  have hnw : n = w := hone n (by omega) (by rw [(hc n).2.2.1, (hc w).2.2.1, n2]) (by rw [(hc n).1, (hc w).1, n3])
    (by rw [(hc n).2.1, (hc w).2.1, n4])
  rw [e2, hnw] at hn
  rw [(hc w).2.2.1, (hc v).2.2.1] at hm
  rw [(hc w).1, (hc v).1] at hx
  rw [(hc w).2.1, (hc v).2.1] at hy
  simp only [hm, hx, hy] at hn
  have := (h1.good w (by omega)).layer
  exact (hup v (by omega) (by omega) w hn).2

/-! ### The constructor succeeds -/

/-- Rules which make sense: layers alternate in direction and have positive distances of tracks. -/
structure Sane (t : Tech) : Prop where
  two : 2 ≤ t.layerNo
  dirs : ∀ m, m < t.layerNo → t.direct m = 0 ∨ t.direct m = 1
  turn : ∀ m, m + 1 < t.layerNo → t.direct m ≠ t.direct (m + 1)
  units : ∀ m, m < t.layerNo → (t.direct m = 0 → 0 < t.unitX m * t.scale) ∧ (t.direct m = 1 → 0 < t.unitY m * t.scale)

theorem steps_ok {lo hi offset unit : Int} (h : 0 < unit) : ∃ l, steps lo hi offset unit = some l := by
  unfold steps
  rw [if_neg (by omega)]
  exact ⟨_, rfl⟩

theorem crossings_ok {t : Tech} {unit : Nat → Int} {i : Nat} {lo hi : Int} (hi' : i < t.layerNo) (h2 : 2 ≤ t.layerNo)
    (h : ∀ m, m < t.layerNo → m + 1 = i ∨ m = i + 1 → 0 < unit m) : ∃ l, crossings t unit i lo hi = some l := by
  unfold crossings
  by_cases h0 : i = 0
  · rw [if_pos h0, if_neg (by omega)]
    obtain ⟨l, e⟩ := steps_ok (lo := lo) (hi := hi) (offset := t.offset 1) (h 1 (by omega) (by omega))
    rw [e]; exact ⟨_, rfl⟩
  rw [if_neg h0]
  obtain ⟨l, e⟩ := steps_ok (lo := lo) (hi := hi) (offset := t.offset (i - 1)) (h (i - 1) (by omega) (by omega))
  by_cases h1 : i + 1 = t.layerNo
  · rw [if_pos h1, e]; exact ⟨_, rfl⟩
  · rw [if_neg h1]
    obtain ⟨l', e'⟩ := steps_ok (lo := lo) (hi := hi) (offset := t.offset (i + 1)) (h (i + 1) (by omega) (by omega))
    rw [e, e']; exact ⟨_, rfl⟩

theorem row_ok {t : Tech} (ht : Sane t) {llx lly urx ury : Int} {i : Nat} (hi : i < t.layerNo) (s : St) (q : Row) :
    ∃ s', addRow t llx lly urx ury i s q = some s' := by
  unfold addRow
  simp only
  have hbes : ∀ m, m < t.layerNo → m + 1 = i ∨ m = i + 1 → t.direct m ≠ t.direct i := by
    intro m hm k
    rcases k with k | k
    · rw [← k]; exact ht.turn m (by omega)
    · rw [k]; exact fun e => ht.turn i (by omega) e.symm
  by_cases h0 : t.direct i = 0
  · rw [if_pos h0]
    by_cases hx : q.x1 ≠ q.x2
    · rw [if_pos hx]; exact ⟨_, rfl⟩
    rw [if_neg hx]
    obtain ⟨l, e⟩ := crossings_ok (unit := yUnit t) (lo := max (q.y1 - Int.tdiv q.h1 2) lly) (hi := min (q.y2 + Int.tdiv q.h2 2) ury)
      hi ht.two (by
        intro m hm k
        have hd : t.direct m = 1 := (ht.dirs m hm).resolve_left (fun e => hbes m hm k (e.trans h0.symm))
        unfold yUnit
        rw [if_pos hd]
        exact (ht.units m hm).2 hd)
    obtain ⟨l', e'⟩ := steps_ok (lo := max (q.x1 - Int.tdiv q.w1 2) llx) (hi := min (q.x2 + Int.tdiv q.w2 2) urx) (offset := t.offset i)
      (unit := xUnit t i) (by unfold xUnit; rw [if_pos h0]; exact (ht.units i hi).1 h0)
    rw [e, e']; exact ⟨_, rfl⟩
  · have h1 := (ht.dirs i hi).resolve_left h0
    rw [if_neg h0, if_pos h1]
    by_cases hy : q.y1 ≠ q.y2
    · rw [if_pos hy]; exact ⟨_, rfl⟩
    rw [if_neg hy]
    obtain ⟨l, e⟩ := crossings_ok (unit := xUnit t) (lo := max (q.x1 - Int.tdiv q.w1 2) llx) (hi := min (q.x2 + Int.tdiv q.w2 2) urx)
      hi ht.two (by
        intro m hm k
        have hd : t.direct m = 0 := (ht.dirs m hm).resolve_right (fun e => hbes m hm k (e.trans h1.symm))
        unfold xUnit
        rw [if_pos hd]
        exact (ht.units m hm).1 hd)
    obtain ⟨l', e'⟩ := steps_ok (lo := max (q.y1 - Int.tdiv q.h1 2) lly) (hi := min (q.y2 + Int.tdiv q.h2 2) ury) (offset := t.offset i)
      (unit := yUnit t i) (by unfold yUnit; rw [if_pos h1]; exact (ht.units i hi).2 h1)
    rw [e, e']; exact ⟨_, rfl⟩

theorem foldlM_ok {α β : Type} {f : β → α → Option β} : ∀ {l : List α} {b : β}, (∀ b, ∀ a ∈ l, ∃ c, f b a = some c) →
    ∃ c, l.foldlM f b = some c
  | [], b, _ => ⟨b, rfl⟩
  | a :: l, b, h => by
    obtain ⟨c, hc⟩ := h b a List.mem_cons_self
    obtain ⟨d, hd⟩ := foldlM_ok (l := l) (b := c) (fun b a ha => h b a (List.mem_cons_of_mem _ ha))
    exact ⟨d, by rw [List.foldlM_cons, hc]; exact hd⟩

/-- C115: with such rules the constructor succeeds. -/
theorem C115_builds {t : Tech} (ht : Sane t) {llx lly urx ury : Int} {rows : Nat → List Row} {low high : Nat} {cx cy : Int}
    (hh : high < t.layerNo) : ∃ g, build t llx lly urx ury rows low high cx cy = some g := by
  unfold build nodes
  obtain ⟨q, hq⟩ := foldlM_ok (f := addLayer t llx lly urx ury rows) (l := List.range' low (high + 1 - low))
    (b := ((⟨0, fun _ => fresh 0 false 0 0, []⟩ : St), ([] : List (Nat × Nat × Nat)))) (by
      intro b i hi
      have := List.mem_range'_1.1 hi
      have hi' : i < t.layerNo := by omega
      unfold addLayer
      rw [if_neg (by omega)]
      obtain ⟨c, hc⟩ := foldlM_ok (f := addRow t llx lly urx ury i) (l := rows i) (b := b.1) (fun s q _ => row_ok ht hi' s q)
      rw [hc]
      exact ⟨_, rfl⟩)
  rw [hq]
  exact ⟨_, rfl⟩

/-! ### Every crossing has a node -/

theorem stepsFrom_all {hi unit y : Int} (hu : 0 < unit) (hy : y ≤ hi) : ∀ {n : Nat} {z : Int}, z ≤ y → unit ∣ y - z → hi - z + 1 ≤ n →
    y ∈ stepsFrom hi unit n z
  | 0, z, h1, _, h3 => by omega
  | n + 1, z, h1, h2, h3 => by
    unfold stepsFrom
    rw [if_pos (by omega)]
    by_cases e : y = z
    · rw [e]; exact List.mem_cons_self
    · refine List.mem_cons_of_mem _ (stepsFrom_all hu hy ?_ ?_ (by omega))
      · have := Int.le_of_dvd (by omega) h2
        omega
      · have : y - (z + unit) = (y - z) - unit := by omega
        rw [this]
        exact Int.dvd_sub h2 (Int.dvd_refl _)

theorem steps_all {lo hi offset unit y : Int} {l : List Int} (h : steps lo hi offset unit = some l) (h1 : lo ≤ y) (h2 : y ≤ hi)
    (h3 : unit ∣ y - offset) : y ∈ l := by
  obtain ⟨hu, _⟩ := steps_spec h
  unfold steps at h
  rw [if_neg (by omega)] at h
  rw [← Option.some.inj h]
  obtain ⟨k1, k2⟩ := firstOn_ge (lo := lo) (offset := offset) hu
  have hd : unit ∣ y - firstOn lo offset unit := by
    have : y - firstOn lo offset unit = (y - offset) - (firstOn lo offset unit - offset) := by omega
    rw [this]
    exact Int.dvd_sub h3 k2
  refine stepsFrom_all hu h2 ?_ hd (by omega)
  have hlt : firstOn lo offset unit < lo + unit := by
    unfold firstOn
    rw [Int.fdiv_eq_ediv_of_nonneg _ (by omega)]
    have q1 := Int.mul_ediv_add_emod (-(lo - offset)) unit
    have q2 := Int.emod_lt_of_pos (-(lo - offset)) hu
    have q3 : -(-(lo - offset) / unit) * unit = -(unit * (-(lo - offset) / unit)) := by
      rw [Int.neg_mul, Int.mul_comm]
    rw [q3]
    omega
  obtain ⟨k, hk⟩ := hd
  by_cases hneg : k < 0
  · have : unit * k ≤ unit * (-1) := Int.mul_le_mul_of_nonneg_left (by omega) (by omega)
    omega
  · have := Int.mul_nonneg (Int.le_of_lt hu) (by omega : 0 ≤ k)
    omega

theorem crossings_all {t : Tech} {unit : Nat → Int} {i m : Nat} {lo hi y : Int} {l : List Int} (h : crossings t unit i lo hi = some l)
    (hm : m + 1 = i ∨ m = i + 1) (hlt : m < t.layerNo) (h1 : lo ≤ y) (h2 : y ≤ hi) (h3 : unit m ∣ y - t.offset m) : y ∈ l := by
  unfold crossings at h
  by_cases h0 : i = 0
  · rw [if_pos h0] at h
    by_cases hone : t.layerNo ≤ 1
    · rw [if_pos hone] at h; simp at h
    rw [if_neg hone] at h
    obtain ⟨a, ha, e⟩ := Option.map_eq_some_iff.1 h
    obtain rfl : m = 1 := by omega
    rw [← e, (foldr_insert a).2]
    exact steps_all ha h1 h2 h3
  rw [if_neg h0] at h
  by_cases htop : i + 1 = t.layerNo
  · rw [if_pos htop] at h
    obtain ⟨a, ha, e⟩ := Option.map_eq_some_iff.1 h
    obtain rfl : m = i - 1 := by omega
    rw [← e, (foldr_insert a).2]
    exact steps_all ha h1 h2 h3
  rw [if_neg htop] at h
  cases ha : steps lo hi (t.offset (i - 1)) (unit (i - 1)) with
  | none => rw [ha] at h; simp at h
  | some a =>
    cases hb : steps lo hi (t.offset (i + 1)) (unit (i + 1)) with
    | none => rw [ha, hb] at h; simp at h
    | some b =>
      rw [ha, hb] at h
      have e := Option.some.inj h
      rw [← e, (foldr_insert _).2, List.mem_append]
      rcases hm with hm | hm
      · obtain rfl : m = i - 1 := by omega
        exact Or.inl (steps_all ha h1 h2 h3)
      · rw [hm] at h3
        exact Or.inr (steps_all hb h1 h2 h3)

theorem marked_all {t : Tech} {unit : Nat → Int} {i m : Nat} {y : Int} (hm : m + 1 = i ∨ m = i + 1) (h3 : unit m ∣ y - t.offset m)
    (h : i = 0 ∨ i + 1 = t.layerNo ∨ (0 ≤ y ∧ 0 ≤ t.offset m ∧ t.offset m < unit m)) : marked t unit i y = true := by
  unfold marked
  by_cases h0 : i = 0
  · rw [if_pos h0]
  rw [if_neg h0]
  by_cases h1 : i + 1 = t.layerNo
  · rw [if_pos h1]
  rw [if_neg h1]
  obtain ⟨k1, k2, k3⟩ := (h.resolve_left h0).resolve_left h1
  have key : Int.tmod y (unit m) = t.offset m := by
    rw [Int.tmod_eq_emod_of_nonneg k1]
    obtain ⟨k, hk⟩ := h3
    have : y = t.offset m + unit m * k := by omega
    rw [this, Int.add_mul_emod_self_left]
    exact Int.emod_eq_of_lt k2 k3
  rcases hm with hm | hm
  · obtain rfl : m = i - 1 := by omega
    simp [key]
  · subst hm
    simp [key]

/-- The layer `i` has an entry at the point. -/
def Placed (s : St) (i : Nat) (x y : Int) : Prop := ∃ e ∈ s.places, e.1 = (i, x, y)

theorem placed_node (t : Tech) (unit : Nat → Int) (i : Nat) (hor : Bool) (ln : Int) (s : St × Option Nat) (y : Int) :
    (∀ j x z, Placed s.1 j x z → Placed (addNode t unit i hor ln s y).1 j x z)
      ∧ (marked t unit i y = true → Placed (addNode t unit i hor ln s y).1 i (fresh i hor ln y).x (fresh i hor ln y).y) := by
  unfold addNode
  by_cases hm : marked t unit i y = true
  · rw [if_pos hm]
    have key : ∀ (s' : St), s'.places = s.1.places ++ [((i, (fresh i hor ln y).x, (fresh i hor ln y).y), s.1.size)] →
        (∀ j x z, Placed s.1 j x z → Placed s' j x z) ∧ (marked t unit i y = true → Placed s' i (fresh i hor ln y).x (fresh i hor ln y).y) := by
      intro s' hs'
      refine ⟨fun j x z ⟨e, e1, e2⟩ => ⟨e, by rw [hs']; exact List.mem_append_left _ e1, e2⟩, fun _ => ?_⟩
      exact ⟨_, by rw [hs']; exact List.mem_append_right _ List.mem_cons_self, rfl⟩
    cases s.2 with
    | none => exact key _ rfl
    | some start =>
      simp only
      cases scan s.1.vert hor ln y start s.1.size with
      | none => exact key _ rfl
      | some w => exact key _ rfl
  · rw [if_neg hm]
    exact ⟨fun _ _ _ => id, fun k => absurd k hm⟩

theorem placed_foldl {t : Tech} {unit : Nat → Int} {i : Nat} {hor : Bool} {ln : Int} : ∀ {ys : List Int} {s : St × Option Nat},
    (∀ j x z, Placed s.1 j x z → Placed (ys.foldl (addNode t unit i hor ln) s).1 j x z)
      ∧ ∀ y ∈ ys, marked t unit i y = true →
        Placed (ys.foldl (addNode t unit i hor ln) s).1 i (fresh i hor ln y).x (fresh i hor ln y).y
  | [], s => ⟨fun _ _ _ => id, fun y hy => absurd hy (by simp)⟩
  | a :: ys, s => by
    rw [List.foldl_cons]
    obtain ⟨h1, h2⟩ := placed_node t unit i hor ln s a
    obtain ⟨h3, h4⟩ := placed_foldl (t := t) (unit := unit) (i := i) (hor := hor) (ln := ln) (ys := ys) (s := addNode t unit i hor ln s a)
    refine ⟨fun j x z k => h3 j x z (h1 j x z k), fun y hy hm => ?_⟩
    rcases List.mem_cons.1 hy with e | hy
    · rw [e] at hm ⊢; exact h3 _ _ _ (h2 hm)
    · exact h4 y hy hm

theorem placed_tracks {t : Tech} {unit : Nat → Int} {i : Nat} {hor : Bool} {ys : List Int} : ∀ {lns : List Int} {s : St},
    (∀ j x z, Placed s j x z → Placed (lns.foldl (addTrack t unit i hor ys) s) j x z)
      ∧ ∀ ln ∈ lns, ∀ y ∈ ys, marked t unit i y = true →
        Placed (lns.foldl (addTrack t unit i hor ys) s) i (fresh i hor ln y).x (fresh i hor ln y).y
  | [], s => ⟨fun _ _ _ => id, fun y hy => absurd hy (by simp)⟩
  | a :: lns, s => by
    rw [List.foldl_cons]
    obtain ⟨h1, h2⟩ := placed_foldl (t := t) (unit := unit) (i := i) (hor := hor) (ln := a) (ys := ys) (s := (s, none))
    obtain ⟨h3, h4⟩ := placed_tracks (t := t) (unit := unit) (i := i) (hor := hor) (ys := ys) (lns := lns) (s := addTrack t unit i hor ys s a)
    refine ⟨fun j x z k => h3 j x z (h1 j x z k), fun ln hln y hy hm => ?_⟩
    rcases List.mem_cons.1 hln with e | hln
    · rw [e]; exact h3 _ _ _ (h2 y hy hm)
    · exact h4 ln hln y hy hm

/-- The part of the box that a row of tiles covers. -/
def Covers (llx lly urx ury : Int) (q : Row) (x y : Int) : Prop :=
  (llx ≤ x ∧ x ≤ urx ∧ lly ≤ y ∧ y ≤ ury) ∧ q.x1 - Int.tdiv q.w1 2 ≤ x ∧ x ≤ q.x2 + Int.tdiv q.w2 2
    ∧ q.y1 - Int.tdiv q.h1 2 ≤ y ∧ y ≤ q.y2 + Int.tdiv q.h2 2

/-- Tracks which begin between zero and the distance of two of them, or a layer for which this does not matter. -/
def Usual (t : Tech) (i m : Nat) (x y : Int) : Prop :=
  i = 0 ∨ i + 1 = t.layerNo ∨ (0 ≤ x ∧ 0 ≤ y ∧ 0 ≤ t.offset m ∧ (t.direct m = 0 → t.offset m < t.unitX m * t.scale)
    ∧ (t.direct m = 1 → t.offset m < t.unitY m * t.scale))

theorem placed_row {t : Tech} (ht : Sane t) {llx lly urx ury : Int} {i : Nat} {s s' : St} {q : Row} (hi : i < t.layerNo)
    (h : addRow t llx lly urx ury i s q = some s') :
    (∀ j x z, Placed s j x z → Placed s' j x z) ∧ ∀ x y m, (t.direct i = 0 → q.x1 = q.x2) → (t.direct i = 1 → q.y1 = q.y2) →
      Covers llx lly urx ury q x y → OnTrack t i x y → m + 1 = i ∨ m = i + 1 → m < t.layerNo → OnTrack t m x y → Usual t i m x y →
      Placed s' i x y := by
  unfold addRow at h
  simp only at h
  have hbes : ∀ m, m < t.layerNo → m + 1 = i ∨ m = i + 1 → t.direct m ≠ t.direct i := by
    intro m hm k
    rcases k with k | k
    · rw [← k]; exact ht.turn m (by omega)
    · rw [k]; exact fun e => ht.turn i (by omega) e.symm
  by_cases h0 : t.direct i = 0
  · rw [if_pos h0] at h
    by_cases hx : q.x1 ≠ q.x2
    · rw [if_pos hx] at h
      rw [← Option.some.inj h]
      exact ⟨fun _ _ _ => id, fun x y m k => absurd (k h0) hx⟩
    rw [if_neg hx] at h
    cases ha : crossings t (yUnit t) i (max (q.y1 - Int.tdiv q.h1 2) lly) (min (q.y2 + Int.tdiv q.h2 2) ury) with
    | none => rw [ha] at h; simp at h
    | some ys =>
      cases hb : steps (max (q.x1 - Int.tdiv q.w1 2) llx) (min (q.x2 + Int.tdiv q.w2 2) urx) (t.offset i) (xUnit t i) with
      | none => rw [ha, hb] at h; simp at h
      | some xs =>
        rw [ha, hb] at h
        rw [← Option.some.inj h]
        obtain ⟨k1, k2⟩ := placed_tracks (t := t) (unit := yUnit t) (i := i) (hor := false) (ys := ys) (lns := xs) (s := s)
        refine ⟨k1, fun x y m _ _ hc ho hm hlt hom hus => ?_⟩
        obtain ⟨⟨c1, c2, c3, c4⟩, c5, c6, c7, c8⟩ := hc
        have hd : t.direct m = 1 := (ht.dirs m hlt).resolve_left (fun e => hbes m hlt hm (e.trans h0.symm))
        have hu : yUnit t m = t.unitY m * t.scale := if_pos hd
        have h1 : yUnit t m ∣ y - t.offset m := by
          rcases hom with ⟨e, _⟩ | ⟨_, e⟩
          · rw [hd] at e; exact absurd e (by decide)
          · rw [hu]; exact e
        have h2 : xUnit t i ∣ x - t.offset i := by
          rcases ho with ⟨_, e⟩ | ⟨e, _⟩
          · rw [show xUnit t i = t.unitX i * t.scale from if_pos h0]; exact e
          · rw [h0] at e; exact absurd e (by decide)
        refine k2 x (steps_all hb (by omega) (by omega) h2) y (crossings_all ha hm hlt (by omega) (by omega) h1) (marked_all hm h1 ?_)
        exact hus.imp id (Or.imp id (fun k => ⟨k.2.1, k.2.2.1, by rw [hu]; exact k.2.2.2.2 hd⟩))
  · have h1 := (ht.dirs i hi).resolve_left h0
    rw [if_neg h0, if_pos h1] at h
    by_cases hy : q.y1 ≠ q.y2
    · rw [if_pos hy] at h
      rw [← Option.some.inj h]
      exact ⟨fun _ _ _ => id, fun x y m _ k => absurd (k h1) hy⟩
    rw [if_neg hy] at h
    cases ha : crossings t (xUnit t) i (max (q.x1 - Int.tdiv q.w1 2) llx) (min (q.x2 + Int.tdiv q.w2 2) urx) with
    | none => rw [ha] at h; simp at h
    | some xs =>
      cases hb : steps (max (q.y1 - Int.tdiv q.h1 2) lly) (min (q.y2 + Int.tdiv q.h2 2) ury) (t.offset i) (yUnit t i) with
      | none => rw [ha, hb] at h; simp at h
      | some ys =>
        rw [ha, hb] at h
        rw [← Option.some.inj h]
        obtain ⟨k1, k2⟩ := placed_tracks (t := t) (unit := xUnit t) (i := i) (hor := true) (ys := xs) (lns := ys) (s := s)
        refine ⟨k1, fun x y m _ _ hc ho hm hlt hom hus => ?_⟩
        obtain ⟨⟨c1, c2, c3, c4⟩, c5, c6, c7, c8⟩ := hc
        have hd : t.direct m = 0 := (ht.dirs m hlt).resolve_right (fun e => hbes m hlt hm (e.trans h1.symm))
        have hu : xUnit t m = t.unitX m * t.scale := if_pos hd
        have h3 : xUnit t m ∣ x - t.offset m := by
          rcases hom with ⟨_, e⟩ | ⟨e, _⟩
          · rw [hu]; exact e
          · rw [hd] at e; exact absurd e (by decide)
        have h2 : yUnit t i ∣ y - t.offset i := by
          rcases ho with ⟨e, _⟩ | ⟨_, e⟩
          · exact absurd e h0
          · rw [show yUnit t i = t.unitY i * t.scale from if_pos h1]; exact e
        refine k2 y (steps_all hb (by omega) (by omega) h2) x (crossings_all ha hm hlt (by omega) (by omega) h3) (marked_all hm h3 ?_)
        exact hus.imp id (Or.imp id (fun k => ⟨k.1, k.2.2.1, by rw [hu]; exact k.2.2.2.1 hd⟩))

theorem placed_rows {t : Tech} (ht : Sane t) {llx lly urx ury : Int} {i : Nat} (hi : i < t.layerNo) : ∀ {l : List Row} {s s' : St},
    l.foldlM (addRow t llx lly urx ury i) s = some s' → (∀ j x z, Placed s j x z → Placed s' j x z)
      ∧ ∀ q ∈ l, ∀ x y m, (t.direct i = 0 → q.x1 = q.x2) → (t.direct i = 1 → q.y1 = q.y2) →
      Covers llx lly urx ury q x y → OnTrack t i x y → m + 1 = i ∨ m = i + 1 → m < t.layerNo → OnTrack t m x y → Usual t i m x y →
      Placed s' i x y
  | [], s, s', h => by
    have h : s = s' := by simpa using h
    rw [← h]
    exact ⟨fun _ _ _ => id, fun q hq => absurd hq (by simp)⟩
  | a :: l, s, s', h => by
    rw [List.foldlM_cons] at h
    cases hq : addRow t llx lly urx ury i s a with
    | none => rw [hq] at h; simp at h
    | some s₁ =>
      rw [hq] at h
      have h : l.foldlM (addRow t llx lly urx ury i) s₁ = some s' := by simpa using h
      obtain ⟨h1, h2⟩ := placed_row ht hi hq
      obtain ⟨h3, h4⟩ := placed_rows ht hi h
      refine ⟨fun j x z k => h3 j x z (h1 j x z k), fun q hq' x y m a1 a2 a3 a4 a5 a6 a7 a8 => ?_⟩
      rcases List.mem_cons.1 hq' with e | hq'
      · subst e; exact h3 _ _ _ (h2 x y m a1 a2 a3 a4 a5 a6 a7 a8)
      · exact h4 q hq' x y m a1 a2 a3 a4 a5 a6 a7 a8

theorem placed_layers {t : Tech} (ht : Sane t) {llx lly urx ury : Int} {rows : Nat → List Row} : ∀ {l : List Nat} {s s' : St}
    {rs rs' : List (Nat × Nat × Nat)}, l.foldlM (addLayer t llx lly urx ury rows) (s, rs) = some (s', rs') →
    (∀ j x z, Placed s j x z → Placed s' j x z)
      ∧ ∀ i ∈ l, ∀ q ∈ rows i, ∀ x y m, (t.direct i = 0 → q.x1 = q.x2) → (t.direct i = 1 → q.y1 = q.y2) →
      Covers llx lly urx ury q x y → OnTrack t i x y → m + 1 = i ∨ m = i + 1 → m < t.layerNo → OnTrack t m x y → Usual t i m x y →
      Placed s' i x y
  | [], s, s', rs, rs', e => by
    have e : (s, rs) = (s', rs') := by simpa using e
    rw [← (Prod.mk.inj e).1]
    exact ⟨fun _ _ _ => id, fun q hq => absurd hq (by simp)⟩
  | i :: l, s, s', rs, rs', e => by
    rw [List.foldlM_cons] at e
    cases hq : addLayer t llx lly urx ury rows (s, rs) i with
    | none => rw [hq] at e; simp at e
    | some q =>
      rw [hq] at e
      have e : l.foldlM (addLayer t llx lly urx ury rows) q = some (s', rs') := by simpa using e
      unfold addLayer at hq
      by_cases hno : t.layerNo ≤ i
      · rw [if_pos hno] at hq; simp at hq
      rw [if_neg hno] at hq
      cases hw : (rows i).foldlM (addRow t llx lly urx ury i) s with
      | none => simp only [hw] at hq; simp at hq
      | some s₁ =>
        simp only [hw] at hq
        have hq := Option.some.inj hq
        rw [← hq] at e
        obtain ⟨h1, h2⟩ := placed_rows ht (by omega) hw
        obtain ⟨h3, h4⟩ := placed_layers ht e
        refine ⟨fun j x z k => h3 j x z (h1 j x z k), fun j hj q hq' x y m a1 a2 a3 a4 a5 a6 a7 a8 => ?_⟩
        rcases List.mem_cons.1 hj with k | hj
        · subst k; exact h3 _ _ _ (h2 q hq' x y m a1 a2 a3 a4 a5 a6 a7 a8)
        · exact h4 j hj q hq' x y m a1 a2 a3 a4 a5 a6 a7 a8

/-- C115, in part: every crossing of tracks within a row of tiles has a node, on layers with one layer beside, and on the others if
coordinates are not negative and tracks begin within one distance of zero. -/
theorem C115_all_partial {t : Tech} (ht : Sane t) {llx lly urx ury : Int} {rows : Nat → List Row} {low high : Nat} {cx cy : Int} {g : Grid}
    (h : build t llx lly urx ury rows low high cx cy = some g) {i m : Nat} {q : Row} {x y : Int} (hl : low ≤ i) (hh : i ≤ high)
    (hq : q ∈ rows i) (hq0 : t.direct i = 0 → q.x1 = q.x2) (hq1 : t.direct i = 1 → q.y1 = q.y2) (hc : Covers llx lly urx ury q x y)
    (ho : OnTrack t i x y) (hm : m + 1 = i ∨ m = i + 1) (hlt : m < t.layerNo) (hom : OnTrack t m x y) (hu : Usual t i m x y) :
    ∃ v, v < g.size ∧ (g.vert v).metal = i ∧ (g.vert v).x = x ∧ (g.vert v).y = y := by
  unfold build at h
  cases hn : nodes t llx lly urx ury rows low high with
  | none => rw [hn] at h; simp at h
  | some z =>
    obtain ⟨s, rs⟩ := z
    rw [hn] at h
    have h := Option.some.inj h
    obtain ⟨h1, h2⟩ := nodes_spec hn
    have hv0 : Vias s s.vert := by
      refine ⟨fun v => ⟨⟨rfl, rfl, rfl, rfl, rfl, rfl⟩, rfl, rfl, rfl, rfl⟩, ?_, ?_⟩
      · intro v n hv e; rw [(h1.alone v hv).1] at e; simp at e
      · intro v n hv e; rw [(h1.alone v hv).2] at e; simp at e
    have hj := jobs_ok (high := high) h2
    obtain ⟨k1, _, _⟩ := vias_jobs h1 hj hv0
    rw [← link_jobs] at k1
    obtain ⟨_, h4⟩ := placed_layers ht hn
    obtain ⟨e, e1, e2⟩ := h4 i (List.mem_range'_1.2 ⟨hl, by omega⟩) q hq x y m hq0 hq1 hc ho hm hlt hom hu
    obtain ⟨n1, n2, n3, n4⟩ := h1.sound e e1
    obtain ⟨⟨a1, a2, a3, _⟩, _⟩ := k1.core e.2
    rw [e2] at n2 n3 n4
    rw [← h]
    exact ⟨e.2, n1, a3.trans n2, a1.trans n3, a2.trans n4⟩

/-! ### Two tiles beside each other -/

/-- Two layers, the first horizontal, with tracks every 10 units. -/
def plain : Tech where
  layerNo := 2
  direct := fun m => if m = 0 then 1 else 0
  unitX := fun _ => 10
  unitY := fun _ => 10
  offset := fun _ => 0
  scale := 1

theorem plain_sane : Sane plain := by
  refine ⟨by decide, ?_, ?_, ?_⟩
  · intro m _
    by_cases h : m = 0
    · exact Or.inr (if_pos h)
    · exact Or.inl (if_neg h)
  · intro m hm
    have hm : m + 1 < 2 := hm
    rw [show m = 0 by omega]
    decide
  · intro m _
    exact ⟨fun _ => by show (0 : Int) < 10 * 1; decide, fun _ => by show (0 : Int) < 10 * 1; decide⟩

/-- Two tiles of 20 units beside each other: one row on the horizontal layer, two columns on the vertical one. -/
def twoTiles (m : Nat) : List Row :=
  if m = 0 then [⟨10, 30, 10, 10, 20, 20, 20, 20⟩] else [⟨10, 10, 10, 10, 20, 20, 20, 20⟩, ⟨30, 30, 10, 10, 20, 20, 20, 20⟩]

/-- C115 does not hold for vias downwards: the track on the border of two tiles is laid twice, and its second copy has no vias downwards
although there are nodes below. -/
theorem C115_violated : ∃ (t : Tech) (rows : Nat → List Row) (g : Grid) (u v w : Nat), Sane t
    ∧ build t 0 0 40 20 rows 0 1 0 0 = some g ∧ u < g.size ∧ v < g.size ∧ w < g.size
    ∧ (u ≠ w ∧ (g.vert u).metal = (g.vert w).metal ∧ (g.vert u).x = (g.vert w).x ∧ (g.vert u).y = (g.vert w).y)
    ∧ ((g.vert w).metal = (g.vert v).metal + 1 ∧ (g.vert w).x = (g.vert v).x ∧ (g.vert w).y = (g.vert v).y)
    ∧ (g.vert w).down = none := by
  obtain ⟨g, hg⟩ := C115_builds plain_sane (llx := 0) (lly := 0) (urx := 40) (ury := 20) (rows := twoTiles) (low := 0) (high := 1)
    (cx := 0) (cy := 0) (by decide)
  refine ⟨plain, twoTiles, g, 21, 2, 24, plain_sane, hg, ?_⟩
  have key : (build plain 0 0 40 20 twoTiles 0 1 0 0).elim false (fun g => decide (21 < g.size ∧ 2 < g.size ∧ 24 < g.size
    ∧ ((21 : Nat) ≠ 24 ∧ (g.vert 21).metal = (g.vert 24).metal ∧ (g.vert 21).x = (g.vert 24).x ∧ (g.vert 21).y = (g.vert 24).y)
    ∧ ((g.vert 24).metal = (g.vert 2).metal + 1 ∧ (g.vert 24).x = (g.vert 2).x ∧ (g.vert 24).y = (g.vert 2).y)
    ∧ (g.vert 24).down = none)) = true := by
    decide +kernel
  rw [hg] at key
  exact of_decide_eq_true key

/-- C115 for the node at (20, 10) of the tiles above. -/
example : ∃ g, build plain 0 0 40 20 twoTiles 0 1 0 0 = some g
    ∧ ∃ v, v < g.size ∧ (g.vert v).metal = 0 ∧ (g.vert v).x = 20 ∧ (g.vert v).y = 10 := by
  obtain ⟨g, hg⟩ := C115_builds plain_sane (llx := 0) (lly := 0) (urx := 40) (ury := 20) (rows := twoTiles) (low := 0) (high := 1)
    (cx := 0) (cy := 0) (by decide)
  refine ⟨g, hg, C115_all_partial plain_sane hg (m := 1) (q := ⟨10, 30, 10, 10, 20, 20, 20, 20⟩) (by decide) (by decide) (by simp [twoTiles])
    (fun e => absurd e (by decide)) (fun _ => rfl) ?_ ?_ (Or.inr rfl) (by decide) ?_ (Or.inl rfl)⟩
  · unfold Covers; decide
  · exact Or.inr ⟨rfl, by decide⟩
  · exact Or.inl ⟨rfl, by decide⟩

/-- Three layers whose tracks begin one distance above zero. -/
def shifted : Tech where
  layerNo := 3
  direct := fun m => if m = 1 then 0 else 1
  unitX := fun _ => 10
  unitY := fun _ => 10
  offset := fun _ => 10
  scale := 1

theorem shifted_sane : Sane shifted := by
  refine ⟨by decide, ?_, ?_, ?_⟩
  · intro m _
    by_cases h : m = 1
    · exact Or.inl (if_pos h)
    · exact Or.inr (if_neg h)
  · intro m hm
    have hm : m + 1 < 3 := hm
    by_cases h : m = 0
    · rw [h]; decide
    · rw [show m = 1 by omega]; decide
  · intro m _
    exact ⟨fun _ => by show (0 : Int) < 10 * 1; decide, fun _ => by show (0 : Int) < 10 * 1; decide⟩

/-- C115 does not hold for all crossings: on a layer between two others, crossings are tested by the rest of a division against the
first track, so none has a node if tracks begin one distance above zero. -/
theorem C115_violated_all : ∃ (t : Tech) (q : Row) (g : Grid) (x y : Int), Sane t
    ∧ build t 0 0 20 20 (fun _ => [q]) 0 2 0 0 = some g ∧ q.x1 = q.x2 ∧ q.y1 = q.y2 ∧ Covers 0 0 20 20 q x y
    ∧ OnTrack t 1 x y ∧ OnTrack t 0 x y ∧ ¬∃ v, v < g.size ∧ (g.vert v).metal = 1 := by
  obtain ⟨g, hg⟩ := C115_builds shifted_sane (llx := 0) (lly := 0) (urx := 20) (ury := 20)
    (rows := fun _ => [(⟨10, 10, 10, 10, 20, 20, 20, 20⟩ : Row)]) (low := 0) (high := 2) (cx := 0) (cy := 0) (by decide)
  refine ⟨shifted, ⟨10, 10, 10, 10, 20, 20, 20, 20⟩, g, 10, 10, shifted_sane, hg, rfl, rfl, ?_, Or.inl ⟨rfl, by decide⟩,
    Or.inr ⟨rfl, by decide⟩, ?_⟩
  · unfold Covers; decide
  · have key : (build shifted 0 0 20 20 (fun _ => [⟨10, 10, 10, 10, 20, 20, 20, 20⟩]) 0 2 0 0).elim false
        (fun g => (List.range g.size).all (fun v => decide ((g.vert v).metal ≠ 1))) = true := by
      decide +kernel
    rw [hg] at key
    rintro ⟨v, h1, h2⟩
    exact of_decide_eq_true (List.all_eq_true.1 key v (List.mem_range.2 h1)) h2

end Verif.RouteGrid

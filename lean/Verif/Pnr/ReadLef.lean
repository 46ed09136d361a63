import Verif.Lef.Model
import Mathlib.Tactic.ByContra

/-!
# C138: the placer and router reads the LEF files of ALIGN

`PnRDB/ReadLEF.cpp`: `_ReadLEF` 43-299, of files that `align/cell_fabric/gen_lef.py` writes (`lef_from_layout_d` 7-81; C64 says what these contain).

Simplifications: a line is the list of its words, a number is a word without letters. The rectangles of a via around its centre (from its model, C134) and the centres of metal
rectangles are left out. `unitScale` is 2000. A word that is missing, `stod` of a text and a failed `assert` are `none`. The map `lefData` from names to lists of macros is the list of macros.
-/

namespace Verif.ReadLef

open Verif.Lef (Rect Shape)

/-! ## The code -/

inductive Word where
  | txt (s : List Char)
  | num (i : Int)

def Word.text : Word → List Char
  | .txt s => s
  | .num i => (toString i).toList

/-- Whether `k` is found in the characters. -/
def hasSub (k : List Char) : List Char → Bool
  | [] => k.isEmpty
  | c :: cs => k.isPrefixOf (c :: cs) || hasSub k cs

def Word.has (k : List Char) : Word → Bool
  | .txt s => hasSub k s
  | .num _ => false

/-- `def.find(k)` and the words of `get_true_word` after the first. -/
def after (k : List Char) : List Word → Option (List Word)
  | [] => none
  | w :: ws => if w.has k then some ws else after k ws

def END : List Char := ['E', 'N', 'D']

/-- `def.find("END " + name)`. -/
def endOf (name : List Char) : List Word → Bool
  | w :: v :: ws => (END.isSuffixOf w.text && name.isPrefixOf v.text) || endOf name (v :: ws)
  | _ => false

def MACRO : List Char := ['M', 'A', 'C', 'R', 'O']
def DATABASE : List Char := ['D', 'A', 'T', 'A', 'B', 'A', 'S', 'E']
def UNITS : List Char := ['U', 'N', 'I', 'T', 'S']
def SIZE : List Char := ['S', 'I', 'Z', 'E']
def PIN : List Char := ['P', 'I', 'N']
def OBS : List Char := ['O', 'B', 'S']
def LAYER : List Char := ['L', 'A', 'Y', 'E', 'R']
def RECT : List Char := ['R', 'E', 'C', 'T']
def USE : List Char := ['U', 'S', 'E']
def DIRECTION : List Char := ['D', 'I', 'R', 'E', 'C', 'T', 'I', 'O', 'N']
def PORT : List Char := ['P', 'O', 'R', 'T']

/-- A rectangle on a metal; a via: the number of its model and its centre. Both are set when the rectangle is read. -/
structure Metal where
  layer : List Char
  box : Option Rect
structure Via where
  model : Nat
  center : Option (Int × Int)
structure Pin where
  name : List Char
  use : List Char
  dir : List Char
  metals : List Metal
  vias : List Via
structure Macro where
  name : List Char
  width : Int
  height : Int
  pins : List Pin
  metals : List Metal
  vias : List Via

structure St where
  stage : Nat
  name : List Char
  pinEnd : List Char
  units : Int
  width : Int
  height : Int
  pins : List Pin
  metals : List Metal
  vias : List Via
  metalFlag : Bool
  viaFlag : Bool
  skip : Bool
  last : Option Char
  out : List Macro

/-- `v.back() = f(v.back())`. -/
def modLast {α : Type} (f : α → α) : List α → Option (List α)
  | [] => none
  | [x] => some [f x]
  | x :: y :: l => (modLast f (y :: l)).map (x :: ·)

/-- `parse_and_scale` (11-19) with `unitScale / units`: the nearest whole number, halves away from zero. -/
def scaled (units x : Int) : Int :=
  if 0 ≤ x then (2 * 2000 * x + units) / (2 * units) else -((2 * 2000 * (-x) + units) / (2 * units))

def getNum (ws : List Word) (i : Nat) : Option Int :=
  match ws[i]? with
  | some (.num n) => some n
  | _ => none
def getTxt (ws : List Word) (i : Nat) : Option (List Char) := (ws[i]?).map Word.text

/-- The four numbers of a rectangle (147-150, 231-234, 260-263). -/
def getRect (u : Int) (ws : List Word) : Option Rect :=
  (getNum ws 0).bind fun a => (getNum ws 1).bind fun b => (getNum ws 2).bind fun c => (getNum ws 3).bind fun d => some ⟨scaled u a, scaled u b, scaled u c, scaled u d⟩

/-- The centre of a via (166, 264). -/
def center (r : Rect) : Int × Int := ((r.x0 + r.x1).tdiv 2, (r.y0 + r.y1).tdiv 2)

/-- `get_true_word` from the start of the line (`readfile.cpp` 4-26): `cur` is the word that is being recorded. -/
def words : List Char → Option (List Char) → List (List Char)
  | [], cur => cur.toList
  | c :: cs, cur =>
    if c = ';' then cur.toList
    else if c ≠ ' ' ∧ c ≠ '\n' then words cs (some (cur.getD [] ++ [c]))
    else cur.toList ++ words cs none

variable (viamap : List Char → Nat)

/-- Idle (73-87). -/
def step0 (σ : St) (l : List Word) : Option St :=
  match after MACRO l with
  | some ws => (getTxt ws 0).map fun n => { σ with stage := 1, name := n, width := 0, height := 0, pins := [], metals := [], vias := [] }
  | none => some σ

/-- Within UNITS (88-94). -/
def step5 (σ : St) (l : List Word) : Option St :=
  if endOf UNITS l then some { σ with stage := 1 } else
  match after DATABASE l with
  | some ws => (getNum ws 2).map fun d => { σ with units := d }
  | none => some σ

/-- Within MACRO (95-133). -/
def step1 (σ : St) (l : List Word) : Option St :=
  match after SIZE l with
  | some ws => (getNum ws 0).bind fun w => (getNum ws 2).map fun h => { σ with width := scaled σ.units w, height := scaled σ.units h }
  | none =>
  match after UNITS l with
  | some _ => some { σ with stage := 5 }
  | none =>
  match after PIN l with
  | some ws => (getTxt ws 0).map fun n => { σ with stage := 2, pinEnd := n, pins := σ.pins ++ [⟨n, [], [], [], []⟩] }
  | none =>
  match after OBS l with
  | some _ => some { σ with stage := 4 }
  | none =>
  if endOf σ.name l then some { σ with stage := 0, out := σ.out ++ [⟨σ.name, σ.width, σ.height, σ.pins, σ.metals, σ.vias⟩] }
  else some σ

/-- Within OBS (134-194). -/
def step4 (σ : St) (l : List Word) : Option St :=
  match after LAYER l with
  | some ws => (getTxt ws 0).bind fun n =>
    if n.head? = some 'M' then some { σ with skip := false, last := n.head?, metals := σ.metals ++ [⟨n, none⟩] }
    else if n.head? = some 'V' ∧ n.getLast? ≠ some '0' then some { σ with skip := false, last := n.head?, vias := σ.vias ++ [⟨viamap n, none⟩] }
    else some { σ with skip := true, last := n.head? }
  | none =>
  match after RECT l with
  | some ws => (getRect σ.units ws).bind fun r =>
    let τ := { σ with last := none }
    if σ.skip then some τ
    else if σ.last = some 'M' then (modLast (fun m => { m with box := some r }) σ.metals).map fun ms => { τ with metals := ms }
    else if σ.last = some 'V' then (modLast (fun v => { v with center := some (center r) }) σ.vias).map fun vs => { τ with vias := vs }
    else some τ
  | none => if l.any (Word.has END) then some { σ with stage := 1 } else some σ

/-- Within PIN (195-214). -/
def step2 (σ : St) (l : List Word) : Option St :=
  match after USE l with
  | some ws => (getTxt ws 0).bind fun n => (modLast (fun p => { p with use := n }) σ.pins).map fun ps => { σ with pins := ps }
  | none =>
  match after DIRECTION l with
  | some ws => (getTxt ws 0).bind fun n => (modLast (fun p => { p with dir := n }) σ.pins).map fun ps => { σ with pins := ps }
  | none =>
  match after PORT l with
  | some _ => some { σ with stage := 3 }
  | none => if endOf σ.pinEnd l then some { σ with stage := 1 } else some σ

/-- Within PORT (215-295). -/
def step3 (σ : St) (l : List Word) : Option St :=
  match after LAYER l with
  | some ws => (getTxt ws 0).bind fun n =>
    if n.head? = some 'M' then (modLast (fun p => { p with metals := p.metals ++ [⟨n, none⟩] }) σ.pins).map fun ps => { σ with metalFlag := true, pins := ps }
    else if n.head? = some 'V' then (modLast (fun p => { p with vias := p.vias ++ [⟨viamap n, none⟩] }) σ.pins).map fun ps => { σ with viaFlag := true, pins := ps }
    else some { σ with metalFlag := false, viaFlag := false }
  | none =>
  match (if σ.metalFlag then after RECT l else none) with
  | some ws => (getRect σ.units ws).bind fun r =>
    (modLast (fun p => { p with metals := (modLast (fun m : Metal => { m with box := some r }) p.metals).getD [] }) σ.pins).map fun ps => { σ with metalFlag := false, pins := ps }
  | none =>
  match (if σ.viaFlag then after RECT l else none) with
  | some ws => (getRect σ.units ws).bind fun r =>
    (modLast (fun p => { p with vias := (modLast (fun v : Via => { v with center := some (center r) }) p.vias).getD [] }) σ.pins).map fun ps => { σ with viaFlag := false, pins := ps }
  | none =>
  if l.any (Word.has END) then
    (σ.pins.getLast?).bind fun p => if p.metals = [] then none else some { σ with stage := 2 }
  else some σ

/-- One line (67-296). -/
def step (σ : St) (l : List Word) : Option St :=
  match σ.stage with
  | 0 => step0 σ l
  | 1 => step1 σ l
  | 2 => step2 σ l
  | 3 => step3 viamap σ l
  | 4 => step4 viamap σ l
  | _ => step5 σ l

def run : List (List Word) → St → Option St
  | [], σ => some σ
  | l :: ls, σ => (step viamap σ l).bind (run ls)

/-- The flags are not initialised in the code. -/
def read (flags : Bool × Bool) (ls : List (List Word)) : Option (List Macro) :=
  (run viamap ls ⟨0, [], [], 1000, -1, -1, [], [], [], flags.1, flags.2, false, none, []⟩).map (·.out)

/-! ## What the properties say -/

/-- A cell that is written: a name, the scale factor and the contents (C64), with names as lists of characters. -/
structure Cell where
  name : List Char
  scale : Int
  size : Int × Int
  pins : List (List Char × List (List Char × Rect))
  obs : List (List Char × Rect)

/-- The words of the lines that are written (gen_lef.py 14-81). -/
def shapeLines (s : List Char × Rect) : List (List Word) := [[.txt LAYER, .txt s.1], [.txt RECT, .num s.2.x0, .num s.2.y0, .num s.2.x1, .num s.2.y1]]
def INOUT : List Char := ['I', 'N', 'O', 'U', 'T']
def SIGNAL : List Char := ['S', 'I', 'G', 'N', 'A', 'L']
def pinLines (p : List Char × List (List Char × Rect)) : List (List Word) :=
  [[.txt PIN, .txt p.1], [.txt DIRECTION, .txt INOUT], [.txt USE, .txt SIGNAL], [.txt PORT]] ++ p.2.flatMap shapeLines ++ [[.txt END], [.txt END, .txt p.1]]
def Cell.lines (c : Cell) : List (List Word) :=
  [[.txt MACRO, .txt c.name], [.txt UNITS], [.txt DATABASE, .txt ['M', 'I', 'C', 'R', 'O', 'N', 'S'], .txt UNITS, .num (1000 * c.scale)], [.txt END, .txt UNITS],
    [.txt ['O', 'R', 'I', 'G', 'I', 'N'], .num 0, .num 0], [.txt ['F', 'O', 'R', 'E', 'I', 'G', 'N'], .txt c.name, .num 0, .num 0],
    [.txt SIZE, .num c.size.1, .txt ['B', 'Y'], .num c.size.2]]
    ++ c.pins.flatMap pinLines ++ [[.txt OBS]] ++ c.obs.flatMap shapeLines ++ [[.txt END], [.txt END, .txt c.name]]

/-- The rectangle in units of half a nanometre, rounded. -/
def big (s : Int) (r : Rect) : Rect := ⟨scaled (1000 * s) r.x0, scaled (1000 * s) r.y0, scaled (1000 * s) r.x1, scaled (1000 * s) r.y1⟩

/-- The shapes on metals, and the vias among the shapes that `keep` keeps. -/
def metalsOf (s : Int) (l : List (List Char × Rect)) : List Metal := (l.filter fun x => x.1.head? = some 'M').map fun x => ⟨x.1, some (big s x.2)⟩
def viasOf (s : Int) (keep : List Char → Bool) (l : List (List Char × Rect)) : List Via :=
  (l.filter fun x => x.1.head? = some 'V' ∧ keep x.1).map fun x => ⟨viamap x.1, some ((((big s x.2).x0 + (big s x.2).x1).tdiv 2), (((big s x.2).y0 + (big s x.2).y1).tdiv 2))⟩

/-- What should be read. -/
def Cell.macro (c : Cell) : Macro :=
  ⟨c.name, scaled (1000 * c.scale) c.size.1, scaled (1000 * c.scale) c.size.2,
    c.pins.map fun p => ⟨p.1, SIGNAL, INOUT, metalsOf c.scale p.2, viasOf viamap c.scale (fun _ => true) p.2⟩,
    metalsOf c.scale c.obs, viasOf viamap c.scale (fun n => n.getLast? ≠ some '0') c.obs⟩

/-- Names without the words that the reader looks for, and pins with a shape on a metal. -/
structure Plain (c : Cell) : Prop where
  name : hasSub SIZE c.name = false ∧ hasSub UNITS c.name = false ∧ hasSub PIN c.name = false ∧ hasSub OBS c.name = false
  pin : ∀ p ∈ c.pins, hasSub SIZE p.1 = false ∧ hasSub UNITS p.1 = false ∧ hasSub USE p.1 = false ∧ hasSub DIRECTION p.1 = false ∧ hasSub PORT p.1 = false
  metal : ∀ p ∈ c.pins, ∃ s ∈ p.2, s.1.head? = some 'M'

/-! ## Proofs -/

theorem modLast_append {α : Type} (f : α → α) (x : α) : ∀ l : List α, modLast f (l ++ [x]) = some (l ++ [f x])
  | [] => rfl
  | [y] => rfl
  | y :: z :: l => by
    have := modLast_append f x (z :: l)
    simp only [List.cons_append] at this ⊢
    rw [modLast, this]
    rfl

theorem run_append (a b : List (List Word)) (σ : St) : run viamap (a ++ b) σ = (run viamap a σ).bind (run viamap b) := by
  induction a generalizing σ with
  | nil => rfl
  | cons l a ih =>
    simp only [List.cons_append, run]
    cases step viamap σ l with
    | none => rfl
    | some τ => exact ih τ

theorem suffix_self (n : List Char) : n.isPrefixOf n = true := by simp

theorem after_none {k : List Char} : ∀ {l : List Word}, (∀ w ∈ l, w.has k = false) → after k l = none
  | [], _ => rfl
  | w :: l, h => by
    unfold after
    rw [h w List.mem_cons_self, if_neg (by simp)]
    exact after_none fun x hx => h x (List.mem_cons_of_mem _ hx)

theorem after_two {k a b : List Char} (ha : hasSub k a = false) (hb : hasSub k b = false) : after k [.txt a, .txt b] = none :=
  after_none fun w hw => by
    simp only [List.mem_cons, List.not_mem_nil, or_false] at hw
    rcases hw with rfl | rfl
    · exact ha
    · exact hb

theorem endOf_self (n : List Char) : endOf n [.txt END, .txt n] = true := by
  show ((END.isSuffixOf END && n.isPrefixOf n) || false) = true
  rw [List.isPrefixOf_iff_prefix.2 (List.prefix_refl n)]
  rfl

/-- The line of a rectangle. -/
def rectLine (r : Rect) : List Word := [.txt RECT, .num r.x0, .num r.y0, .num r.x1, .num r.y1]

theorem getRect_line (s : Int) (r : Rect) : getRect (1000 * s) [.num r.x0, .num r.y0, .num r.x1, .num r.y1] = some (big s r) := rfl

theorem metals_cons_M (s : Int) {x : List Char × Rect} (l : List (List Char × Rect)) (h : x.1.head? = some 'M') : metalsOf s (x :: l) = ⟨x.1, some (big s x.2)⟩ :: metalsOf s l := by
  unfold metalsOf
  rw [List.filter_cons, if_pos (by simpa using h)]
  rfl
theorem metals_cons_not (s : Int) {x : List Char × Rect} (l : List (List Char × Rect)) (h : x.1.head? ≠ some 'M') : metalsOf s (x :: l) = metalsOf s l := by
  unfold metalsOf
  rw [List.filter_cons, if_neg (by simpa using h)]
theorem vias_cons_V (s : Int) {keep : List Char → Bool} {x : List Char × Rect} (l : List (List Char × Rect)) (h : x.1.head? = some 'V') (hk : keep x.1 = true) :
    viasOf viamap s keep (x :: l) = ⟨viamap x.1, some (center (big s x.2))⟩ :: viasOf viamap s keep l := by
  unfold viasOf
  rw [List.filter_cons, if_pos (by simp [h, hk])]
  rfl
theorem vias_cons_not (s : Int) {keep : List Char → Bool} {x : List Char × Rect} (l : List (List Char × Rect)) (h : ¬(x.1.head? = some 'V' ∧ keep x.1 = true)) :
    viasOf viamap s keep (x :: l) = viasOf viamap s keep l := by
  unfold viasOf
  rw [List.filter_cons, if_neg (by simpa using h)]

/-- The two lines of a shape in a port. -/
theorem port_shape (s : Int) (x : List Char × Rect) (σ : St) (ps : List Pin) (p : Pin) (h3 : σ.stage = 3) (hu : σ.units = 1000 * s) (hp : σ.pins = ps ++ [p])
    (hm : σ.metalFlag = false) (hv : σ.viaFlag = false) : run viamap (shapeLines x) σ
      = some { σ with pins := ps ++ [{ p with metals := p.metals ++ metalsOf s [x], vias := p.vias ++ viasOf viamap s (fun _ => true) [x] }] } := by
  have e1 : after LAYER [.txt LAYER, .txt x.1] = some [.txt x.1] := rfl
  have e2 : after LAYER (rectLine x.2) = none := rfl
  have e3 : after RECT (rectLine x.2) = some [.num x.2.x0, .num x.2.y0, .num x.2.x1, .num x.2.y1] := rfl
  have e4 : getTxt [Word.txt x.1] 0 = some x.1 := rfl
  have e5 : (rectLine x.2).any (Word.has END) = false := rfl
  show (step viamap σ [.txt LAYER, .txt x.1]).bind (fun τ => (step viamap τ (rectLine x.2)).bind some) = _
  unfold step
  rw [h3]
  simp only [step3, e1, e4, Option.bind_some]
  by_cases hM : x.1.head? = some 'M'
  · rw [if_pos hM, hp, modLast_append]
    simp only [Option.map_some, Option.bind_some, h3, e2, e3, if_true, hu, getRect_line, modLast_append, Option.getD_some]
    rw [metals_cons_M s [] hM, vias_cons_not viamap s [] (by rw [hM]; simp)]
    simp [metalsOf, viasOf, hm]
  · rw [if_neg hM]
    by_cases hV : x.1.head? = some 'V'
    · rw [if_pos hV, hp, modLast_append]
      simp only [Option.map_some, Option.bind_some, h3, e2, e3, hm, hu, getRect_line, modLast_append, Option.getD_some, Bool.false_eq_true, if_true, if_false]
      rw [metals_cons_not s [] hM, vias_cons_V viamap s [] hV rfl]
      simp [metalsOf, viasOf, hv]
    · rw [if_neg hV]
      simp only [Option.bind_some, h3, e2, e5, Bool.false_eq_true, if_false]
      rw [metals_cons_not s [] hM, vias_cons_not viamap s [] (fun h => hV h.1)]
      simp [metalsOf, viasOf, hv, hm, ← hp]

theorem metals_append (s : Int) (a b : List (List Char × Rect)) : metalsOf s (a ++ b) = metalsOf s a ++ metalsOf s b := by simp [metalsOf]
theorem vias_append (s : Int) (keep : List Char → Bool) (a b : List (List Char × Rect)) : viasOf viamap s keep (a ++ b) = viasOf viamap s keep a ++ viasOf viamap s keep b := by simp [viasOf]

/-- The shapes of a port. -/
theorem port_shapes (s : Int) : ∀ (l : List (List Char × Rect)) (σ : St) (ps : List Pin) (p : Pin), σ.stage = 3 → σ.units = 1000 * s → σ.pins = ps ++ [p] →
    σ.metalFlag = false → σ.viaFlag = false → run viamap (l.flatMap shapeLines) σ
      = some { σ with pins := ps ++ [{ p with metals := p.metals ++ metalsOf s l, vias := p.vias ++ viasOf viamap s (fun _ => true) l }] }
  | [], σ, ps, p, _, _, hp, _, _ => by simp [run, metalsOf, viasOf, ← hp]
  | x :: l, σ, ps, p, h3, hu, hp, hm, hv => by
    have ih := port_shapes s l { σ with pins := ps ++ [{ p with metals := p.metals ++ metalsOf s [x], vias := p.vias ++ viasOf viamap s (fun _ => true) [x] }] } ps _ h3 hu rfl hm hv
    rw [List.flatMap_cons, run_append, port_shape viamap s x σ ps p h3 hu hp hm hv, Option.bind_some, ih]
    simp only [List.append_assoc, ← metals_append, ← vias_append, List.singleton_append]

/-- The lines of a pin. -/
theorem pin_lines (s : Int) (q : List Char × List (List Char × Rect)) (σ : St) (h1 : σ.stage = 1) (hu : σ.units = 1000 * s) (hm : σ.metalFlag = false) (hv : σ.viaFlag = false)
    (hq : hasSub SIZE q.1 = false ∧ hasSub UNITS q.1 = false ∧ hasSub USE q.1 = false ∧ hasSub DIRECTION q.1 = false ∧ hasSub PORT q.1 = false)
    (hM : ∃ x ∈ q.2, x.1.head? = some 'M') : run viamap (pinLines q) σ
      = some { σ with pinEnd := q.1, pins := σ.pins ++ [⟨q.1, SIGNAL, INOUT, metalsOf s q.2, viasOf viamap s (fun _ => true) q.2⟩] } := by
  obtain ⟨n1, n2, n3, n4, n5⟩ := hq
  have a1 : after SIZE [.txt PIN, .txt q.1] = none := after_two rfl n1
  have a2 : after UNITS [.txt PIN, .txt q.1] = none := after_two rfl n2
  have a3 : after PIN [.txt PIN, .txt q.1] = some [.txt q.1] := rfl
  have a4 : getTxt [Word.txt q.1] 0 = some q.1 := rfl
  have b1 : after USE [.txt DIRECTION, .txt INOUT] = none := rfl
  have b2 : after DIRECTION [.txt DIRECTION, .txt INOUT] = some [.txt INOUT] := rfl
  have b3 : after USE [.txt USE, .txt SIGNAL] = some [.txt SIGNAL] := rfl
  have b4 : after USE [.txt PORT] = none := rfl
  have b5 : after DIRECTION [.txt PORT] = none := rfl
  have b6 : after PORT [.txt PORT] = some [] := rfl
  have c1 : getTxt [Word.txt INOUT] 0 = some INOUT := rfl
  have c2 : getTxt [Word.txt SIGNAL] 0 = some SIGNAL := rfl
  have d1 : after LAYER [.txt END] = none := rfl
  have d2 : after RECT [.txt END] = none := rfl
  have d3 : [Word.txt END].any (Word.has END) = true := rfl
  have f1 : after USE [.txt END, .txt q.1] = none := after_two rfl n3
  have f2 : after DIRECTION [.txt END, .txt q.1] = none := after_two rfl n4
  have f3 : after PORT [.txt END, .txt q.1] = none := after_two rfl n5
  unfold pinLines
  rw [run_append, run_append]
  have head : run viamap [[.txt PIN, .txt q.1], [.txt DIRECTION, .txt INOUT], [.txt USE, .txt SIGNAL], [.txt PORT]] σ
      = some { σ with stage := 3, pinEnd := q.1, pins := σ.pins ++ [⟨q.1, SIGNAL, INOUT, [], []⟩] } := by
    simp only [run, step, h1, step1, a1, a2, a3, a4, Option.map_some, Option.bind_some, step2, b1, b2, c1, modLast_append, b3, c2, b4, b5, b6]
  have hps := port_shapes viamap s q.2 { σ with stage := 3, pinEnd := q.1, pins := σ.pins ++ [⟨q.1, SIGNAL, INOUT, [], []⟩] } σ.pins _ rfl hu rfl hm hv
  rw [head, Option.bind_some, hps, Option.bind_some]
  have hne : metalsOf s q.2 ≠ [] := by
    obtain ⟨x, hx, hh⟩ := hM
    intro e
    have : (⟨x.1, some (big s x.2)⟩ : Metal) ∈ metalsOf s q.2 := List.mem_map.2 ⟨x, List.mem_filter.2 ⟨hx, by simpa using hh⟩, rfl⟩
    rw [e] at this
    simp at this
  simp only [run, step, step3, d1, d2, d3, hm, hv, Bool.false_eq_true, if_false, if_true, List.nil_append, List.getLast?_append, List.getLast?_singleton, Option.some_or, Option.bind_some, hne,
    step2, f1, f2, f3, endOf_self]
  rw [← h1]

theorem pins_lines (s : Int) : ∀ (qs : List (List Char × List (List Char × Rect))) (σ : St), σ.stage = 1 → σ.units = 1000 * s → σ.metalFlag = false → σ.viaFlag = false →
    (∀ q ∈ qs, (hasSub SIZE q.1 = false ∧ hasSub UNITS q.1 = false ∧ hasSub USE q.1 = false ∧ hasSub DIRECTION q.1 = false ∧ hasSub PORT q.1 = false)
      ∧ ∃ x ∈ q.2, x.1.head? = some 'M') → ∃ pe, run viamap (qs.flatMap pinLines) σ
      = some { σ with pinEnd := pe, pins := σ.pins ++ qs.map fun p => ⟨p.1, SIGNAL, INOUT, metalsOf s p.2, viasOf viamap s (fun _ => true) p.2⟩ }
  | [], σ, _, _, _, _, _ => ⟨σ.pinEnd, by simp [run]⟩
  | q :: qs, σ, h1, hu, hm, hv, hq => by
    obtain ⟨pe, ih⟩ := pins_lines s qs { σ with pinEnd := q.1, pins := σ.pins ++ [⟨q.1, SIGNAL, INOUT, metalsOf s q.2, viasOf viamap s (fun _ => true) q.2⟩] } h1 hu hm hv
      fun x hx => hq x (List.mem_cons_of_mem _ hx)
    refine ⟨pe, ?_⟩
    rw [List.flatMap_cons, run_append, pin_lines viamap s q σ h1 hu hm hv (hq q List.mem_cons_self).1 (hq q List.mem_cons_self).2, Option.bind_some, ih]
    simp

/-- The two lines of a shape of the obstructions. -/
theorem obs_shape (s : Int) (x : List Char × Rect) (σ : St) (h4 : σ.stage = 4) (hu : σ.units = 1000 * s) : ∃ sk, run viamap (shapeLines x) σ
      = some { σ with metals := σ.metals ++ metalsOf s [x], vias := σ.vias ++ viasOf viamap s (fun n => n.getLast? ≠ some '0') [x], skip := sk, last := none } := by
  have e1 : after LAYER [.txt LAYER, .txt x.1] = some [.txt x.1] := rfl
  have e2 : after LAYER (rectLine x.2) = none := rfl
  have e3 : after RECT (rectLine x.2) = some [.num x.2.x0, .num x.2.y0, .num x.2.x1, .num x.2.y1] := rfl
  have e4 : getTxt [Word.txt x.1] 0 = some x.1 := rfl
  have hrun : run viamap (shapeLines x) σ = (step viamap σ [.txt LAYER, .txt x.1]).bind (fun τ => (step viamap τ (rectLine x.2)).bind some) := rfl
  rw [hrun]
  unfold step
  rw [h4]
  simp only [step4, e1, e4, Option.bind_some]
  by_cases hM : x.1.head? = some 'M'
  · refine ⟨false, ?_⟩
    rw [if_pos hM]
    simp only [Option.bind_some, h4, e2, e3, hu, getRect_line, Bool.false_eq_true, if_false, hM, if_true, modLast_append, Option.map_some]
    rw [metals_cons_M s [] hM, vias_cons_not viamap s [] (by rw [hM]; simp)]
    simp [metalsOf, viasOf]
  · rw [if_neg hM]
    by_cases hV : x.1.head? = some 'V' ∧ x.1.getLast? ≠ some '0'
    · refine ⟨false, ?_⟩
      have hne : ¬(some 'V' = some 'M') := by decide
      rw [if_pos hV]
      simp only [Option.bind_some, h4, e2, e3, hu, getRect_line, Bool.false_eq_true, if_false, hV.1, hne, if_true, modLast_append, Option.map_some]
      rw [metals_cons_not s [] hM, vias_cons_V viamap s [] hV.1 (by simpa using hV.2)]
      simp [metalsOf, viasOf]
    · refine ⟨true, ?_⟩
      rw [if_neg hV]
      simp only [Option.bind_some, h4, e2, e3, hu, getRect_line, if_true]
      rw [metals_cons_not s [] hM, vias_cons_not viamap s [] (by simpa using hV)]
      simp [metalsOf, viasOf]

theorem obs_shapes (s : Int) : ∀ (l : List (List Char × Rect)) (σ : St), σ.stage = 4 → σ.units = 1000 * s → ∃ sk la, run viamap (l.flatMap shapeLines) σ
      = some { σ with metals := σ.metals ++ metalsOf s l, vias := σ.vias ++ viasOf viamap s (fun n => n.getLast? ≠ some '0') l, skip := sk, last := la }
  | [], σ, _, _ => ⟨σ.skip, σ.last, by simp [run, metalsOf, viasOf]⟩
  | x :: l, σ, h4, hu => by
    obtain ⟨sk, h⟩ := obs_shape viamap s x σ h4 hu
    obtain ⟨sk', la', ih⟩ := obs_shapes s l { σ with metals := σ.metals ++ metalsOf s [x], vias := σ.vias ++ viasOf viamap s (fun n => n.getLast? ≠ some '0') [x], skip := sk, last := none } h4 hu
    refine ⟨sk', la', ?_⟩
    rw [List.flatMap_cons, run_append, h, Option.bind_some, ih]
    simp only [List.append_assoc, ← metals_append, ← vias_append, List.singleton_append]

/-- The lines of a cell. -/
theorem cell_lines (c : Cell) (h : Plain c) (σ : St) (h0 : σ.stage = 0) (hm : σ.metalFlag = false) (hv : σ.viaFlag = false) :
    ∃ τ, run viamap c.lines σ = some τ ∧ τ.stage = 0 ∧ τ.metalFlag = false ∧ τ.viaFlag = false ∧ τ.out = σ.out ++ [c.macro viamap] := by
  obtain ⟨n1, n2, n3, n4⟩ := h.name
  have a1 : after MACRO [.txt MACRO, .txt c.name] = some [.txt c.name] := rfl
  have a2 : getTxt [Word.txt c.name] 0 = some c.name := rfl
  have a3 : after SIZE [.txt UNITS] = none := rfl
  have a4 : after UNITS [.txt UNITS] = some [] := rfl
  let dbl : List Word := [.txt DATABASE, .txt ['M', 'I', 'C', 'R', 'O', 'N', 'S'], .txt UNITS, .num (1000 * c.scale)]
  have b1 : endOf UNITS dbl = false := by
    show ((END.isSuffixOf DATABASE && _) || ((END.isSuffixOf ['M', 'I', 'C', 'R', 'O', 'N', 'S'] && _) || ((END.isSuffixOf UNITS && _) || false))) = false
    have x1 : END.isSuffixOf DATABASE = false := rfl
    have x2 : END.isSuffixOf ['M', 'I', 'C', 'R', 'O', 'N', 'S'] = false := rfl
    have x3 : END.isSuffixOf UNITS = false := rfl
    rw [x1, x2, x3]
    rfl
  have b2 : after DATABASE dbl = some [.txt ['M', 'I', 'C', 'R', 'O', 'N', 'S'], .txt UNITS, .num (1000 * c.scale)] := rfl
  have b3 : getNum [.txt ['M', 'I', 'C', 'R', 'O', 'N', 'S'], .txt UNITS, .num (1000 * c.scale)] 2 = some (1000 * c.scale) := rfl
  have b4 : endOf UNITS [.txt END, .txt UNITS] = true := rfl
  let org : List Word := [.txt ['O', 'R', 'I', 'G', 'I', 'N'], .num 0, .num 0]
  have c1 : after SIZE org = none := rfl
  have c2 : after UNITS org = none := rfl
  have c3 : after PIN org = none := rfl
  have c4 : after OBS org = none := rfl
  have n00 : END.isSuffixOf (Word.num 0).text = false := by decide +kernel
  have c5 : endOf c.name org = false := by
    show ((END.isSuffixOf ['O', 'R', 'I', 'G', 'I', 'N'] && _) || ((END.isSuffixOf (Word.num 0).text && _) || false)) = false
    have x1 : END.isSuffixOf ['O', 'R', 'I', 'G', 'I', 'N'] = false := rfl
    rw [x1, n00]
    rfl
  let fgn : List Word := [.txt ['F', 'O', 'R', 'E', 'I', 'G', 'N'], .txt c.name, .num 0, .num 0]
  have fg : ∀ k : List Char, hasSub k ['F', 'O', 'R', 'E', 'I', 'G', 'N'] = false → hasSub k c.name = false → after k fgn = none := by
    intro k k1 k2
    refine after_none fun w hw => ?_
    simp only [fgn, List.mem_cons, List.not_mem_nil, or_false] at hw
    rcases hw with rfl | rfl | rfl | rfl
    · exact k1
    · exact k2
    · rfl
    · rfl
  have d1 : after SIZE fgn = none := fg _ rfl n1
  have d2 : after UNITS fgn = none := fg _ rfl n2
  have d3 : after PIN fgn = none := fg _ rfl n3
  have d4 : after OBS fgn = none := fg _ rfl n4
  have d5 : endOf c.name fgn = false := by
    show ((END.isSuffixOf ['F', 'O', 'R', 'E', 'I', 'G', 'N'] && _) || ((END.isSuffixOf c.name && c.name.isPrefixOf (Word.num 0).text) || ((END.isSuffixOf (Word.num 0).text && _) || false))) = false
    have x1 : END.isSuffixOf ['F', 'O', 'R', 'E', 'I', 'G', 'N'] = false := rfl
    have x2 : (END.isSuffixOf c.name && c.name.isPrefixOf (Word.num 0).text) = false := by
      by_contra hne
      have hne' : (END.isSuffixOf c.name && c.name.isPrefixOf (Word.num 0).text) = true := by simpa using hne
      rw [Bool.and_eq_true] at hne'
      have l1 := (List.isSuffixOf_iff_suffix.1 hne'.1).length_le
      have l2 := (List.isPrefixOf_iff_prefix.1 hne'.2).length_le
      have l3 : (Word.num 0).text.length = 1 := by decide +kernel
      have l4 : END.length = 3 := rfl
      omega
    rw [x1, x2, n00]
    rfl
  let szl : List Word := [.txt SIZE, .num c.size.1, .txt ['B', 'Y'], .num c.size.2]
  have s1 : after SIZE szl = some [.num c.size.1, .txt ['B', 'Y'], .num c.size.2] := rfl
  have s2 : getNum [.num c.size.1, .txt ['B', 'Y'], .num c.size.2] 0 = some c.size.1 := rfl
  have s3 : getNum [.num c.size.1, .txt ['B', 'Y'], .num c.size.2] 2 = some c.size.2 := rfl
  let σ1 : St := { σ with stage := 1, name := c.name, units := 1000 * c.scale, width := scaled (1000 * c.scale) c.size.1, height := scaled (1000 * c.scale) c.size.2,
                          pins := [], metals := [], vias := [] }
  have head : run viamap [[.txt MACRO, .txt c.name], [.txt UNITS], dbl, [.txt END, .txt UNITS], org, fgn, szl] σ = some σ1 := by
    simp only [run, step, h0, step0, a1, a2, Option.map_some, Option.bind_some, step1, a3, a4, step5, b1, b2, b3, b4, Bool.false_eq_true, if_false, if_true, c1, c2, c3, c4, c5,
      d1, d2, d3, d4, d5, s1, s2, s3, σ1]
  obtain ⟨pe, hp⟩ := pins_lines viamap c.scale c.pins σ1 rfl rfl hm hv fun q hq => ⟨h.pin q hq, h.metal q hq⟩
  have o1 : after SIZE [.txt OBS] = none := rfl
  have o2 : after UNITS [.txt OBS] = none := rfl
  have o3 : after PIN [.txt OBS] = none := rfl
  have o4 : after OBS [.txt OBS] = some [] := rfl
  have g1 : after LAYER [.txt END] = none := rfl
  have g2 : after RECT [.txt END] = none := rfl
  have g3 : [Word.txt END].any (Word.has END) = true := rfl
  have m1 : after SIZE [.txt END, .txt c.name] = none := after_two rfl n1
  have m2 : after UNITS [.txt END, .txt c.name] = none := after_two rfl n2
  have m3 : after PIN [.txt END, .txt c.name] = none := after_two rfl n3
  have m4 : after OBS [.txt END, .txt c.name] = none := after_two rfl n4
  have hlines : c.lines = [[.txt MACRO, .txt c.name], [.txt UNITS], dbl, [.txt END, .txt UNITS], org, fgn, szl] ++ c.pins.flatMap pinLines ++ [[.txt OBS]] ++ c.obs.flatMap shapeLines
    ++ [[.txt END], [.txt END, .txt c.name]] := rfl
  rw [hlines, run_append, run_append, run_append, run_append, head, Option.bind_some, hp, Option.bind_some]
  simp only [run, step, σ1, step1, o1, o2, o3, o4, Option.bind_some]
  obtain ⟨sk, la, ho⟩ := obs_shapes viamap c.scale c.obs
    { σ with stage := 4, name := c.name, units := 1000 * c.scale, width := scaled (1000 * c.scale) c.size.1, height := scaled (1000 * c.scale) c.size.2,
             pinEnd := pe, pins := [] ++ c.pins.map fun p => ⟨p.1, SIGNAL, INOUT, metalsOf c.scale p.2, viasOf viamap c.scale (fun _ => true) p.2⟩, metals := [], vias := [] } rfl rfl
  rw [ho, Option.bind_some]
  simp only [step4, g1, g2, g3, if_true, Option.bind_some, m1, m2, m3, m4, endOf_self]
  exact ⟨_, rfl, rfl, hm, hv, rfl⟩

theorem words_word (w : List Char) (h : ∀ c ∈ w, c ≠ ';' ∧ c ≠ ' ' ∧ c ≠ '\n') : ∀ (cs : List Char) (a : List Char), words (w ++ cs) (some a) = words cs (some (a ++ w)) := by
  induction w with
  | nil => intro cs a; simp
  | cons c w ih =>
    intro cs a
    obtain ⟨h1, h2, h3⟩ := h c List.mem_cons_self
    rw [List.cons_append, words, if_neg h1, if_pos ⟨h2, h3⟩, ih fun x hx => h x (List.mem_cons_of_mem _ hx)]
    simp

theorem words_blank (n : Nat) (cs : List Char) : words (List.replicate n ' ' ++ cs) none = words cs none := by
  induction n with
  | zero => rfl
  | succ n ih =>
    rw [List.replicate_succ, List.cons_append, words, if_neg (by decide), if_neg (by decide), ih]
    rfl

/-! ## The theorems -/

/-- C138: the words of a line, with blanks before it and a semicolon after it, are found, whatever follows; also if there is no blank before the semicolon or the end of the line. -/
theorem C138_words (n : Nat) (ws : List (List Char)) (h : ∀ w ∈ ws, w ≠ [] ∧ ∀ c ∈ w, c ≠ ';' ∧ c ≠ ' ' ∧ c ≠ '\n') (rest : List Char) :
    words (List.replicate n ' ' ++ ws.flatMap (fun w => w ++ [' ']) ++ ';' :: rest) none = ws
      ∧ words (List.replicate n ' ' ++ ws.flatMap (fun w => w ++ [' '])) none = ws
      ∧ ∀ w : List Char, w ≠ [] → (∀ c ∈ w, c ≠ ';' ∧ c ≠ ' ' ∧ c ≠ '\n') →
        words (List.replicate n ' ' ++ ws.flatMap (fun w => w ++ [' ']) ++ w ++ ';' :: rest) none = ws ++ [w]
          ∧ words (List.replicate n ' ' ++ ws.flatMap (fun w => w ++ [' ']) ++ w) none = ws ++ [w] := by
  have key : ∀ (ws : List (List Char)), (∀ w ∈ ws, w ≠ [] ∧ ∀ c ∈ w, c ≠ ';' ∧ c ≠ ' ' ∧ c ≠ '\n') → ∀ cs, words (ws.flatMap (fun w => w ++ [' ']) ++ cs) none = ws ++ words cs none := by
    intro ws
    induction ws with
    | nil => intro _ cs; rfl
    | cons w ws ih =>
      intro h cs
      obtain ⟨hne, hw⟩ := h w List.mem_cons_self
      cases w with
      | nil => exact absurd rfl hne
      | cons c w =>
        obtain ⟨h1, h2, h3⟩ := hw c List.mem_cons_self
        rw [List.flatMap_cons, List.append_assoc, List.append_assoc, List.cons_append, words, if_neg h1, if_pos ⟨h2, h3⟩,
          words_word w fun x hx => hw x (List.mem_cons_of_mem _ hx)]
        rw [List.cons_append, words, if_neg (by decide), if_neg (by decide), List.nil_append, ih fun x hx => h x (List.mem_cons_of_mem _ hx)]
        rfl
  refine ⟨?_, ?_, ?_⟩
  · rw [List.append_assoc, words_blank, key ws h]
    rw [words, if_pos rfl]
    simp
  · rw [words_blank]
    have := key ws h []
    rw [List.append_nil] at this
    rw [this]
    simp [words]
  · intro w hne hw
    have hlast : ∀ cs, words (w ++ cs) none = words cs (some w) := by
      intro cs
      cases w with
      | nil => exact absurd rfl hne
      | cons c w =>
        obtain ⟨h1, h2, h3⟩ := hw c List.mem_cons_self
        rw [List.cons_append, words, if_neg h1, if_pos ⟨h2, h3⟩, words_word w fun x hx => hw x (List.mem_cons_of_mem _ hx)]
        rfl
    constructor
    · rw [List.append_assoc, List.append_assoc, words_blank, key ws h, hlast, words, if_pos rfl]
      rfl
    · rw [List.append_assoc, words_blank, key ws h]
      have := hlast []
      rw [List.append_nil] at this
      rw [this]
      rfl

/-- C138, for names without the words that the reader looks for, if the flags are false at the start: the macros that are read are the cells that were written. -/
theorem C138_read_partial (cs : List Cell) (h : ∀ c ∈ cs, Plain c) : read viamap (false, false) (cs.flatMap Cell.lines) = some (cs.map (Cell.macro viamap)) := by
  have key : ∀ (cs : List Cell), (∀ c ∈ cs, Plain c) → ∀ σ : St, σ.stage = 0 → σ.metalFlag = false → σ.viaFlag = false →
      (run viamap (cs.flatMap Cell.lines) σ).map (·.out) = some (σ.out ++ cs.map (Cell.macro viamap)) := by
    intro cs
    induction cs with
    | nil => intro _ σ _ _ _; simp [run]
    | cons c cs ih =>
      intro h σ h0 hm hv
      obtain ⟨τ, t1, t2, t3, t4, t5⟩ := cell_lines viamap c (h c List.mem_cons_self) σ h0 hm hv
      rw [List.flatMap_cons, run_append, t1, Option.bind_some, ih (fun x hx => h x (List.mem_cons_of_mem _ hx)) τ t2 t3 t4, t5]
      simp
  unfold read
  rw [key cs h _ rfl rfl rfl]
  rfl

/-- C138: lengths are the nearest whole number of half nanometres, and exact if the scale factor is 1 or 2. -/
theorem C138_scaled (s x : Int) (hs : 0 < s) : 2 * (scaled (1000 * s) x * (1000 * s) - 2000 * x) ≤ 1000 * s ∧ -(1000 * s) ≤ 2 * (scaled (1000 * s) x * (1000 * s) - 2000 * x)
    ∧ (s = 1 → scaled (1000 * s) x = 2 * x) ∧ (s = 2 → scaled (1000 * s) x = x) := by
  have hkey : ∀ y : Int, 0 ≤ y → 2 * ((2 * 2000 * y + 1000 * s) / (2 * (1000 * s)) * (1000 * s)) ≤ 2 * 2000 * y + 1000 * s
      ∧ 2 * 2000 * y + 1000 * s < 2 * ((2 * 2000 * y + 1000 * s) / (2 * (1000 * s)) * (1000 * s)) + 2 * (1000 * s) := by
    intro y _
    have h1 := Int.ediv_mul_le (2 * 2000 * y + 1000 * s) (b := 2 * (1000 * s)) (by omega)
    have h2 := Int.lt_ediv_add_one_mul_self (2 * 2000 * y + 1000 * s) (b := 2 * (1000 * s)) (by omega)
    generalize (2 * 2000 * y + 1000 * s) / (2 * (1000 * s)) = q at *
    have e1 : q * (2 * (1000 * s)) = 2 * (q * (1000 * s)) := by rw [Int.mul_left_comm]
    have e2 : (q + 1) * (2 * (1000 * s)) = 2 * (q * (1000 * s)) + 2 * (1000 * s) := by rw [Int.add_mul, e1, Int.one_mul]
    omega
  unfold scaled
  refine ⟨?_, ?_, ?_, ?_⟩
  · split
    · have := hkey x (by assumption)
      omega
    · have := hkey (-x) (by omega)
      rw [Int.neg_mul]
      omega
  · split
    · have := hkey x (by assumption)
      omega
    · have := hkey (-x) (by omega)
      rw [Int.neg_mul]
      omega
  · intro e; subst e
    split <;> omega
  · intro e; subst e
    split <;> omega

/-- A cell with a pin and an obstruction. -/
def exCell (name pin layer : List Char) : Cell :=
  ⟨name, 1, (100, 200), [(pin, [(layer, ⟨0, 10, 20, 30⟩), (['M', '2'], ⟨0, 10, 20, 30⟩)])], [(['V', '2'], ⟨4, 4, 8, 8⟩), (['M', '3'], ⟨0, 0, 8, 8⟩)]⟩
example : Plain (exCell ['I', 'N', 'V'] ['A'] ['M', '1']) := by
  refine ⟨by decide, ?_, ?_⟩
  · intro p hp
    have : p = (['A'], [(['M', '1'], ⟨0, 10, 20, 30⟩), (['M', '2'], ⟨0, 10, 20, 30⟩)]) := by simpa [exCell] using hp
    subst this
    decide
  · intro p hp
    have : p = (['A'], [(['M', '1'], ⟨0, 10, 20, 30⟩), (['M', '2'], ⟨0, 10, 20, 30⟩)]) := by simpa [exCell] using hp
    subst this
    exact ⟨_, List.mem_cons_self, rfl⟩

/-- C138 does not hold: a cell PING is not read at all, since its FOREIGN line is taken for a pin; a pin SIZE stops the reader; the END of a pin REUSE is not seen. -/
theorem C138_violated : (read (fun _ => 0) (false, false) (exCell ['P', 'I', 'N', 'G'] ['A'] ['M', '1']).lines).map List.length = some 0
    ∧ (read (fun _ => 0) (false, false) (exCell ['I', 'N', 'V'] ['S', 'I', 'Z', 'E'] ['M', '1']).lines).isNone = true
    ∧ (read (fun _ => 0) (false, false) (exCell ['I', 'N', 'V'] ['R', 'E', 'U', 'S', 'E'] ['M', '1']).lines).map List.length ≠ some 1 := by decide +kernel

/-- C138 does not hold: what is read of a pin whose first shape is a via depends on a variable that is not set. -/
theorem C138_violated_flags : (read (fun _ => 0) (true, false) (exCell ['I', 'N', 'V'] ['A'] ['V', '1']).lines).map (fun ms => ms.map fun m => m.pins.map fun p => p.vias.map (·.center))
    ≠ (read (fun _ => 0) (false, false) (exCell ['I', 'N', 'V'] ['A'] ['V', '1']).lines).map (fun ms => ms.map fun m => m.pins.map fun p => p.vias.map (·.center)) := by decide +kernel

end Verif.ReadLef

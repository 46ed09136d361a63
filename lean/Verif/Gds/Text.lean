import Verif.Pnr.Names
import Mathlib.Data.List.Basic

/-!
# C52: GDS JSON to text and back

Model of `align/gdsconv/json2txt.py` (13-68) and `align/gdsconv/txt2json.py` (10-75) for boundaries, texts and
references.  Strings are lists of characters.

Simplifications: the tables of the package `gdsii` (tags and their types) are written down for the tags
used here.  Floating point numbers are values of a type `R` with a printing and a reading function (`str` and
`float`), described by `RealIO`; integers are read without the underscores that Python admits.  Lists of numbers are
leaves of the JSON data.
-/

namespace Verif.Gds

open Verif.Pnr (pyStr isDig_pyStr digitsVal_pyStr)
open Verif.Schema (isDig digitsVal)

abbrev Str := List Char

/-! ## JSON data -/

/-- JSON values; objects in the order of insertion. -/
inductive J (R : Type)
  | int (i : Int)
  | real (r : R)
  | str (s : Str)
  | ints (l : List Int)
  | reals (l : List R)
  | obj (l : List (String × J R))
  | arr (l : List (J R))

/-- An element of a cell with the entries that GDS admits for it. -/
inductive Elem (R : Type)
  | boundary (layer datatype : Option Int) (xy : Option (List Int)) (propattr : Option Int) (propvalue : Option Str)
  | text (layer texttype presentation strans : Option Int) (mag angle : Option R) (xy : Option (List Int))
      (string : Option Str)
  | sref (sname : Option Str) (strans : Option Int) (mag angle : Option R) (xy : Option (List Int))

structure Cell (R : Type) where
  time : List Int
  strname : Str
  elements : Option (List (Elem R))

structure Lib (R : Type) where
  time : List Int
  libname : Str
  units : List R
  bgnstr : List (Cell R)

structure Data (R : Type) where
  header : Int
  bgnlib : List (Lib R)

section
variable {R : Type}

/-- An optional entry of an object. -/
def ent {α : Type} (k : String) (f : α → J R) (o : Option α) : List (String × J R) :=
  match o with
  | none => []
  | some a => [(k, f a)]

def Elem.toJ : Elem R → J R
  | .boundary layer datatype xy pa pv =>
    .obj (("type", .str "boundary".toList) :: (ent "layer" .int layer ++ ent "datatype" .int datatype ++
      ent "xy" .ints xy ++ ent "propattr" .int pa ++ ent "propvalue" .str pv))
  | .text layer tt pr st mag angle xy s =>
    .obj (("type", .str "text".toList) :: (ent "layer" .int layer ++ ent "texttype" .int tt ++
      ent "presentation" .int pr ++ ent "strans" .int st ++ ent "mag" .real mag ++ ent "angle" .real angle ++
      ent "xy" .ints xy ++ ent "string" .str s))
  | .sref sname st mag angle xy =>
    .obj (("type", .str "sref".toList) :: (ent "sname" .str sname ++ ent "strans" .int st ++ ent "mag" .real mag ++
      ent "angle" .real angle ++ ent "xy" .ints xy))

def Cell.toJ (c : Cell R) : J R :=
  .obj ([("time", .ints c.time), ("strname", .str c.strname)] ++ ent "elements" (fun l => .arr (l.map Elem.toJ)) c.elements)

def Lib.toJ (l : Lib R) : J R :=
  .obj [("time", .ints l.time), ("libname", .str l.libname), ("units", .reals l.units),
    ("bgnstr", .arr (l.bgnstr.map Cell.toJ))]

def Data.toJ (d : Data R) : J R := .obj [("header", .int d.header), ("bgnlib", .arr (d.bgnlib.map Lib.toJ))]

/-! ## Printing -/

/-- `str` and `float` of floating point numbers. -/
structure RealIO (R : Type) where
  shw : R → Str
  read : Str → Option R

/-- White space (ASCII). -/
def isSpace (c : Char) : Bool := c = ' ' || c = '\t' || c = '\n' || c = '\r' || c = '\x0b' || c = '\x0c'

/-- `str` of an integer. -/
def showInt (i : Int) : Str := if i < 0 then '-' :: pyStr i.natAbs else pyStr i.natAbs

/-- `str(list)[1:-1]` (`unbracket`, 18-19): separated by a comma and a space. -/
def showList (l : List Str) : Str :=
  match l with
  | [] => []
  | a :: rest => a ++ (rest.flatMap fun s => ',' :: ' ' :: s)

/-- `quote` (13). -/
def quote (s : Str) : Str := '"' :: (s ++ ['"'])

/-- `oprint(tag, arg)` (24-28). -/
def line (tag : String) (arg : Str) : Str := tag.toList ++ ' ' :: arg

/-- Printing an optional entry. -/
def prt {α : Type} (tag : String) (f : α → Str) (o : Option α) : List Str :=
  match o with
  | none => []
  | some a => [line tag (f a)]

def showInts (l : List Int) : Str := showList (l.map showInt)

/-- Lines 42-66: an element. -/
def printElem (io : RealIO R) : Elem R → List Str
  | .boundary layer datatype xy pa pv =>
    "BOUNDARY".toList :: (prt "LAYER:" showInt layer ++ prt "DATATYPE:" showInt datatype ++ prt "XY:" showInts xy ++
      prt "PROPATTR:" showInt pa ++ prt "PROPVALUE:" quote pv ++ ["ENDEL".toList])
  | .text layer tt pr st mag angle xy s =>
    "TEXT".toList :: (prt "LAYER:" showInt layer ++ prt "TEXTTYPE:" showInt tt ++ prt "PRESENTATION:" showInt pr ++
      prt "STRANS:" showInt st ++ prt "MAG:" io.shw mag ++ prt "ANGLE:" io.shw angle ++ prt "XY:" showInts xy ++
      prt "STRING:" quote s ++ ["ENDEL".toList])
  | .sref sname st _mag angle xy =>
    "SREF".toList :: (prt "SNAME:" quote sname ++ prt "STRANS:" showInt st ++ prt "ANGLE:" io.shw angle ++
      prt "XY:" showInts xy ++ ["ENDEL".toList])

/-- Lines 38-67: a cell. -/
def printCell (io : RealIO R) (c : Cell R) : List Str :=
  line "BGNSTR:" (showInts c.time) :: line "STRNAME:" (quote c.strname) ::
    ((c.elements.getD []).flatMap (printElem io) ++ ["ENDSTR".toList])

/-- Lines 34-68: a library. -/
def printLib (io : RealIO R) (l : Lib R) : List Str :=
  line "BGNLIB:" (showInts l.time) :: line "LIBNAME:" (quote l.libname) ::
    line "UNITS:" (showList (l.units.map io.shw)) :: (l.bgnstr.flatMap (printCell io) ++ ["ENDLIB".toList])

/-- `convert_GDSjson_GDStxt` (21-68): the lines. -/
def printData (io : RealIO R) (d : Data R) : List Str :=
  line "HEADER:" (showInt d.header) :: d.bgnlib.flatMap (printLib io)

/-- The file: each line is followed by a line break. -/
def toFile (ls : List Str) : Str := ls.flatMap fun l => l ++ ['\n']

/-! ## Reading -/

/-- Iterating over a text file: lines end with `\n`, `\r` or `\r\n`. -/
def readLines (acc : Str) : Str → List Str
  | [] => if acc = [] then [] else [acc]
  | '\r' :: '\n' :: rest => acc :: readLines [] rest
  | c :: rest => if c = '\n' ∨ c = '\r' then acc :: readLines [] rest else readLines (acc ++ [c]) rest

/-- `str.strip` -/
def strip (s : Str) : Str := ((s.dropWhile isSpace).reverse.dropWhile isSpace).reverse

/-- `str.split(',')` -/
def splitComma : Str → List Str
  | [] => [[]]
  | c :: rest =>
    if c = ',' then [] :: splitComma rest
    else
      match splitComma rest with
      | [] => [[c]]
      | a :: as => (c :: a) :: as

/-- `int(s)` -/
def readNat (s : Str) : Option Nat := if s ≠ [] ∧ s.all isDig then some (digitsVal s) else none

def readInt (s : Str) : Option Int :=
  match strip s with
  | '-' :: ds => (readNat ds).map fun n => -Int.ofNat n
  | '+' :: ds => (readNat ds).map Int.ofNat
  | ds => (readNat ds).map Int.ofNat

/-- Types of tags (package `gdsii`). -/
inductive TagType
  | nodata | ascii | bits | real8 | int
deriving DecidableEq

/-- `tags.DICT` and `tags.type_of_tag` for the tags used here, with the lower case name. -/
def tagTable : List (String × TagType × String) :=
  [("HEADER", .int, "header"), ("BGNLIB", .int, "bgnlib"), ("LIBNAME", .ascii, "libname"),
   ("UNITS", .real8, "units"), ("ENDLIB", .nodata, "endlib"), ("BGNSTR", .int, "bgnstr"),
   ("STRNAME", .ascii, "strname"), ("ENDSTR", .nodata, "endstr"), ("BOUNDARY", .nodata, "boundary"),
   ("PATH", .nodata, "path"), ("SREF", .nodata, "sref"), ("AREF", .nodata, "aref"), ("TEXT", .nodata, "text"),
   ("LAYER", .int, "layer"), ("DATATYPE", .int, "datatype"), ("XY", .int, "xy"), ("ENDEL", .nodata, "endel"),
   ("SNAME", .ascii, "sname"), ("TEXTTYPE", .int, "texttype"), ("PRESENTATION", .bits, "presentation"),
   ("STRING", .ascii, "string"), ("STRANS", .bits, "strans"), ("MAG", .real8, "mag"), ("ANGLE", .real8, "angle"),
   ("PROPATTR", .int, "propattr"), ("PROPVALUE", .ascii, "propvalue"), ("NODE", .nodata, "node"),
   ("BOX", .nodata, "box")]

def lookupTag (t : Str) : Option (String × TagType × String) := tagTable.find? fun e => e.1.toList == t

/-- `print_data` (10-24). -/
def readData (io : RealIO R) (ty : TagType) (data : Str) : Option (J R) :=
  match ty with
  | .nodata => none
  | .ascii => some (.str (data.drop 1).dropLast)
  | .bits => (readInt data).map .int
  | .real8 =>
    if (splitComma data).length > 1 then ((splitComma data).mapM io.read).map .reals else (io.read data).map .real
  | .int =>
    if (splitComma data).length > 1 then ((splitComma data).mapM readInt).map .ints else (readInt data).map .int

/-- `isElement` (26-28). -/
def isElement (t : String) : Bool := ["BOUNDARY", "PATH", "SREF", "AREF", "TEXT", "NODE", "BOX"].contains t

/-- What is open: a dictionary, or a list with its key in the dictionary below it. -/
inductive Frame (R : Type)
  | dict (entries : List (String × J R))
  | list (key : String) (items : List (J R))

/-- Assignment to an entry of a dictionary. -/
def setKey (l : List (String × J R)) (k : String) (v : J R) : List (String × J R) :=
  if l.any fun e => e.1 == k then l.map fun e => if e.1 == k then (k, v) else e else l ++ [(k, v)]

/-- Closing the innermost dictionary or list.  (The Python code links the parts when it opens them; nothing
else happens to the outer part before the inner one is closed.) -/
def pop : List (Frame R) → Option (List (Frame R))
  | .dict es :: .list k items :: rest => some (.list k (items ++ [.obj es]) :: rest)
  | .list k items :: .dict es :: rest => some (.dict (setKey es k (.arr items)) :: rest)
  | _ => none

/-- Lines 56-67: opening a new list if the innermost part is a dictionary, and a dictionary in the list. -/
def openD (key : String) (es : List (String × J R)) : List (Frame R) → Option (List (Frame R))
  | .dict ds :: rest => some (.dict es :: .list key [] :: .dict ds :: rest)
  | .list k items :: rest => some (.dict es :: .list k items :: rest)
  | [] => none

/-- Lines 71-73: closing at `END...`.  (Outside of well formed files the Python code would go on with a negative
index; the model gives up.) -/
def closeD (st : List (Frame R)) : Option (List (Frame R)) :=
  match st with
  | .list _ _ :: _ => (pop st).bind pop
  | _ => pop st

/-- Assignment to the innermost dictionary (70). -/
def assign (k : String) (v : J R) : List (Frame R) → Option (List (Frame R))
  | .dict es :: rest => some (.dict (setKey es k v) :: rest)
  | _ => none

/-- The regular expression (32, 42-47): tag and rest. -/
def splitTag (l : Str) : Option (Str × Option Str) :=
  if l.takeWhile (· ≠ ':') = [] then none
  else
    match l.dropWhile (· ≠ ':') with
    | [] => some (l.takeWhile (· ≠ ':'), none)
    | _ :: r => some (l.takeWhile (· ≠ ':'), some (r.dropWhile isSpace))

/-- One tag (49-73). -/
def stepTag (io : RealIO R) (e : String × TagType × String) (rest : Option Str) (st : List (Frame R)) :
    Option (List (Frame R)) :=
  if isElement e.1 then openD "elements" [("type", .str e.2.2.toList)] st
  else if e.1 = "BGNLIB" ∨ e.1 = "BGNSTR" then
    (rest.bind (readData io e.2.1)).bind fun v => openD e.2.2 [("time", v)] st
  else if e.2.1 ≠ .nodata then (rest.bind (readData io e.2.1)).bind fun v => assign e.2.2 v st
  else if e.1 = "ENDLIB" ∨ e.1 = "ENDSTR" ∨ e.1 = "ENDEL" then closeD st
  else some st

/-- The body of the loop (41-73). -/
def stepLine (io : RealIO R) (st : List (Frame R)) (l : Str) : Option (List (Frame R)) :=
  (splitTag (strip l)).bind fun p => (lookupTag p.1).bind fun e => stepTag io e p.2 st

/-- Everything that is still open is part of `top`. -/
def closeAll : Nat → List (Frame R) → Option (J R)
  | _, [.dict es] => some (.obj es)
  | 0, _ => none
  | n + 1, st => (pop st).bind (closeAll n)

/-- `convert_GDStxt_GDSjson` (30-75). -/
def parse (io : RealIO R) (file : Str) : Option (J R) :=
  ((readLines [] file).foldlM (stepLine io) [.dict []]).bind fun st => closeAll st.length st

/-! ## Specification -/

/-- Printing and reading of floating point numbers: what is printed has no commas and no white space, and is read
back, also after a space. -/
structure RealIO.Exact (io : RealIO R) : Prop where
  read_shw : ∀ r, io.read (io.shw r) = some r
  read_space : ∀ r, io.read (' ' :: io.shw r) = some r
  plain : ∀ r, ∀ c ∈ io.shw r, c ≠ ',' ∧ isSpace c = false
  nonempty : ∀ r, io.shw r ≠ []

/-- A string without line breaks. -/
def OneLine (s : Str) : Prop := '\n' ∉ s ∧ '\r' ∉ s

/-- A list with at least two numbers. -/
def Many {α : Type} (l : List α) : Prop := 2 ≤ l.length

def Elem.WF : Elem R → Prop
  | .boundary _ _ xy _ pv => (∀ l, xy = some l → Many l) ∧ (∀ s, pv = some s → OneLine s)
  | .text _ _ _ _ _ _ xy s => (∀ l, xy = some l → Many l) ∧ (∀ t, s = some t → OneLine t)
  | .sref sname _ mag _ xy => (∀ l, xy = some l → Many l) ∧ (∀ s, sname = some s → OneLine s) ∧ mag = none

structure Cell.WF (c : Cell R) : Prop where
  time : Many c.time
  name : OneLine c.strname
  elems : ∀ l, c.elements = some l → l ≠ [] ∧ ∀ e ∈ l, e.WF

structure Lib.WF (l : Lib R) : Prop where
  time : Many l.time
  name : OneLine l.libname
  units : Many l.units
  cells : l.bgnstr ≠ [] ∧ ∀ c ∈ l.bgnstr, c.WF

structure Data.WF (d : Data R) : Prop where
  libs : d.bgnlib ≠ [] ∧ ∀ l ∈ d.bgnlib, l.WF

/-! ## Proofs: strings -/

theorem splitComma_plain {s : Str} (h : ',' ∉ s) : splitComma s = [s] := by
  induction s with
  | nil => rfl
  | cons c s ih =>
    rw [List.mem_cons, not_or] at h
    simp only [splitComma]
    rw [if_neg (fun e => h.1 e.symm), ih h.2]

theorem splitComma_append {a s : Str} (h : ',' ∉ a) : splitComma (a ++ ',' :: s) = a :: splitComma s := by
  induction a with
  | nil => simp [splitComma]
  | cons c a ih =>
    rw [List.mem_cons, not_or] at h
    rw [List.cons_append, splitComma, if_neg (fun e => h.1 e.symm), ih h.2]

theorem splitComma_showList : ∀ {l : List Str}, l ≠ [] → (∀ s ∈ l, ',' ∉ s) →
    ∃ a rest, l = a :: rest ∧ splitComma (showList l) = a :: rest.map (' ' :: ·)
  | [], h, _ => absurd rfl h
  | a :: rest, hne, hl => by
    refine ⟨a, rest, rfl, ?_⟩
    have ha := hl a List.mem_cons_self
    have hr : ∀ s ∈ rest, ',' ∉ s := fun s hs => hl s (List.mem_cons_of_mem _ hs)
    clear hl hne
    unfold showList
    simp only
    induction rest generalizing a with
    | nil => simpa using splitComma_plain ha
    | cons b rest ih =>
      rw [List.flatMap_cons, List.cons_append, splitComma_append ha, List.map_cons]
      congr 1
      have := ih (' ' :: b) (by
        rw [List.mem_cons, not_or]
        exact ⟨by decide, hr b List.mem_cons_self⟩) (fun s hs => hr s (List.mem_cons_of_mem _ hs))
      simpa using this

theorem isSpace_not_dig {c : Char} (h : isDig c = true) : isSpace c = false := by
  unfold isSpace
  have : ∀ d : Char, isDig d = false → c ≠ d := by
    rintro d hd rfl
    rw [h] at hd; cases hd
  simp [this ' ' (by decide), this '\t' (by decide), this '\n' (by decide), this '\r' (by decide),
    this '\x0b' (by decide), this '\x0c' (by decide)]

/-- Stripping text that begins and ends with no white space. -/
theorem strip_id {s : Str} (h1 : ∀ c, s.head? = some c → isSpace c = false)
    (h2 : ∀ c, s.getLast? = some c → isSpace c = false) : strip s = s := by
  unfold strip
  have e1 : s.dropWhile isSpace = s := by
    cases s with
    | nil => rfl
    | cons c s => rw [List.dropWhile_cons_of_neg (by simp [h1 c rfl])]
  rw [e1]
  have e2 : s.reverse.dropWhile isSpace = s.reverse := by
    cases hr : s.reverse with
    | nil => rfl
    | cons c t =>
      have : s.getLast? = some c := by rw [List.getLast?_eq_head?_reverse, hr]; rfl
      rw [List.dropWhile_cons_of_neg (by simp [h2 c this])]
  rw [e2, List.reverse_reverse]

theorem strip_space {s : Str} : strip (' ' :: s) = strip s := by
  unfold strip
  rw [List.dropWhile_cons_of_pos (by decide)]

theorem pyStr_ne_nil (n : Nat) : pyStr n ≠ [] := (Verif.Pnr.pyStrAux_spec (n + 1) n [] (by omega)).2.2

theorem readNat_pyStr (n : Nat) : readNat (pyStr n) = some n := by
  unfold readNat
  rw [if_pos ⟨pyStr_ne_nil n, by rw [List.all_eq_true]; exact isDig_pyStr n⟩, digitsVal_pyStr]

theorem showInt_chars (i : Int) : ∀ c ∈ showInt i, c = '-' ∨ isDig c = true := by
  intro c hc
  unfold showInt at hc
  split at hc
  · rcases List.mem_cons.mp hc with rfl | hc
    · exact Or.inl rfl
    · exact Or.inr (isDig_pyStr _ c hc)
  · exact Or.inr (isDig_pyStr _ c hc)

theorem showInt_plain (i : Int) : ∀ c ∈ showInt i, c ≠ ',' ∧ isSpace c = false ∧ c ≠ '\n' ∧ c ≠ '\r' := by
  intro c hc
  rcases showInt_chars i c hc with rfl | h
  · decide
  · have hs := isSpace_not_dig h
    refine ⟨?_, hs, ?_, ?_⟩ <;> rintro rfl
    · revert h; decide
    · revert hs; decide
    · revert hs; decide

theorem showInt_ne_nil (i : Int) : showInt i ≠ [] := by
  unfold showInt
  split
  · simp
  · exact pyStr_ne_nil _

theorem strip_plain {s : Str} (h : ∀ c ∈ s, isSpace c = false) : strip s = s :=
  strip_id (fun c hc => h c (List.mem_of_mem_head? hc)) (fun c hc => h c (List.mem_of_mem_getLast? hc))

theorem readInt_showInt (i : Int) : readInt (showInt i) = some i ∧ readInt (' ' :: showInt i) = some i := by
  have hs : strip (showInt i) = showInt i := strip_plain fun c hc => (showInt_plain i c hc).2.1
  have key : readInt (showInt i) = some i := by
    unfold readInt
    rw [hs]
    by_cases hneg : i < 0
    · have e : showInt i = '-' :: pyStr i.natAbs := by simp [showInt, hneg]
      rw [e]
      simp only [readNat_pyStr, Option.map_some, Option.some.injEq, Int.ofNat_eq_natCast]
      omega
    · have e : showInt i = pyStr i.natAbs := by simp [showInt, hneg]
      rw [e]
      have hp := pyStr_ne_nil i.natAbs
      cases hq : pyStr i.natAbs with
      | nil => exact absurd hq hp
      | cons c ds =>
        have hc : isDig c = true := isDig_pyStr i.natAbs c (by rw [hq]; exact List.mem_cons_self)
        split
        · rename_i heq; simp only [List.cons.injEq] at heq; rw [heq.1] at hc; exact absurd hc (by decide)
        · rename_i heq; simp only [List.cons.injEq] at heq; rw [heq.1] at hc; exact absurd hc (by decide)
        · rw [← hq, readNat_pyStr]
          simp only [Option.map_some, Option.some.injEq, Int.ofNat_eq_natCast]
          omega
  refine ⟨key, ?_⟩
  unfold readInt at key ⊢
  rw [strip_space]
  exact key

theorem mapM_eq_some {α β : Type} {f : α → Option β} {l : List α} {r : List β}
    (h : List.Forall₂ (fun a b => f a = some b) l r) : l.mapM f = some r := by
  induction h with
  | nil => rfl
  | cons h1 _ ih => simp [List.mapM_cons, h1, ih]

/-- Reading back a printed list of at least two items. -/
theorem read_list {α : Type} {shw : α → Str} {read : Str → Option α} (h1 : ∀ a, read (shw a) = some a)
    (h2 : ∀ a, read (' ' :: shw a) = some a) (h3 : ∀ a, ',' ∉ shw a) {l : List α} (hl : Many l) :
    (splitComma (showList (l.map shw))).length > 1 ∧ (splitComma (showList (l.map shw))).mapM read = some l := by
  cases l with
  | nil => simp [Many] at hl
  | cons a l =>
    obtain ⟨b, rest, he, hs⟩ := splitComma_showList (l := (a :: l).map shw) (by simp)
      (by intro s hs; obtain ⟨x, _, rfl⟩ := List.mem_map.mp hs; exact h3 x)
    simp only [List.map_cons, List.cons.injEq] at he
    obtain ⟨rfl, rfl⟩ := he
    rw [hs]
    constructor
    · simp only [Many, List.length_cons] at hl
      simp only [List.length_cons, List.length_map]
      omega
    · apply mapM_eq_some
      refine .cons (h1 a) ?_
      rw [List.map_map]
      clear hs hl
      induction l with
      | nil => exact .nil
      | cons x l ih => exact .cons (h2 x) ih

theorem no_comma_showInt (i : Int) : ',' ∉ showInt i := fun h => (showInt_plain i _ h).1 rfl

end

end Verif.Gds

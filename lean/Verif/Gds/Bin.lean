import Mathlib.Data.List.Basic
import Mathlib.Data.List.Nodup

/-!
# C82: GDS JSON to binary records and back

Model of `align/gdsconv/json2gds.py` (23-95) and `align/gdsconv/gds2json.py` (14-66).

Simplifications: a file is the list of its records; the package `gdsii` writes and reads a record without loss, and its table of
tags is written down for the tags used here.  Numbers are printed and read back without loss (so `store_data` gets the
number, not its text); a number where a list is expected and a list where a number is expected are errors, as are missing
keys.  The reader's `cursors` are a stack of the dictionaries and lists from the top to the current one; below the top there are only
objects that are thrown away (`done`; twelve unmatched ends would reach the top again, this is left out).
-/

namespace Verif.GdsBin

variable {R : Type}

/-- What a record carries. -/
inductive Data (R : Type)
  | empty
  | bits (i : Int)
  | ints (l : List Int)
  | reals (l : List R)
  | ascii (s : String)

abbrev Rec (R : Type) := String × Data R

/-- Values in the JSON data that are not lists of objects. -/
inductive Leaf (R : Type)
  | int (i : Int)
  | ints (l : List Int)
  | real (r : R)
  | reals (l : List R)
  | str (s : String)

inductive Js (R : Type)
  | leaf (v : Leaf R)
  | arr (l : List (List (String × Js R)))

abbrev Dict (R : Type) := List (String × Js R)

/-- Types of tags (`gdsii.tags`). -/
inductive Ty
  | nodata | bits | int | real | ascii
  deriving DecidableEq

def tagType (t : String) : Ty :=
  if t ∈ ["HEADER", "BGNLIB", "BGNSTR", "LAYER", "DATATYPE", "WIDTH", "XY", "TEXTTYPE", "PATHTYPE", "PROPATTR", "BGNEXTN", "ENDEXTN",
    "COLROW", "NODETYPE", "BOXTYPE"] then .int
  else if t ∈ ["LIBNAME", "STRNAME", "SNAME", "STRING", "PROPVALUE"] then .ascii
  else if t ∈ ["UNITS", "MAG", "ANGLE"] then .real
  else if t ∈ ["PRESENTATION", "STRANS", "ELFLAGS"] then .bits
  else .nodata

/-! ## Writing -/

/-- Whether the writer takes the brackets off the text of the value. -/
def listTag (t : String) : Bool := decide (t ∈ ["BGNLIB", "UNITS", "BGNSTR", "XY"])

/-- `store_data` (json2gds.py 25-43) with the value for the tag. -/
def store (t : String) (v : Leaf R) : Option (Rec R) :=
  match tagType t, v with
  | .ascii, .str s => some (t, .ascii s)
  | .bits, .int i => some (t, .bits i)
  | .int, .int i => if listTag t then none else some (t, .ints [i])
  | .int, .ints l => if listTag t && !l.isEmpty then some (t, .ints l) else none
  | .real, .real r => if listTag t then none else some (t, .reals [r])
  | .real, .reals l => if listTag t && !l.isEmpty then some (t, .reals l) else none
  | _, _ => none

/-- The value at a key that must be there. -/
def leafAt (d : Dict R) (k : String) : Option (Leaf R) :=
  match d.lookup k with
  | some (.leaf v) => some v
  | _ => none

def arrAt (d : Dict R) (k : String) : Option (List (Dict R)) :=
  match d.lookup k with
  | some (.arr l) => some l
  | _ => none

/-- The keys written for each type of element, with their tags (56-86). -/
def fieldsOf (t : String) : Option (String × List (String × String)) :=
  if t = "boundary" then some ("BOUNDARY", [("layer", "LAYER"), ("datatype", "DATATYPE"), ("xy", "XY"), ("propattr", "PROPATTR"),
    ("propvalue", "PROPVALUE")])
  else if t = "path" then some ("PATH", [("layer", "LAYER"), ("datatype", "DATATYPE"), ("pathtype", "PATHTYPE"), ("width", "WIDTH"),
    ("bgnextn", "BGNEXTN"), ("endextn", "ENDEXTN"), ("xy", "XY")])
  else if t = "text" then some ("TEXT", [("layer", "LAYER"), ("texttype", "TEXTTYPE"), ("presentation", "PRESENTATION"),
    ("strans", "STRANS"), ("mag", "MAG"), ("angle", "ANGLE"), ("xy", "XY"), ("string", "STRING")])
  else if t = "sref" then some ("SREF", [("sname", "SNAME"), ("strans", "STRANS"), ("angle", "ANGLE"), ("xy", "XY")])
  else none

/-- The records of those keys that the element has. -/
def writeFields (d : Dict R) : List (String × String) → Option (List (Rec R))
  | [] => some []
  | (k, t) :: l => match d.lookup k with
    | none => writeFields d l
    | some (.arr _) => none
    | some (.leaf v) => (store t v).bind fun r => (writeFields d l).map (r :: ·)

/-- One element (54-87): an element of another type is an end without a beginning. -/
def writeElem (d : Dict R) : Option (List (Rec R)) :=
  match leafAt d "type" with
  | some (.str t) => match fieldsOf t with
    | some (T, fs) => (writeFields d fs).map fun rs => (T, .empty) :: rs ++ [("ENDEL", .empty)]
    | none => some [("ENDEL", .empty)]
  | _ => none

/-- The elements of a cell (53-87) -/
def writeElems (d : Dict R) : Option (List (List (Rec R))) :=
  match d.lookup "elements" with
  | none => some []
  | some (.leaf _) => none
  | some (.arr l) => l.mapM writeElem

/-- One cell (49-88) -/
def writeCell (d : Dict R) : Option (List (Rec R)) := do
  let t ← (leafAt d "time").bind (store "BGNSTR")
  let n ← (leafAt d "strname").bind (store "STRNAME")
  let es ← writeElems d
  some (t :: n :: es.flatten ++ [("ENDSTR", .empty)])

/-- One library (45-89) -/
def writeLib (d : Dict R) : Option (List (Rec R)) := do
  let t ← (leafAt d "time").bind (store "BGNLIB")
  let n ← (leafAt d "libname").bind (store "LIBNAME")
  let u ← (leafAt d "units").bind (store "UNITS")
  let cs ← (arrAt d "bgnstr").bind fun l => l.mapM writeCell
  some (t :: n :: u :: cs.flatten ++ [("ENDLIB", .empty)])

/-- `convert_GDSjson_GDS_fps` -/
def write (d : Dict R) : Option (List (Rec R)) := do
  let h ← (leafAt d "header").bind (store "HEADER")
  let ls ← (arrAt d "bgnlib").bind fun l => l.mapM writeLib
  some (h :: ls.flatten)

/-! ## Reading -/

/-- `show_data` (gds2json.py 14-26) -/
def shown : Data R → Option (Leaf R)
  | .ascii s => some (.str s)
  | .bits i => some (.int i)
  | .ints [] => none
  | .ints [i] => some (.int i)
  | .ints l => some (.ints l)
  | .reals [] => none
  | .reals [r] => some (.real r)
  | .reals l => some (.reals l)
  | .empty => none

def isElement (t : String) : Bool := decide (t ∈ ["BOUNDARY", "PATH", "SREF", "AREF", "TEXT", "NODE", "BOX"])

def low (s : String) : String := String.ofList (s.toList.map Char.toLower)

def starts (p t : String) : Bool := p.toList.isPrefixOf t.toList

/-- Assignment to a key of a dictionary. -/
def put (d : Dict R) (k : String) (v : Js R) : Dict R :=
  if (d.lookup k).isSome then d.map fun kv => if kv.1 = k then (k, v) else kv else d ++ [(k, v)]

/-- One cursor. -/
inductive Frame (R : Type)
  | dict (d : Dict R)
  | list (k : String) (l : List (Dict R))

inductive St (R : Type)
  | live (f : Frame R) (l : List (Frame R))
  | done (top : Dict R)

/-- The outer object with the inner one in it. -/
def into : Frame R → Frame R → Frame R
  | .dict d, .list k l => .list k (l ++ [d])
  | .list k l, .dict d => .dict (put d k (.arr l))
  | _, g => g

/-- The top dictionary. -/
def collapse : Frame R → List (Frame R) → Dict R
  | f, g :: l => collapse (into f g) l
  | .dict d, [] => d
  | .list _ _, [] => []

/-- The loop body for an end (62-64). -/
def up : Frame R → List (Frame R) → St R
  | f, [] => .done (collapse f [])
  | f, .list k l :: r => .live (into f (.list k l)) r
  | f, .dict d :: [] => .done (collapse f [.dict d])
  | f, .dict d :: g :: r => .live (into (into f (.dict d)) g) r

/-- The loop body for the beginning of a library, cell or element (48-58). -/
def down (key : String) (d : Dict R) : Frame R → List (Frame R) → St R
  | .dict c, r => .live (.dict d) (.list key [] :: .dict c :: r)
  | .list k l, r => .live (.dict d) (.list k l :: r)

/-- The loop body (40-64). -/
def step (s : St R) (rec : Rec R) : Option (St R) :=
  match s with
  | .done top => some (.done top)
  | .live f r =>
    let key := if isElement rec.1 then "elements" else low rec.1
    if isElement rec.1 then some (down key [("type", .leaf (.str (low rec.1)))] f r)
    else if tagType rec.1 ≠ .nodata ∧ starts "BGN" rec.1 then
      (shown rec.2).map fun v => down key [("time", .leaf v)] f r
    else if tagType rec.1 ≠ .nodata then
      match f with
      | .dict d => (shown rec.2).map fun v => .live (.dict (put d key (.leaf v))) r
      | .list _ _ => none
    else if starts "END" rec.1 then some (up f r)
    else some (.live f r)

/-- `convert_GDS_GDSjson` -/
def read (rs : List (Rec R)) : Option (Dict R) :=
  (rs.foldlM step (.live (.dict []) [])).map fun s => match s with
    | .live f r => collapse f r
    | .done top => top

end Verif.GdsBin

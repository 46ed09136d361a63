import Verif.Geometry.Model
import Verif.GridCons.Model
import Verif.RemoveDup.Model

/-!
# Hierarchical placements: `align/pnr/checker.py`, `align/pnr/hpwl.py`, `compute_topoorder`

A placement is a dictionary of modules and a dictionary of leaves by concrete name. Dictionaries are association
lists; `lookup` takes the first entry, so a list with repeated names stands for the Python dictionary with the
repetitions removed. Recursion over the hierarchy is bounded by a counter `fuel`; `none` stands for a Python
exception (among them exceeding the recursion depth on a cyclic hierarchy).
-/

namespace Verif.Hier

open Verif.Geometry (Rect Transformation)
open Verif.GridCons (Pog Axis Term)

/-- An entry of `module['instances']`: `instance_name`, `concrete_template_name`, `transformation`, and `fa_map` as
pairs (formal, actual). -/
structure Inst where
  name : String
  template : String
  tr : Transformation
  fa : List (String × String)
deriving DecidableEq, Repr

/-- An entry of `placement_verilog_d['modules']`. -/
structure Module where
  params : List String
  insts : List Inst
deriving DecidableEq, Repr

/-- An entry of `placement_verilog_d['leaves']`: the terminals (name, rectangle). -/
structure Leaf where
  terminals : List (String × Rect)
deriving DecidableEq, Repr

/-- `placement_verilog_d`; `globals` are the `actual`s of `global_signals`. -/
structure Design where
  mods : List (String × Module)
  leaves : List (String × Leaf)
  globals : List String
deriving DecidableEq, Repr

/-! ## Flattening (`checker.py:82-106`) -/

/-- What `_flatten_leaves` returns for one leaf instance. -/
structure Flat where
  leaf : String
  name : String
  tr : Transformation
deriving DecidableEq, Repr

/-- `checker.py:82-93`, `_transform_leaf`, for an entry of the dictionary of leaves, which has no
`transformation`. -/
def transformLeaf (i : Inst) (leaf : String) : Flat :=
  ⟨leaf, i.name, Transformation.mult i.tr {}⟩

/-- `checker.py:82-93`, `_transform_leaf`, for a flattened leaf. -/
def transformFlat (i : Inst) (f : Flat) : Flat :=
  ⟨f.leaf, i.name ++ "/" ++ f.name, Transformation.mult i.tr f.tr⟩

/-- `checker.py:96-106`, `_flatten_leaves`. -/
def flatten (D : Design) : Nat → String → Option (List Flat)
  | 0, _ => none
  | fuel + 1, cn =>
    (D.mods.lookup cn).bind fun m =>
      (m.insts.mapM fun i =>
        if (D.leaves.lookup i.template).isSome then some [transformLeaf i i.template]
        else (flatten D fuel i.template).map (List.map (transformFlat i))).map List.flatten

/-! ## Acceptance (`checker.py:109-150`) -/

/-- `checker.py:111-119`: the loops over the terms and offsets, for one constraint. -/
def satisfied (c : Pog) (t : Transformation) : Bool :=
  let (o, s) := if c.direction = .H then (t.oY, t.sY) else (t.oX, t.sX)
  c.terms.any fun term => term.offsets.any fun offset =>
    decide ((o - offset).fmod c.pitch = 0) && term.scalings.contains s

/-- `checker.py:109-125`, `_check_place_on_grid`: asserts each constraint. -/
def checkLeaf (f : Flat) (cs : List Pog) : Option Unit :=
  if cs.all (satisfied · f.tr) then some () else none

/-- `checker.py:128-150`, `check_place_on_grid`; `cons` is the content of the files read for the leaves. -/
def checkPlaceOnGrid (D : Design) (fuel : Nat) (top : String) (cons : List (String × List Pog)) : Option Unit :=
  (flatten D fuel top).bind fun fs =>
    if fs.all fun f =>
        match cons.lookup f.leaf with
        | none => true
        | some cs => (checkLeaf f cs).isSome
    then some () else none

/-! ## Topological order (`hpwl.py:140-155`) -/

/-- `found_modules`, `found_leaves` (one list here: the code always tests both) and `order`. -/
structure Topo where
  found : List String
  order : List String
deriving DecidableEq, Repr

/-- `hpwl.py:143-153`, `aux`. -/
def topoAux (D : Design) : Nat → String → Topo → Option Topo
  | 0, _, _ => none
  | fuel + 1, cn, st =>
    match D.mods.lookup cn with
    | none => some ⟨cn :: st.found, st.order ++ [cn]⟩
    | some m =>
      (m.insts.foldlM (fun (st : Topo) i =>
          if i.template ∈ st.found then some st else topoAux D fuel i.template st)
        (⟨cn :: st.found, st.order⟩ : Topo)).map fun st => ⟨st.found, st.order ++ [cn]⟩

/-- `hpwl.py:140-155`, `compute_topoorder`; `placer_pythonic.py:8-24` is the same function with another key. -/
def topoOrder (D : Design) (fuel : Nat) (cn : String) : Option (List String) :=
  (topoAux D fuel cn ⟨[], []⟩).map (·.order)

end Verif.Hier

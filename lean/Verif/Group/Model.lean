import Verif.Net.Match
import Verif.Sym.Model
import Mathlib.Data.List.Nodup

/-!
# C81: instances that the user groups

Model of `Annotate.create_canonical_primitive` (align/compiler/match_graph.py 119-212), of the check before it (241-245) and of
`recursive_replace` (327-335).

Simplifications: names of nets, elements and models are in upper case, except the names in the constraint (of constraints
from the file of the subcircuit alone they are changed to upper case, align/compiler/user_const.py 56-64; those from const.json or from
the netlist stay as written: align/schema/constraint.py 1430); the hash is a parameter, of the new elements (the generator is the same for
all groups); of the constraints for the group their instances are modelled; the translation of the constraints of the circuit
(213-223) is C48.  `pre` is the prefix that names of instances of a model must have (align/schema/instance.py 60-67).
-/

namespace Verif.Group

open Verif.Match (Inst Mod Lib neighbors addMod)
open Verif.Net (joinU)
open Verif.Sym (showNat)

/-- The elements of the circuit, the library and the constraints of the subcircuits. -/
structure St where
  elems : List Inst
  lib : Lib
  cons : String → List (List String)

/-- The constraint: the instances as the user wrote them, the name of the instance, and constraints inside the group. -/
structure Con where
  instances : List String
  instanceName : String
  template : String
  inner : List (List String)

def up (s : String) : String := String.ofList (s.toList.map Char.toUpper)

/-- Pins in the order of their names. -/
def sortedPins (e : Inst) : List (String × String) := pySort (fun a b => decide (a.1 ≤ b.1)) e.pins

/-- `pin_id` (122-131): the list of pins, where a pin on the net of an earlier one is replaced by that one. -/
def pinIdAux : List (String × String) → List (String × String) → List String
  | _, [] => []
  | seen, pn :: l => match seen.lookup pn.2 with
    | none => pn.1 :: pinIdAux ((pn.2, pn.1) :: seen) l
    | some p => p :: pinIdAux seen l

def pinId (e : Inst) : String := String.join (pinIdAux [] (sortedPins e))

/-- The key of line 133. -/
def sortKey (e : Inst) : String :=
  pinId e ++ joinU ((pySort (fun a b => decide (a.1 ≤ b.1)) e.params).map fun kv => kv.1 ++ ":" ++ kv.2)

/-- The elements of the group (121 and 133). -/
def picked (l : List Inst) (names : List String) : List Inst :=
  pySort (fun a b => decide (sortKey a ≤ sortKey b)) (l.filter fun e => names.contains e.name)

/-- `new_nets` (137-142) -/
def netsIn (ms : List Inst) : List String := (ms.flatMap fun e => (sortedPins e).map Prod.snd).eraseDups

/-- `all_pins` (144) -/
def pName (ns : List String) (n : String) : String := "P" ++ showNat (ns.idxOf n)

/-- `subckt_pins` (145-146): the nets with a neighbour outside the group, and ports. -/
def outer (ports : List String) (l ms : List Inst) : List String :=
  (netsIn ms).filter fun n => !((neighbors l n).all fun x => (ms.map Inst.name).contains x) || ports.contains n

/-- `new_insts` (147-153) -/
def canon (ms : List Inst) : List Inst :=
  ms.mapIdx fun i e => ⟨"M" ++ showNat i, e.model, e.pins.map fun pn => (pn.1, pName (netsIn ms) pn.2), e.params⟩

/-- `recursive_replace` (327-335) for one constraint, with the map of line 179. -/
def replaceAll (ms : List Inst) (c : List String) : Option (List String) :=
  c.mapM fun x => if up x ∈ ms.map Inst.name then some ("M" ++ showNat ((ms.map Inst.name).idxOf (up x))) else none

/-- `create_canonical_primitive` (119-212) after the check of `_group_block_const` (241-245); `none` is a failed assertion. -/
def group (pre : String → String) (key : List Inst → String) (ports : List String) (st : St) (k : Con) : Option St :=
  let ms := picked st.elems k.instances
  let ps := outer ports st.elems ms
  let name := k.template ++ key (canon ms)
  let pins := ps.map fun n => pName (netsIn ms) n
  let found := (st.lib.lookup name).isSome
  if !(k.instances.all fun x => (st.elems.map Inst.name).contains (up x)) then none
  -- the new subcircuit (163-186): it must have a pin (align/schema/model.py 54-56), names must fit the models
  else if !found && (pins.isEmpty || !((canon ms).all fun e => (pre e.model).toList.isPrefixOf e.name.toList)) then none
  else (if found then some [] else k.inner.mapM (replaceAll ms)).bind fun inner =>
    let M := (st.lib.lookup name).getD ⟨pins, canon ms⟩
    -- the new instance (190-198): its pins are those of the subcircuit (align/schema/instance.py 69-75)
    if !(pins.all fun p => M.pins.contains p) || !(M.pins.all fun p => pins.contains p) then none
    else some ⟨st.elems.diff ms ++ [⟨k.instanceName, name, ps.map fun n => (pName (netsIn ms) n, n), []⟩],
      addMod st.lib name ⟨pins, canon ms⟩, fun m => if m = name then st.cons m ++ inner else st.cons m⟩

end Verif.Group

import Verif.Sym.Alike
import Mathlib.Data.List.Perm.Subperm
import Mathlib.Data.List.Perm.Basic
import Mathlib.Tactic.Tauto

/-!
# C78: the search for arrays

Model of `process_arrays.find_array` and what it calls (`align/compiler/create_array_hierarchy.py`, 84-204).

Simplifications: those of `Verif.Sym.Model`; the abstract name of an instance is a parameter, and that of no instance is `net`,
the word that the code counts nets under (183); the order in which Python iterates a set is a parameter; the depth of the
recursion is not limited.
-/

namespace Verif.Arr

open Verif (pySort mem_pySort pySort_perm)
open Verif.Net (joinU)
open Verif.Sym (Inst Sub Lib getEl neighbors reducedSD instText edge showNat getEl_some getEl_none)

/-- What the search sees of the graph. -/
structure View where
  /-- `graph.neighbors` -/
  nbrs : String → List String
  /-- `reduced_SD_neighbors` -/
  sd : String → String → Bool
  /-- the abstract name of an element, none for a net -/
  kind : String → Option String
  /-- the key of a neighbour of the start node (140), none if it cannot be made -/
  key : String → String → Option String
  /-- the members of a set in the order in which Python iterates it -/
  order : List String → List String

/-- The view of a subcircuit.  The key (140) is the node id, `_` and the hash of the properties (`util.py`, 169-175), followed by
the pins on the edge in sorted order.  For a net `create_node_id` looks the net up in `ports_weight`, which is `None` in this
call (`util.py`, 179), and fails. -/
def view (hash : String → Nat) (abs : Inst → String) (order : List String → List String) (L : Lib) (s : Sub) : View where
  nbrs x := neighbors s.elems x
  sd x y := reducedSD L s.elems x y
  kind x := (getEl s.elems x).map abs
  key start x := (getEl s.elems x).map fun e =>
    "_" ++ showNat (hash (instText e)) ++ joinU (pySort (fun a b => decide (a ≤ b)) (edge e start))
  order := order

/-- A dict from sources to lists of nodes, in the order of insertion. -/
abbrev Rows := List (String × List String)

/-- `sorted` of names -/
def sorted (l : List String) : List String := pySort (fun a b => decide (a ≤ b)) l

/-- `set(graph.neighbors(x)) - set(tr)` as a list (103 and 155) -/
def fresh (V : View) (tr : List String) (x : String) : List String := V.order ((V.nbrs x).eraseDups.filter fun y => !tr.contains y)

/-- Lines 141-145: groups of nodes with the same key. -/
def addTo (g : List (String × List String)) (k n : String) : List (String × List String) :=
  if g.any fun e => e.1 = k then g.map fun e => if e.1 = k then (e.1, e.2 ++ [n]) else e else g ++ [(k, [n])]

/-- `<=` of lists of names -/
def lexLe : List String → List String → Bool
  | [], _ => true
  | _ :: _, [] => false
  | a :: l, b :: m => if a = b then lexLe l m else decide (a ≤ b)

/-- `matching_groups` (135-146) -/
def matchingGroups (V : View) (start : String) (lvl1 : List String) : Option (List (List String)) :=
  (lvl1.mapM fun n => (V.key start n).map fun k => (k, n)).map fun ks =>
    pySort lexLe (((ks.foldl (fun g kn => addTo g kn.1 kn.2) []).map Prod.snd).filter fun v => decide (1 < v.length))

/-- Lines 152-161: the next nodes of every source; a source without any is left out. -/
def next (V : View) (tr : List String) (g : Rows) : Rows :=
  (g.map fun r => (r.1, (sorted r.2).flatMap fun n => (fresh V tr n).filter fun y => V.sd n y)).filter fun r => !r.2.isEmpty

/-- `match_branches` (173-191): the counts of abstract names (and of nets) are those of the last. -/
def matchBranches (V : View) (g : Rows) : Bool :=
  match g.getLast? with
  | none => true
  | some z => g.all fun r => (r.2.map V.kind).isPerm (z.2.map V.kind)

/-- `check_non_convergence` (193-204): no element in two of the lists. -/
def apart (V : View) : List String → Rows → Bool
  | _, [] => true
  | seen, r :: g => if r.2.any fun x => seen.contains x && (V.kind x).isSome then false else apart V (seen ++ r.2) g

/-- Lines 164-166 -/
def extend (a g : Rows) : Rows := a.map fun r => (r.1, r.2 ++ (g.lookup r.1).getD [])

/-- `trace_template` (148-171), the array it leaves.  The recursion stops when `fuel` is used up. -/
def trace (V : View) : Nat → Rows → List String → Rows → Option Rows
  | 0, _, _, _ => none
  | fuel + 1, g, visited, a =>
    let nx := next V visited g
    if !nx.isEmpty && matchBranches V nx then
      if apart V [] nx then trace V fuel nx (visited ++ nx.flatMap Prod.snd) (extend a nx) else some (extend a nx)
    else some a

/-- Lines 110-117 for one group. -/
def traceGroup (V : View) (fuel : Nat) (stop : List String) (start : String) (group : List String) : Option Rows :=
  let rows := (sorted group).map fun x => (x, [x])
  trace V fuel rows (group ++ stop ++ (sorted group).drop (group.length - 1) ++ [start]) rows

/-- What is found: instances to align or the rows of an array. -/
inductive Found
  | align (l : List String)
  | rows (l : List (List String))
  deriving DecidableEq

/-- `process_results` (122-133) -/
def results (V : View) (a : Rows) : Option Found :=
  let rows := a.map fun r => (sorted r.2).filter fun x => (V.kind x).isSome
  match rows with
  | [] => none
  | r :: _ => if r.length = 1 then (rows.mapM List.head?).map Found.align else some (.rows rows)

/-- `find_array` (84-120) when arrays are to be identified and the circuit is not digital.  Every group is traced, smaller groups
first, and the array of the last one is what remains (108-120).  The outer `none` is an error, the inner one that there is no
group. -/
def findArray (V : View) (fuel : Nat) (stop : List String) (start : String) (traversed : List String) : Option (Option Found) :=
  match matchingGroups V start (fresh V traversed start) with
  | none => none
  | some [] => some none
  | some (g :: gs) =>
    match (pySort (fun a b => decide (a.length ≤ b.length)) (g :: gs)).mapM (traceGroup V fuel stop start) with
    | none => none
    | some as => match as.getLast? with
      | none => none
      | some a => (results V a).map some

end Verif.Arr

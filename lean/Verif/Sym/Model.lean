import Verif.Util.Sort
import Verif.Cons.Model
import Verif.Net.Flatten
import Verif.Pnr.Names

/-!
# Model of the search for symmetric instances and nets

`align/compiler/find_constraint.py` and the helpers of `align/compiler/util.py` it uses.

Simplifications made throughout: names are in upper case (as the schema makes them), so `upper()` is left out; logging is left
out; a Python dict is a list of pairs with different keys in the order of insertion; a Python set is a list, compared as a set.
The graph (align/schema/graph.py 36-52) is computed from the elements: its nodes are the names of elements and of the nets on
their pins.
-/

namespace Verif.Sym

open Verif (pySort)
open Verif.Cons (combinations2)
open Verif.Net (joinU)

structure Inst where
  name : String
  model : String
  pins : List (String × String)
  params : List (String × String)
  deriving DecidableEq

/-- A subcircuit: its name, its ports and its elements. -/
structure Sub where
  name : String
  ports : List String
  elems : List Inst

/-- The subcircuits of the library (`subckt.parent.find` restricted to those entries that are subcircuits). -/
abbrev Lib := List Sub

def find (L : Lib) (n : String) : Option Sub := L.find? fun s => s.name = n

/-! ## The graph -/

def nets (e : Inst) : List String := e.pins.map Prod.snd

/-- `get_element` (subcircuit.py 31-32). -/
def getEl (l : List Inst) (x : String) : Option Inst := l.find? fun e => e.name = x

def isInst (l : List Inst) (x : String) : Bool := (getEl l x).isSome

/-- `x in subckt.nets` (subcircuit.py 25-29). -/
def isNet (l : List Inst) (x : String) : Bool := l.any fun e => (nets e).contains x

def isNode (l : List Inst) (x : String) : Bool := isInst l x || isNet l x

/-- The elements on a net: its neighbours in the graph. -/
def users (l : List Inst) (n : String) : List Inst := l.filter fun e => (nets e).contains n

/-- The pins on the edge between an element and a net (`get_edge_data(...)["pin"]`).  Python stores a set here and iterates it
in arbitrary order; here it is in the order of the pins of the element. -/
def edge (e : Inst) (n : String) : List String := (e.pins.filter fun pn => pn.2 = n).map Prod.fst

/-- `G.neighbors(x)`. -/
def neighbors (l : List Inst) (x : String) : List String :=
  match getEl l x with
  | some e => (nets e).eraseDups
  | none => (users l x).map Inst.name

/-- Two lists with the same members: equality of Python sets. -/
def sameSet (a b : List String) : Bool := (a.all fun x => b.contains x) && b.all fun x => a.contains x

/-- `set(l)` in a fixed order. -/
def asSet (l : List String) : List String := pySort (fun a b => decide (a ≤ b)) l.eraseDups

/-! ## Leaf connections (util.py 79-147) -/

/-- `get_leaf_connection` (util.py 79-92).  The recursion of the code goes on for ever when subcircuits contain each other;
here it stops after `fuel` levels with the empty list. -/
def leaf (L : Lib) : Nat → Sub → String → List String
  | 0, _, _ => []
  | fuel + 1, s, net => (users s.elems net).flatMap fun e => (edge e net).flatMap fun pin =>
    match find L e.model with
    | some c => if c.name ≠ s.name then leaf L fuel c pin else [pin]
    | none => [pin]

/-- The number of levels used: more than there are subcircuits. -/
def depth (L : Lib) : Nat := L.length + 1

/-- `leaf_weights` (util.py 95-117) for an element and a net on one of its pins: for a subcircuit only the first pin on that
net is looked at. -/
def weightsOf (L : Lib) (e : Inst) (net : String) : List String :=
  match find L e.model with
  | some c => match e.pins.find? fun pn => pn.2 = net with
    | some pn => asSet (leaf L (depth L) c pn.1)
    | none => []
  | none => asSet (edge e net)

/-- `leaf_weights(G, node, nbr)`: one of the two is an element, the other a net. -/
def weights (L : Lib) (l : List Inst) (x y : String) : List String :=
  match getEl l x with
  | some e => weightsOf L e y
  | none => match getEl l y with
    | some e => weightsOf L e x
    | none => []

/-- `reduced_neighbors` (util.py 120-125). -/
def reduced (L : Lib) (l : List Inst) (x y : String) : Bool := !(sameSet (weights L l x y) ["B"])

/-- `reduced_SD_neighbors` (util.py 128-133). -/
def reducedSD (L : Lib) (l : List Inst) (x y : String) : Bool := (weights L l x y).any fun p => !["B", "G"].contains p

/-- `get_ports_weight` (util.py 136-147) for one port. -/
def portWeight (L : Lib) (s : Sub) (p : String) : List String := asSet (leaf L (depth L) s p)

/-! ## Keys of nodes (util.py 150-187) -/

/-- Decimal digits of a number, `str(n)`. -/
def showNat (n : Nat) : String := String.ofList (Pnr.pyStr n)

/-- The text that is hashed for an element (`gen_key`, util.py 150-161, of the properties of util.py 170-175):
`key:value` for all keys in sorted order, joined by `_`.  Parameters are in upper case and therefore come before `model` and
`n_pins`. -/
def instText (e : Inst) : String :=
  joinU ((pySort (fun a b => decide (a.1 ≤ b.1)) e.params ++ [("model", e.model), ("n_pins", showNat (nets e).eraseDups.length)]).map
    fun kv => kv.1 ++ ":" ++ kv.2)

/-- The text that is hashed for a net (util.py 177-187).  `show` is `str` of a set. -/
def netText (showSet : List String → String) (L : Lib) (s : Sub) (n : String) : String :=
  let sd := (users s.elems n).filter fun e => reducedSD L s.elems n e.name
  joinU (pySort (fun a b => decide (a ≤ b)) (sd.map Inst.model ++
    if s.ports.contains n then portWeight L s n else sd.map fun e => showSet (weights L s.elems n e.name)))

/-- The text that is hashed for a node (util.py 169-187). -/
def text (showSet : List String → String) (L : Lib) (s : Sub) (x : String) : String :=
  match getEl s.elems x with
  | some e => instText e
  | none => netText showSet L s x

/-- `create_node_id` (util.py 169-187).  The hash (sha256 modulo 10^8) is a parameter. -/
def key (hash : String → Nat) (showSet : List String → String) (L : Lib) (s : Sub) (x : String) : Nat :=
  hash (text showSet L s x)

/-! ## The search (find_constraint.py 22-228) -/

/-- What the search sees of the graph. -/
structure View where
  /-- the reduced neighbours of a node, sorted, without repetition -/
  nbrs : String → List String
  /-- `reduced_SD_neighbors` -/
  sd : String → String → Bool
  /-- `compare_two_nodes` -/
  same : String → String → Bool
  /-- the pins on an edge -/
  pins : String → String → List String

/-- The view of a subcircuit. -/
def view (hash : String → Nat) (showSet : List String → String) (L : Lib) (s : Sub) : View where
  nbrs x := (asSet (neighbors s.elems x)).filter fun y => reduced L s.elems x y
  sd x y := reducedSD L s.elems x y
  same x y := decide (key hash showSet L s x = key hash showSet L s y)
  pins x y := match getEl s.elems x with
    | some e => edge e y
    | none => match getEl s.elems y with
      | some e => edge e x
      | none => []

/-- One `match_pair`: the pairs and the entry `"array_start_point"`. -/
structure Pairs where
  pairs : List (String × String)
  start : Option (String × String)
  deriving DecidableEq

def Pairs.empty : Pairs := ⟨[], none⟩

/-- `d[k] = v` -/
def put {α β : Type} [DecidableEq α] (d : List (α × β)) (k : α) (v : β) : List (α × β) :=
  if d.any fun e => e.1 = k then d.map fun e => if e.1 = k then (k, v) else e else d ++ [(k, v)]

def Pairs.set (p : Pairs) (a b : String) : Pairs := { p with pairs := put p.pairs a b }

/-- `not new_pair` -/
def Pairs.isEmpty (p : Pairs) : Bool := p.pairs.isEmpty && p.start.isNone

/-- `p.update(q)` -/
def Pairs.update (p q : Pairs) : Pairs := ⟨q.pairs.foldl (fun d e => put d e.1 e.2) p.pairs, q.start.or p.start⟩

/-- `match_pairs` -/
abbrev Found := List ((String × String) × Pairs)

/-- How the search can fail: by an assertion; `fuel` marks that the model has cut off the recursion. -/
inductive Fail
  | assertion
  | fuel
  deriving DecidableEq

abbrev Res (α : Type) := Except Fail α

/-- `find_unique_matching_branches` (find_constraint.py 22-34). -/
def uniqueMatch (V : View) (n1 n2 : List String) : Option (List (String × String)) :=
  n1.mapM fun a => match n2.filter fun b => V.same a b with
    | [b] => some (a, b)
    | _ => none

/-- Neighbours not traversed (find_constraint.py 64-67). -/
def fresh (V : View) (tr : List String) (x : String) : List String := (V.nbrs x).filter fun y => !tr.contains y

/-- `len(w) > len(set(w)) > 1` (find_constraint.py 172-173). -/
def repeated (w : List String) : Bool := decide (w.eraseDups.length < w.length ∧ 1 < w.eraseDups.length)

/-- The loop of find_constraint.py 113-130 over pairs of neighbours: all that give something. -/
def tryPairs (rec : Found → Pairs → String → String → Res (Found × Pairs)) (f : Found) :
    List (String × String) → Res (Found × List Pairs)
  | [] => .ok (f, [])
  | (a, b) :: l => do
    let r ← rec f .empty a b
    let t ← tryPairs rec r.1 l
    return (t.1, if r.2.isEmpty then t.2 else r.2 :: t.2)

/-- The loop of find_constraint.py 137-155 over single neighbours. -/
def trySingles (rec : Found → Pairs → String → String → Res (Found × Pairs)) (f : Found) : List String → Res Found
  | [] => .ok f
  | a :: l =>
    if f.any fun e => e.1 = (a, a) then trySingles rec f l
    else do
      let r ← rec f .empty a a
      trySingles rec (if r.2.isEmpty then r.1 else put r.1 (a, a) r.2) l

/-- The loop of find_constraint.py 169-170 over the matched neighbours. -/
def follow (rec : Found → Pairs → String → String → Res (Found × Pairs)) (f : Found) (p : Pairs) :
    List (String × String) → Res (Found × Pairs)
  | [] => .ok (f, p)
  | (a, b) :: l => do
    let r ← rec f p a b
    follow rec r.1 r.2 l

/-- find_constraint.py 106-156: several neighbours of a single node. -/
def diverge (rec : Found → Pairs → String → String → Res (Found × Pairs)) (f : Found) (p : Pairs) (sp : List String) :
    Res (Found × Pairs) := do
  let r ← tryPairs rec f (combinations2 sp)
  match r.2 with
  | [q] => return (r.1, p.update q)
  | _ => do
    let g ← trySingles rec r.1 sp
    return (g, p)

/-- `compare_nodes` (find_constraint.py 37-184).  The set `traversed` is not used by a caller after the call, so it is not
returned.  `match_pair = {}` (180, 183) only changes the local variable. -/
def compareNodes (V : View) : Nat → Found → Pairs → List String → String → String → Res (Found × Pairs)
  | 0, _, _, _, _, _ => .error .fuel
  | fuel + 1, f, p, tr, a, b =>
    let n1 := fresh V tr a
    let n2 := fresh V tr b
    if n1 = [] ∨ n2 = [] then .ok (f, if V.same a b = true then p.set a b else p)
    else if 10 < n1.length then
      if p.start.isSome then .error .assertion else .ok (f, { p with start := some (a, b) })
    else if a = b then
      if p.pairs.any fun e => e.1 = a ∨ e.2 = a then .ok (f, p)
      else match n1.filter (V.sd a) with
        | [] => .ok (f, p.set a a)
        | [c] => compareNodes V fuel f (p.set a a) (a :: tr) c c
        | sds => diverge (fun f p x y => compareNodes V fuel f p (a :: tr) x y) f (p.set a a)
            (sds.filter fun x => !(a :: tr).contains x)
    else if V.same a b = true then
      match uniqueMatch V n1 n2 with
      | some m => follow (fun f p x y => compareNodes V fuel f p (a :: b :: tr) x y) f (p.set a b) m
      | none =>
        if repeated (n1.flatMap (V.pins a)) && repeated (n2.flatMap (V.pins b)) then
          if p.start.isSome then .error .assertion else .ok (f, { p.set a b with start := some (a, b) })
        else .ok (f, p.set a b)
    else .ok (f, p)

/-- `itertools.combinations_with_replacement(l, 2)` -/
def combinationsR {α : Type} : List α → List (α × α)
  | [] => []
  | a :: l => (a :: l).map (fun b => (a, b)) ++ combinationsR l

/-- `recursive_start_points` (find_constraint.py 187-197). -/
def startPoint (V : View) (fuel : Nat) (l : List Inst) (f : Found) (tr : List String) (a b : String) : Res Found :=
  if isNode l a && isNode l b then do
    let r ← compareNodes V fuel f .empty tr a b
    return if r.2.isEmpty then r.1 else put r.1 (a, b) r.2
  else .ok f

/-- The ports the search starts from (find_constraint.py 218). -/
def startPorts (s : Sub) (stop : List String) : List String := (asSet s.ports).filter fun p => !stop.contains p

/-- `FindSymmetry` (find_constraint.py 200-228). -/
def findSymmetry (V : View) (L : Lib) (s : Sub) (stop : List String) (fuel : Nat) : Res Found :=
  (combinationsR (startPorts s stop)).foldlM (fun f ab =>
    if sameSet (portWeight L s ab.1) (portWeight L s ab.2) && !(portWeight L s ab.2).isEmpty then
      (startPoint V fuel s.elems f (ab.1 :: ab.2 :: stop) ab.1 ab.2).map fun g =>
        g.filter fun e => !e.2.isEmpty
    else .ok f) []

end Verif.Sym

import Verif.Sym.Model

/-!
# Model of the generation of symmetry constraints

`align/compiler/find_constraint.py` 255-598.  Further simplifications: the recursion of `get_base_model` (util.py 63-76) is a
parameter that gives the base model of an instance; whether the solver accepts one more constraint (`ConstraintDB.append`,
constraint.py 1514-1524) is a parameter, as is which constraints have been appended before; constraints `GroupBlocks` are not
present when the constraints are generated.
-/

namespace Verif.Sym

open Verif (pySort)

/-- An entry of `user_constrained_list` and `written_symmblocks`: a name or a set of one or two names. -/
inductive Entry
  | one (x : String)
  | set (x y : String)
  deriving DecidableEq

def Entry.names : Entry → List String
  | .one x => [x]
  | .set x y => [x, y]

/-- `{a, b} in w` -/
def hasSet (w : List Entry) (a b : String) : Bool := w.any fun e => match e with
  | .one _ => false
  | .set x y => decide ((x = a ∧ y = b) ∨ (x = b ∧ y = a))

/-- `x in w` for a name -/
def hasName (w : List Entry) (x : String) : Bool := w.contains (.one x)

/-- The constraints that are generated. -/
inductive Con
  | blocks (pairs : List (List String))
  | nets (a b : String) (pinsA pinsB : List String)
  deriving DecidableEq

/-- What the generation sees and does not change. -/
structure Env where
  lib : Lib
  sub : Sub
  /-- `get_base_model` -/
  base : String → String
  /-- power, ground and clock ports -/
  stop : List String
  /-- the solver accepts the second in addition to the first -/
  ok : List Con → Con → Bool
  /-- constraints appended before -/
  old : Con → Bool
  /-- the order in which Python iterates the pins on an edge -/
  ord : List String → List String

structure St where
  cons : List Con
  written : List Entry

/-- `ConstraintDB.append`: nothing happens when the same constraint was appended before (constraint.py 1516-1524). -/
def append (E : Env) (cons : List Con) (c : Con) : List Con :=
  if E.old c || cons.contains c then cons else cons ++ [c]

/-- The same parameters. -/
def sameParams (p q : List (String × String)) : Bool := (p.all fun e => q.contains e) && q.all fun e => p.contains e

/-- The checks of `SymmetricBlocks.pairs_validator` (constraint.py 972-999). -/
def valid (l : List Inst) (pairs : List (List String)) : Bool := pairs.all fun pr => (pr.all fun x => isInst l x) && match pr with
  | [x, y] => match getEl l x, getEl l y with
    | some e, some d => sameParams e.params d.params
    | _, _ => false
  | _ => true

/-- `add_or_revert_const` (find_constraint.py 484-497). -/
def addBlocks (E : Env) (st : St) (pairsj : List (List String)) : St :=
  if 1 < pairsj.length ∨ (pairsj.head?.map List.length) = some 2 then
    if valid E.sub.elems pairsj && (E.old (.blocks pairsj) || st.cons.contains (.blocks pairsj) || E.ok st.cons (.blocks pairsj)) then
      ⟨append E st.cons (.blocks pairsj), st.written ++ pairsj.map fun pr => match pr with
        | [x] => .set x x
        | [x, y] => .set x y
        | _ => .one ""⟩
    else st
  else st

/-- `all_neighbors_dist` (graph.py 141-148) for one node: the models of the neighbours. -/
def nbrModels (l : List Inst) (n : String) : List String := (users l n).map Inst.model

/-- `pre_filter` (find_constraint.py 405-428): `some true` when the pair is skipped, `none` when the code fails. -/
def preFilter (E : Env) (w : List Entry) (k v : String) : Option Bool :=
  if E.stop.contains k then none
  else if w.any fun e => e.names.contains k || e.names.contains v then some true
  else if !isNode E.sub.elems k then some true
  else if isNet E.sub.elems k then
    if isNet E.sub.elems v && !isInst E.sub.elems v && !isInst E.sub.elems k then
      some (!decide ((nbrModels E.sub.elems k).Perm (nbrModels E.sub.elems v)))
    else none
  else some false

/-- One round of `filter_symblock_const` (find_constraint.py 433-450). -/
def blockStep (E : Env) (w : List Entry) (st : List (List String) × List String) (kv : String × String) :
    Option (List (List String) × List String) :=
  (preFilter E w kv.1 kv.2).map fun skip =>
    if skip then st
    else if st.2.contains kv.1 || st.2.contains kv.2 then st
    else if !isInst E.sub.elems kv.1 then st
    else if kv.1 = kv.2 ∧ ["NMOS", "PMOS", "RES", "CAP"].contains (E.base kv.1) then st
    else if kv.1 ≠ kv.2 then (st.1 ++ [[kv.1, kv.2]], st.2 ++ [kv.1, kv.2])
    else (st.1 ++ [[kv.1]], st.2 ++ [kv.1])

/-- `filter_symblock_const` (find_constraint.py 430-451). -/
def filterBlocks (E : Env) (w : List Entry) (pairs : List (String × String)) : Option (List (List String)) :=
  (pairs.foldlM (blockStep E w) ([], [])).map Prod.fst

/-! ## Symmetric nets -/

/-- A key of `conn`: a pin of an instance, or the net itself when it is a port. -/
inductive Term
  | pin (inst pin : String)
  | port (net : String)
  deriving DecidableEq

/-- `"/".join(ele)` or the name of the port. -/
def Term.show : Term → String
  | .pin i p => i ++ "/" ++ p
  | .port n => n

/-- `_connection` (find_constraint.py 515-536): the pins on the net with their leaf connections. -/
def connection (E : Env) (n : String) : List (Term × List String) :=
  ((users E.sub.elems n).flatMap fun e => (E.ord (edge e n)).filterMap fun p =>
    match find E.lib e.model with
    | some c =>
      let lc := (asSet (leaf E.lib (depth E.lib) c p)).filter fun x => x ≠ "B"
      if lc = [] then none else some (.pin e.name p, lc)
    | none => if p ≠ "B" then some (.pin e.name p, [p]) else none) ++
  if E.sub.ports.contains n then [(.port n, (asSet (leaf E.lib (depth E.lib) E.sub n)).filter fun x => x ≠ "B")] else []

/-- The state of the loop of `symmnet_device_pairs`: `pairs`, and `pinsA` with `pinsB`. -/
structure Match where
  pairs : List (String × String)
  pins : List (Term × Term)

/-- One round of the loop (find_constraint.py 551-590): `none` when the function returns `[None, None, None]`.
`ele_A not in pinsA` compares a tuple with strings and is always true for pins of instances. -/
def matchStep (E : Env) (w : List Entry) (skip : Option (List Entry)) (user : Bool) (st : Match)
    (ab : (Term × List String) × Term × List String) : Option Match :=
  match ab.1.1, ab.2.1 with
  | .pin i _, .pin j _ =>
    if skip.any fun s => hasName s i || hasName s j then some st
    else if sameSet ab.1.2 ab.2.2 && ((getEl E.sub.elems i).map Inst.model == (getEl E.sub.elems j).map Inst.model) then
      if st.pairs.any fun e => e.2 = j then none
      else if !user && !hasSet w i j then some st
      else some ⟨put st.pairs i j, st.pins ++ [(ab.1.1, ab.2.1)]⟩
    else some st
  | .port a, .port b =>
    if sameSet ab.1.2 ab.2.2 && !(st.pins.any fun t => t.1.show = a) && !(st.pins.any fun t => t.2.show = b) then
      some ⟨put st.pairs a b, st.pins ++ [(.port a, .port b)]⟩
    else some st
  | _, _ => some st

/-- `symmnet_device_pairs` (find_constraint.py 500-598): outer `none` when an assertion fails, inner `none` when nothing is
found. -/
def devicePairs (E : Env) (w : List Entry) (skip : Option (List Entry)) (user : Bool) (a b : String) : Option (Option Match) :=
  if connection E a = [] ∨ connection E b = [] then none
  else some (((((connection E a).flatMap fun x => (connection E b).map fun y => (x, y)).foldlM (matchStep E w skip user) ⟨[], []⟩)).bind
    fun r => if 1 < r.pairs.length then some r else none)

/-- One round of `filter_symnet_const` (find_constraint.py 454-481). -/
def netStep (E : Env) (skip : List Entry) (st : St) (kv : String × String) : Option St :=
  (preFilter E st.written kv.1 kv.2).bind fun sk =>
    if sk || isInst E.sub.elems kv.1 || decide (kv.1 = kv.2) then some st
    else (devicePairs E st.written (some skip) false kv.1 kv.2).map fun r => match r with
      | none => st
      | some r => ⟨append E st.cons (.nets kv.1 kv.2 (r.pins.map fun t => t.1.show) (r.pins.map fun t => t.2.show)),
          st.written ++ [.set kv.1 kv.2]⟩

/-- `filter_symnet_const` (find_constraint.py 453-481). -/
def filterNets (E : Env) (skip : List Entry) (st : St) (pairs : List (String × String)) : Option St :=
  pairs.foldlM (netStep E skip) st

/-! ## The generation -/

/-- Sorted by key (find_constraint.py 395, 400). -/
def items (p : List (String × String)) : List (String × String) := pySort (fun a b => decide (a.1 ≤ b.1)) p

/-- The groups in the order of the constructor (find_constraint.py 372-376): most pairs of different nodes first. -/
def allPairs (found : List (List (String × String))) : List (List (String × String)) :=
  pySort (fun p q => decide ((q.filter fun e => e.1 ≠ e.2).length ≤ (p.filter fun e => e.1 ≠ e.2).length)) found

/-- The first loop of `loop_through_pairs` (find_constraint.py 394-398): the state and the last `pairsj`. -/
def firstLoop (E : Env) : St → List (List String) → List (List (String × String)) → Option (St × List (List String))
  | st, last, [] => some (st, last)
  | st, _, p :: ps => (filterBlocks E st.written (items p)).bind fun pairsj => firstLoop E (addBlocks E st pairsj) pairsj ps

/-- The second loop (find_constraint.py 399-403); `pairsj` is the last one of the first loop. -/
def secondLoop (E : Env) (skip : List Entry) (pairsj : List (List String)) : St → List (List (String × String)) → Option St
  | st, [] => some st
  | st, p :: ps => (filterNets E skip st (items p)).bind fun st => secondLoop E skip pairsj (addBlocks E st pairsj) ps

/-- `add_symmetry_const(...).loop_through_pairs()` as called by `FindConst` (find_constraint.py 271-276): groups with more than
one entry, none of the constraints generated yet; `skip_const` is a copy of `written_symmblocks`. -/
def generate (E : Env) (w : List Entry) (found : List (List (String × String))) : Option St :=
  (firstLoop E ⟨[], w⟩ [] (allPairs (found.filter fun p => 1 < p.length))).bind fun r =>
    secondLoop E w r.2 r.1 (allPairs (found.filter fun p => 1 < p.length))

/-! ## Symmetric nets of the user -/

/-- A constraint `SymmetricNets` of the user, with or without pins. -/
structure UserNets where
  net1 : String
  net2 : String
  pins : List (String × String)

/-- `k.split("/")[0]` -/
def instOf (s : String) : String := String.ofList (s.toList.takeWhile (· ≠ '/'))

/-- `pin_pairs` (find_constraint.py 325-332). -/
def pinPairs (ports : List String) (pins : List (String × String)) : List (String × String) :=
  pins.foldl (fun d e => if d.any fun x => x.1 = e.1 then d else if ports.contains e.1 then d else d ++ [e]) []

/-- One round of the loop of find_constraint.py 339-348. -/
def userStep (ports : List String) (st : List (List String) × List Entry) (kv : String × String) : List (List String) × List Entry :=
  if ports.contains kv.1 then st
  else if kv.1 ≠ kv.2 ∧ hasSet st.2 kv.1 kv.2 = false then (st.1 ++ [[kv.1, kv.2]], st.2 ++ [.set kv.1 kv.2])
  else if hasName st.2 kv.1 = false then (st.1 ++ [[kv.1]], st.2 ++ [.one kv.1])
  else st

/-- The pairs of one constraint (find_constraint.py 305-337): `none` when an assertion fails. -/
def userPairs (E : Env) (w : List Entry) (u : UserNets) : Option (List (String × String)) :=
  if u.pins = [] then (devicePairs E w none true u.net1 u.net2).bind fun r => r.map Match.pairs
  else some ((pinPairs E.sub.ports u.pins).foldl (fun d e => put d (instOf e.1) (instOf e.2)) [])

/-- The blocks of the constraints, and the list of constrained names (find_constraint.py 299-354). -/
def userBlocks (E : Env) : List Entry → List UserNets → Option (List (List (List String)) × List Entry)
  | w, [] => some ([], w)
  | w, u :: us => (userPairs E w u).bind fun ps =>
    let r := ps.foldl (userStep E.sub.ports) ([], w)
    (userBlocks E r.2 us).map fun t =>
      (if r.1 ≠ [] ∧ ¬ (r.1.length = 1 ∧ r.1.head?.map List.length = some 1) then r.1 :: t.1 else t.1, t.2)

/-- Which of the blocks are appended (find_constraint.py 365-369): those whose entries are not all in one constraint that is there. -/
def userFinal (there bs : List (List (List String))) : List (List (List String)) :=
  bs.foldl (fun acc b => if (there ++ acc).any fun c => b.all fun pr => c.contains pr then acc else acc ++ [b]) []

end Verif.Sym

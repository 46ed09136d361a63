import Verif.Sym.Model

/-!
# Model of the correction of sources and drains

`align/compiler/preprocess.py` 147-268 (`swap_SD`, `define_SD`) and the helpers of `align/compiler/util.py` 19-76 it uses.

Netlists and graphs are those of `Verif.Sym.Model`.  Further simplifications: names are in upper case; the lists of power and
ground ports are arguments (the code takes those of the last constraint of each kind); logging is left out.
-/

namespace Verif.Sd

open Verif.Sym (Inst Sub Lib find nets getEl isInst isNet isNode users edge neighbors)

/-- The library: subcircuits, and models with their base (`none` for a model without base). -/
structure Library where
  subs : Lib
  models : List (String × Option String)

/-- `get_base_model` (util.py 63-76) by the name of the model; `none` when an assertion fails, and when the recursion of the code
goes on for ever (more levels than `fuel`). -/
def baseModel (L : Library) : Nat → String → Option String
  | 0, _ => none
  | fuel + 1, cm =>
    match find L.subs cm with
    | some s => match s.elems with
      | [e] => baseModel L fuel e.model
      | _ => some cm
    | none => match L.models.lookup cm with
      | some (some b) => if b = "" then some cm else some b
      | some none => some cm
      | none => none

/-- `get_base_model(subckt, node)` -/
def baseOf (L : Library) (l : List Inst) (x : String) : Option String :=
  (getEl l x).bind fun e => baseModel L (L.subs.length + 1) e.model

/-- `"MOS" in base_model` -/
def hasMos (b : String) : Bool := b.toList.tails.any fun t => decide (['M', 'O', 'S'] <+: t)

/-- The pins on the edge between two nodes (`G.get_edge_data(a, b)["pin"]`). -/
def pinsBetween (l : List Inst) (a b : String) : List String :=
  match getEl l a with
  | some e => edge e b
  | none => match getEl l b with
    | some e => edge e a
    | none => []

/-- `get_next_level(subckt, G, [x])` (util.py 19-60).  Both branches for the neighbours of a net append the neighbour. -/
def nextLevel (L : Library) (l : List Inst) (x : String) : Option (List String) :=
  if isInst l x then
    (baseOf L l x).map fun b =>
      if hasMos b then (neighbors l x).filter fun y => (pinsBetween l x y).any fun p => !["G", "B"].contains p
      else neighbors l x
  else if isNet l x then
    ((neighbors l x).mapM fun y => baseOf L l y).map fun _ => neighbors l x
  else none

/-- The state of a traversal: `high` (or `low`), `traversed`, and the probable changes. -/
structure Scan where
  queue : List String
  traversed : List String
  changes : List String

/-- One neighbour (preprocess.py 217-233, 245-261): `pp` is the pin of a PMOS that calls for a change, `pn` that of an NMOS. -/
def scanStep (L : Library) (l : List Inst) (pp pn nxt : String) (st : Scan) (node : String) : Option Scan :=
  let et := pinsBetween l node nxt
  if !(et.contains "S" || et.contains "D") || st.traversed.contains node then some st
  else (if isInst l node then baseOf L l node else if isNet l node then some "net" else none).map fun b =>
    ⟨st.queue ++ [node], st.traversed ++ [node],
      if b = "PMOS" then if et.contains pp then st.changes ++ [node] else st.changes
      else if b = "NMOS" then if et.contains pn then st.changes ++ [node] else st.changes
      else st.changes⟩

/-- The loop `while high` (preprocess.py 215-233), `while low` (241-261): `none` when an assertion fails.  The loop of the code
has no bound; here it makes at most `fuel` rounds. -/
def scan (L : Library) (l : List Inst) (pp pn : String) : Nat → Scan → Option Scan
  | 0, _ => none
  | fuel + 1, st => match st.queue with
    | [] => some st
    | nxt :: q => (nextLevel L l nxt).bind fun ns =>
      (ns.foldlM (scanStep L l pp pn nxt) { st with queue := q }).bind (scan L l pp pn fuel)

/-- `swap_SD` (preprocess.py 147-162): `none` when there is no such pin. -/
def swap (l : List Inst) (x : String) : Option (List Inst) :=
  (getEl l x).bind fun e => (e.pins.lookup "D").bind fun nd => (e.pins.lookup "S").map fun ns =>
    l.map fun d => if d.name = x then
      { d with pins := d.pins.map fun pn => if pn.1 = "D" then ("D", ns) else if pn.1 = "S" then ("S", nd) else pn } else d

/-- A bound for the number of rounds. -/
def rounds (l : List Inst) (high : List String) : Nat := high.length + l.length + (l.map fun e => e.pins.length).sum + 1

/-- `define_SD` (preprocess.py 165-268): the new elements, `none` when the code fails.  `setOrd` is the order in which Python
iterates a set. -/
def defineSD (L : Library) (setOrd : List String → List String) (s : Sub) (power gnd : List String) : Option (List Inst) :=
  if power = [] ∨ gnd = [] then some s.elems
  else
    let high := setOrd (power.eraseDups.filter fun p => s.ports.contains p)
    let low := setOrd (gnd.eraseDups.filter fun p => s.ports.contains p)
    if high = [] ∨ low = [] then none
    else
      let hi := high.filter fun n => isNet s.elems n
      let lo := low.filter fun n => isNet s.elems n
      if hi = [] ∨ lo = [] then some s.elems
      else (scan L s.elems "D" "S" (rounds s.elems hi) ⟨hi, hi ++ gnd, []⟩).bind fun p =>
        if p.changes = [] then some s.elems
        else (scan L s.elems "S" "D" (rounds s.elems lo) ⟨lo, lo ++ high, []⟩).bind fun n =>
          (setOrd (n.changes.eraseDups.filter fun x => p.changes.contains x)).foldlM swap s.elems

end Verif.Sd

import Verif.Util.Sort
import Verif.Geometry.Model
import Mathlib.Data.Int.GCD

/-!
# Model of `align/pnr/grid_constraints.py`

Sets of Python are lists here; only membership is used, and `sorted(set)` is a sorted list without repetitions.
-/

namespace Verif.GridCons

/-- `schema/constraint.py:1043-1045`, `OffsetsScalings`. -/
structure Term where
  offsets : List Int
  scalings : List Int
deriving DecidableEq, Repr

inductive Axis | H | V
deriving DecidableEq, Repr

/-- `schema/constraint.py:1048-1051`, `PlaceOnGrid`. -/
structure Pog where
  direction : Axis
  pitch : Int
  terms : List Term
deriving DecidableEq, Repr

/-- `schema/constraint.py:1043-1059`: construction of a constraint, with the type of `scalings` and the validator
of `offsets`. -/
def mkPog (direction : Axis) (pitch : Int) (terms : List Term) : Option Pog :=
  if terms.all fun t =>
      (t.offsets.all fun o => decide (0 ≤ o) && decide (o < pitch)) &&
      (t.scalings.all fun s => decide (s = 1) || decide (s = -1))
  then some ⟨direction, pitch, terms⟩ else none

/-- `grid_constraints.py:11-14`, `check`. -/
def check (r : Pog) (x scaling : Int) : Bool :=
  r.terms.any fun t => t.offsets.contains (x.fmod r.pitch) && t.scalings.contains scaling

/-- `sorted(set(l))`. -/
def sortedSet (l : List Int) : List Int := pySort (fun a b : Int => decide (a ≤ b)) l.eraseDups

/-- `grid_constraints.py:16-27`, `simplify`. -/
def simplify (pairs : List (Int × Int)) : List Term :=
  let pos := (pairs.filter fun p => decide (p.2 = 1)).map Prod.fst
  let neg := (pairs.filter fun p => decide (p.2 = -1)).map Prod.fst
  let both := pos.filter fun o => neg.contains o
  let pos := pos.filter fun o => !both.contains o
  let neg := neg.filter fun o => !both.contains o
  (if both = [] then [] else [⟨sortedSet both, [1, -1]⟩]) ++
  (if pos = [] then [] else [⟨sortedSet pos, [1]⟩]) ++
  (if neg = [] then [] else [⟨sortedSet neg, [-1]⟩])

/-- `grid_constraints.py:31-32`, `lcm2`; the divisor is 0 only for two zero pitches. -/
def lcm2 (a b : Int) : Option Int :=
  if Int.gcd a b = 0 then none else some ((a * b).fdiv (Int.gcd a b))

/-- `grid_constraints.py:30-37`, `lcm`. -/
def lcm : List Int → Option Int
  | [] => none
  | x :: xs => xs.foldlM lcm2 x

/-- `range(0, n, step)`; a zero step raises. For a negative step the range is empty here, as `n` is positive then
or the function has failed. -/
def rangeStep (n step : Int) : Option (List Int) :=
  if step = 0 then none
  else if step < 0 then some []
  else some ((List.range (-((-n).fdiv step)).toNat).map fun (i : Nat) => (i : Int) * step)

/-- `grid_constraints.py:46-50`, `gen_pairs`. -/
def genPairs (newPitch : Int) (r : Pog) : Option (List (Int × Int)) :=
  (rangeStep newPitch r.pitch).map fun coarse =>
    coarse.flatMap fun c => r.terms.flatMap fun t =>
      t.offsets.flatMap fun o => t.scalings.map fun s => (c + o, s)

/-- `grid_constraints.py:52`, `set.intersection` of a non-empty list of sets. -/
def interAll : List (List (Int × Int)) → List (Int × Int)
  | [] => []
  | l :: ls => l.filter fun p => ls.all fun l' => l'.contains p

/-- `grid_constraints.py:40-58`, `merge`. -/
def merge (rs : List Pog) : Option Pog :=
  match rs with
  | [] => none
  | r0 :: _ =>
    (lcm (rs.map Pog.pitch)).bind fun newPitch =>
      if rs.all fun r => decide (r0.direction = r.direction) then
        (rs.mapM (genPairs newPitch)).bind fun sets =>
          mkPog r0.direction newPitch (simplify (interAll sets))
      else none

/-- `defaultdict(list)` append, keys in order of first insertion. -/
def addBin {κ α : Type} [DecidableEq κ] (k : κ) (a : α) : List (κ × List α) → List (κ × List α)
  | [] => [(k, [a])]
  | (k', v) :: tl => if k' = k then (k', v ++ [a]) :: tl else (k', v) :: addBin k a tl

/-- `grid_constraints.py:60-65`, `split_directions_and_merge`. -/
def splitAndMerge (rs : List Pog) : Option (List Pog) :=
  ((rs.foldl (fun tbl r => addBin r.direction r tbl) []).map Prod.snd).mapM merge

abbrev Tr := Verif.Geometry.Transformation

/-- `grid_constraints.py:98-103`. -/
def along (t : Tr) : Axis → Int × Int
  | .H => (t.sY, t.oY)
  | .V => (t.sX, t.oX)

/-- `grid_constraints.py:105-112`: a constraint of a child instance seen from its module. -/
def liftPog (t : Tr) (p : Pog) : Option Pog :=
  let (s, o) := along t p.direction
  if p.pitch = 0 then
    (if p.terms.any fun t => !(t.offsets.isEmpty) && !(t.scalings.isEmpty) then none
     else mkPog p.direction p.pitch [])
  else
    mkPog p.direction p.pitch
      (p.terms.flatMap fun t => t.offsets.flatMap fun offset => t.scalings.map fun scaling =>
        ⟨[(offset - s * o * scaling).fmod p.pitch], [s * scaling]⟩)

/-- An instance with the name of its template. -/
structure Inst where
  template : String
  tr : Tr
deriving DecidableEq, Repr

/-- The constraints of all templates (leaves and modules): only the `PlaceOnGrid` ones. Leaves and modules
have different names; a name in neither raises, a template without constraints has an empty list. -/
abbrev Table := List (String × List Pog)

/-- `grid_constraints.py:68-112`: the constraints collected from the instances. -/
def childPogs (tbl : Table) (insts : List Inst) : Option (List Pog) :=
  (insts.mapM fun (i : Inst) => (tbl.lookup i.template).bind fun ps => ps.mapM (liftPog i.tr)).map List.flatten

/-- `grid_constraints.py:114-116`: what is added to the module. -/
def derived (tbl : Table) (insts : List Inst) : Option (List Pog) :=
  (childPogs tbl insts).bind fun ps => if ps = [] then some [] else splitAndMerge ps

/-- Update of an entry of a dictionary. -/
def Table.extend (tbl : Table) (name : String) (ps : List Pog) : Table :=
  tbl.map fun e => if e.1 = name then (e.1, e.2 ++ ps) else e

/-- `grid_constraints.py:120-130`, the loop of `gen_constraints` over the topological order: `mods` are the
modules. -/
def genConstraints (mods : List (String × List Inst)) : List String → Table → Option Table
  | [], tbl => some tbl
  | n :: ns, tbl =>
    match mods.lookup n with
    | some insts => (derived tbl insts).bind fun ps => genConstraints mods ns (tbl.extend n ps)
    | none => if (tbl.lookup n).isSome then genConstraints mods ns tbl else none

end Verif.GridCons

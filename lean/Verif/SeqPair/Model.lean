import Verif.Cons.Model
import Verif.GridCons.Model
import Mathlib.Data.List.Infix

/-!
# Sequence pairs, block variants and the placement inequalities

Models `align/pnr/placer_pythonic_sp.py`: `enumerate_sequence_pairs` (52-94),
`enumerate_block_variants` (97-138), the inequalities of `place_sequence_pair` (141-278) and the
extraction of its solution (331-342).

Conventions.
* `instance_map` maps the instances to their positions in the list `insts`, as built in
  `place_using_sequence_pairs` (364-371).
* The variables of the linear program are the fields of a record of rationals, and an inequality is
  modelled by its two sides evaluated at this record.  The solver finds some record for which all
  hold, with floating point errors not modelled.  That variables are told apart by name strings
  (`{name}_llx`, ...) is not modelled: different variables are different fields.
* The wire length variables and the objective (280-305) are left out: they only add inequalities,
  so every solution of the real program gives a solution of the model.
* A raised exception is `none`.
-/

namespace Verif.SeqPair

open Verif.Cons (Cons Box Axis Dir Line expand pairwise combinations2)
open Verif.GridCons (Pog Term)
open Verif.Geometry (Transformation)

/-! ## Sequence pairs -/

/-- `instance_map[name]` (364-371). -/
def indexOf (insts : List String) (name : String) : Option Nat :=
  if name ∈ insts then some (insts.idxOf name) else none

/-- The edge added to `pos_graph` and to `neg_graph` for two consecutive instances of an `Order`
(64-80); nothing for other directions. -/
def edgesOf (d : Option Dir) (i0 i1 : Nat) : List ((Nat × Nat) × (Nat × Nat)) :=
  match d with
  | some .leftToRight => [((i0, i1), (i0, i1))]
  | some .rightToLeft => [((i1, i0), (i1, i0))]
  | some .bottomToTop => [((i1, i0), (i0, i1))]
  | some .topToBottom => [((i0, i1), (i1, i0))]
  | _ => []

/-- Does the direction add an edge, so that the instances are looked up? -/
def usesEdge : Option Dir → Bool
  | some .leftToRight => true
  | some .rightToLeft => true
  | some .bottomToTop => true
  | some .topToBottom => true
  | _ => false

/-- The edges for one pair of names (63-80). -/
def pairEdges (insts : List String) (d : Option Dir) (p : String × String) :
    Option (List ((Nat × Nat) × (Nat × Nat))) :=
  if usesEdge d then do
    let i0 ← indexOf insts p.1
    let i1 ← indexOf insts p.2
    some (edgesOf d i0 i1)
  else some []

/-- The edges of both graphs for one (expanded) constraint (61-80). -/
def consEdges (insts : List String) : Cons → Option (List ((Nat × Nat) × (Nat × Nat)))
  | .order is d _ => do
    let es ← (pairwise is).mapM (pairEdges insts d)
    some es.flatten
  | _ => some []

/-- The edges of both graphs (55-80). -/
def graphEdges (insts : List String) (cs : List Cons) :
    Option (List ((Nat × Nat) × (Nat × Nat))) := do
  let expanded ← expand cs
  let es ← expanded.mapM (consEdges insts)
  some es.flatten

/-- The inner loop over `neg` (86-90), from the pairs found so far and the counter. -/
def innerLoop (maxSeq : Int) (pos : List Nat) :
    List (List Nat) → List (List Nat × List Nat) → Int → List (List Nat × List Nat) × Int
  | [], acc, count => (acc, count)
  | neg :: negs, acc, count =>
    let acc := acc ++ [(pos, neg)]
    let count := count + 1
    if maxSeq < count then (acc, count) else innerLoop maxSeq pos negs acc count

/-- The outer loop over `pos` (85-92). -/
def outerLoop (maxSeq : Int) (negs : List (List Nat)) :
    List (List Nat) → List (List Nat × List Nat) → Int → List (List Nat × List Nat)
  | [], acc, _ => acc
  | pos :: poss, acc, count =>
    let (acc, count) := innerLoop maxSeq pos negs acc count
    if maxSeq < count then acc else outerLoop maxSeq negs poss acc count

/-- `enumerate_sequence_pairs` (52-94).  The argument `sorts` stands for
`networkx.all_topological_sorts` of the graph with the given edges on the nodes `0, ..., n - 1`;
this library function raises an exception for a graph with a cycle. -/
def enumerateSequencePairs (sorts : List (Nat × Nat) → Nat → List (List Nat)) (cs : List Cons)
    (insts : List String) (maxSeq : Int) : Option (List (List Nat × List Nat)) := do
  let es ← graphEdges insts cs
  let poss := sorts (es.map Prod.fst) insts.length
  let negs := sorts (es.map Prod.snd) insts.length
  if poss = [] ∨ negs = [] then none
  else some (outerLoop maxSeq negs poss [] 1)

/-- One implementation of the enumeration of all topological sorts of the nodes (fuel = number of
nodes): all possible next nodes are those without a predecessor left. -/
def topoSortsAux (edges : List (Nat × Nat)) : Nat → List Nat → List (List Nat)
  | 0, _ => [[]]
  | fuel + 1, nodes =>
    (nodes.filter fun v => nodes.all fun u => !edges.contains (u, v)).flatMap fun v =>
      (topoSortsAux edges fuel (nodes.erase v)).map (v :: ·)

/-- See `topoSortsAux`. -/
def topoSorts (edges : List (Nat × Nat)) (n : Nat) : List (List Nat) :=
  topoSortsAux edges n (List.range n)

/-! ## Block variants -/

/-- Merging one `SameTemplate` constraint into the groups (106-114): it is joined to the first
group with a common instance. -/
def addGroup (s : List String) : List (List String) → List (List String)
  | [] => [s]
  | g :: gs => if s.any (fun x => g.contains x) then (g ++ s) :: gs else g :: addGroup s gs

/-- The instances of the `SameTemplate` constraints (102-104). -/
def sameTemplates : List Cons → List (List String)
  | [] => []
  | .sameTemplate is :: cs => is :: sameTemplates cs
  | _ :: cs => sameTemplates cs

/-- The groups (99-119).  Sets are lists. -/
def groups (cs : List Cons) (insts : List String) : Option (List (List String)) := do
  let expanded ← expand cs
  let sets := sameTemplates expanded
  let gs := sets.foldl (fun gs s => addGroup s gs) []
  some (gs ++ (insts.filter fun i => !(sets.any fun s => s.contains i)).map fun i => [i])

/-- `itertools.product`. -/
def product {α : Type} : List (List α) → List (List α)
  | [] => [[]]
  | l :: ls => l.flatMap fun a => (product ls).map (a :: ·)

/-- Assigning the variant of each group to its instances, later groups overwriting earlier ones
(131-134). -/
def assign (insts : List String) : List (List String × Nat) → List Nat → Option (List Nat)
  | [], sel => some sel
  | (g, v) :: rest, sel => do
    let idx ← g.mapM (indexOf insts)
    assign insts rest (idx.foldl (fun sel i => sel.set i v) sel)

/-- The loop over the product (127-137), with the test for the limit as it is written: the counter
never changes. -/
def variantLoop (maxVariants : Int) (insts : List String) (gs : List (List String)) :
    List (List Nat) → Option (List (List Nat))
  | [] => some []
  | v :: vs => do
    let sel ← assign insts (gs.zip v) (List.replicate insts.length 0)
    if maxVariants < 1 then some [sel]
    else do
      let rest ← variantLoop maxVariants insts gs vs
      some (sel :: rest)

/-- `enumerate_block_variants` (97-138).  The argument `pick` is the element of a set that comes
first in the iteration, `counts` is `variant_counts`. -/
def enumerateBlockVariants (pick : List String → Option String) (cs : List Cons)
    (insts : List String) (counts : List (String × Nat)) (maxVariants : Int) :
    Option (List (List Nat)) := do
  let gs ← groups cs insts
  let ns ← gs.mapM fun g => do
    let i ← pick g
    counts.lookup i
  variantLoop maxVariants insts gs (product (ns.map List.range))

/-! ## The placement inequalities -/

/-- The values of the variables of the linear program. -/
structure Sol where
  /-- `W`, `H` (147-148) -/
  w : ℚ
  h : ℚ
  /-- `{name}_llx`, `{name}_lly`, `{name}_urx`, `{name}_ury` (155-156) -/
  box : String → Box ℚ
  /-- `{name}_fx`, `{name}_fy` (157-158) -/
  flip : String → Axis → ℚ
  /-- the anonymous variable of an offset of the `k`-th grid constraint of an instance (186) -/
  off : String → Nat → Int → ℚ
  /-- `{name}_grid_{axis}` of the `k`-th grid constraint (194) -/
  grid : String → Nat → ℚ
  /-- `symm{cnt}`, here numbered by the position of the constraint (258) -/
  symm : Nat → ℚ
  /-- the anonymous variable of a pair of a `Spread` (276), numbered by the position of the
  constraint and of the pair -/
  spread : Nat → Nat → ℚ

/-- An (in)equality with both sides evaluated, or an integrality condition. -/
inductive Con
  | le (a b : ℚ)
  | eq (a b : ℚ)
  /-- `var_type=mip.BINARY` -/
  | bin (a : ℚ)
  /-- `var_type=mip.INTEGER` -/
  | int (a : ℚ)

/-- The (in)equality holds. -/
def Con.Holds : Con → Prop
  | .le a b => a ≤ b
  | .eq a b => a = b
  | .bin a => a = 0 ∨ a = 1
  | .int a => ∃ n : Int, a = n

/-- `upper_bound` (146). -/
def upperBound : ℚ := 1000000000

/-- `lb=0, ub=upper_bound`. -/
def bounds (a : ℚ) : List Con := [.le 0 a, .le a upperBound]

/-- `'y' if constraint['direction'] == 'H' else 'x'` (172). -/
def gridAxis : Verif.GridCons.Axis → Axis
  | .H => .y
  | .V => .x

/-- The distinct offsets of the terms, keys of `offset_scalings` (176-183). -/
def offsetsOf (ts : List Term) : List Int := (ts.flatMap Term.offsets).eraseDups

/-- `offset_scalings[offset]` (183). -/
def scalingsOf (ts : List Term) (o : Int) : List Int :=
  (ts.filter fun t => t.offsets.contains o).flatMap Term.scalings

/-- `assert set(scalings) in [{1}, {-1}, {-1, 1}]` (181). -/
def scalingsOk (t : Term) : Bool :=
  t.scalings ≠ [] && t.scalings.all fun s => decide (s = 1) || decide (s = -1)

/-- The inequalities of the `k`-th grid constraint of an instance (172-196). -/
def emitGrid (σ : Sol) (name : String) (size : Axis → Int) (k : Nat) (p : Pog) :
    Option (List Con) :=
  let axis := gridAxis p.direction
  let flip := σ.flip name axis
  if p.terms.all scalingsOk then
    let offs := offsetsOf p.terms
    some (offs.flatMap (fun o =>
        let v := σ.off name k o
        let s := scalingsOf p.terms o
        [Con.bin v] ++ (if s.all (fun x => decide (x = 1)) then [Con.le (v + flip) 1]
          else if s.all (fun x => decide (x = -1)) then [Con.le v flip] else [])) ++
      [Con.eq (offs.map (fun o => σ.off name k o)).sum 1,
       Con.int (σ.grid name k), Con.le 0 (σ.grid name k),
       Con.eq (σ.grid name k * p.pitch + (offs.map (fun (o : Int) => (o : ℚ) * σ.off name k o)).sum -
         size axis * flip) ((σ.box name).ll axis)])
  else none

/-- The inequalities of one instance (150-196); `pogs` are its grid constraints, none if it has no
entry in `place_on_grid`. -/
def emitInst (σ : Sol) (name : String) (size : Axis → Int) (pogs : List Pog) :
    Option (List Con) := do
  if 2 < pogs.length then none
  else
    let b := σ.box name
    let gs ← pogs.zipIdx.mapM fun pk => emitGrid σ name size pk.2 pk.1
    some (bounds b.llx ++ bounds b.lly ++ bounds b.urx ++ bounds b.ury ++
      [.bin (σ.flip name .x), .bin (σ.flip name .y),
       .eq (b.urx - b.llx) (size .x), .eq (b.ury - b.lly) (size .y),
       .le b.urx σ.w, .le b.ury σ.h] ++ gs.flatten)

/-- `{reverse_map[index]: i for i, index in enumerate(seq)}` (200-201): the position of the
instance with this index in the sequence, the last one if there are several. -/
def posOf (seq : List Nat) (i : Nat) : Option Nat := seq.zipIdx.reverse.lookup i

/-- The inequality of one pair of instances (202-215). -/
def emitPair (σ : Sol) (sp : List Nat × List Nat) (p : (String × Nat) × (String × Nat)) :
    Option (List Con) := do
  let p0 ← posOf sp.1 p.1.2
  let p1 ← posOf sp.1 p.2.2
  let n0 ← posOf sp.2 p.1.2
  let n1 ← posOf sp.2 p.2.2
  let b0 := σ.box p.1.1
  let b1 := σ.box p.2.1
  if p0 < p1 ∧ n0 < n1 then some [.le b0.urx b1.llx]
  else if p1 < p0 ∧ n1 < n0 then some [.le b1.urx b0.llx]
  else if p0 < p1 ∧ n1 < n0 then some [.le b1.ury b0.lly]
  else if p1 < p0 ∧ n0 < n1 then some [.le b0.ury b1.lly]
  else none

/-- `if max_width := getattr(constraint, 'max_width', False)` (223-226). -/
def emitMax (v : ℚ) : Option ℚ → List Con
  | some m => if m = 0 then [] else [.le v m]
  | none => []

/-- The supported lines of `Align` (247-249). -/
def alignSide (b : Box ℚ) : Line → Option ℚ
  | .hBottom => some b.lly
  | .hTop => some b.ury
  | .vLeft => some b.llx
  | .vRight => some b.urx
  | _ => none

/-- The inequalities of a pair of `SymmetricBlocks` (260-268); `line` is the symmetry line. -/
def emitSymmPair (σ : Sol) (axis : Axis) (line : ℚ) : List String → Option (List Con)
  | [] => none
  | [a] => some [.eq ((σ.box a).ll axis + (σ.box a).ur axis) (2 * line)]
  | a :: b :: _ => some
    [.eq ((σ.box a).ll axis + (σ.box a).ur axis + (σ.box b).ll axis + (σ.box b).ur axis) (4 * line),
     .eq ((σ.box a).ll axis.orth) ((σ.box b).ll axis.orth)]

/-- The inequalities of a pair of a `Spread` (275-278). -/
def emitSpread (σ : Sol) (axis : Axis) (distance v : ℚ) (p : String × String) : List Con :=
  [.bin v,
   .le (distance - (σ.box p.2).ll axis + (σ.box p.1).ur axis - upperBound * v) 0,
   .le (distance - (σ.box p.1).ll axis + (σ.box p.2).ur axis - upperBound * (1 - v)) 0]

/-- The inequalities of the `k`-th (expanded) constraint (220-278). -/
def emitCons (σ : Sol) (scale : ℚ) (k : Nat) : Cons → Option (List Con)
  | .boundary mw mh _ _ => some (emitMax σ.w mw ++ emitMax σ.h mh)
  | .placeOnBoundary n s e w ne nw se sw =>
    some ((n ++ nw ++ ne).map (fun i => Con.eq (σ.box i).ury σ.h) ++
      (s ++ sw ++ se).map (fun i => Con.eq (σ.box i).lly 0) ++
      (e ++ ne ++ se).map (fun i => Con.eq (σ.box i).urx σ.w) ++
      (w ++ nw ++ sw).map (fun i => Con.eq (σ.box i).llx 0))
  | .align is line => do
    let l ← line
    match is with
    | [] => none
    | i0 :: rest =>
      let c0 ← alignSide (σ.box i0) l
      rest.mapM fun i1 => do
        let c1 ← alignSide (σ.box i1) l
        some (Con.eq c0 c1)
  | .symmetricBlocks pairs axis => do
    let es ← pairs.mapM (emitSymmPair σ axis (σ.symm k))
    some (bounds (σ.symm k) ++ es.flatten)
  | .spread is axis d =>
    some ((combinations2 is).zipIdx.flatMap fun pj =>
      emitSpread σ axis (d * scale) (σ.spread k pj.2) pj.1)
  | _ => some []

/-- All the inequalities of `place_sequence_pair` (141-278) for the variable values `σ`.  An index
of the sequence pair without instance is a `KeyError` (200-201). -/
def emit (σ : Sol) (cs : List Cons) (insts : List String) (sizes : String → Axis → Int)
    (sp : List Nat × List Nat) (pogs : String → List Pog) (scale : ℚ) : Option (List Con) := do
  let own ← insts.mapM fun i => emitInst σ i (sizes i) (pogs i)
  if (sp.1 ++ sp.2).any (fun i => insts.length ≤ i) then none
  let rel ← (combinations2 insts.zipIdx).mapM (emitPair σ sp)
  let expanded ← expand cs
  let user ← expanded.zipIdx.mapM fun ck => emitCons σ scale ck.2 ck.1
  some (bounds σ.w ++ bounds σ.h ++ own.flatten ++ rel.flatten ++ user.flatten)

/-- Python `round`: to the nearest integer, halves to the even one. -/
def pyRound (q : ℚ) : Int :=
  let f := q.floor
  if q - f < 1 / 2 then f
  else if 1 / 2 < q - f then f + 1
  else if f % 2 = 0 then f else f + 1

/-- The transformation extracted for an instance (333-339). -/
def extract (σ : Sol) (sizes : String → Axis → Int) (name : String) : Transformation :=
  let fx := σ.flip name .x
  let fy := σ.flip name .y
  let ox := (σ.box name).llx + fx * sizes name .x
  let oy := (σ.box name).lly + fy * sizes name .y
  { oX := pyRound ox, oY := pyRound oy,
    sX := if fx = 0 then 1 else -1, sY := if fy = 0 then 1 else -1 }

/-- The reported size (341-342). -/
def extractSize (σ : Sol) : Int × Int := (pyRound σ.w, pyRound σ.h)

end Verif.SeqPair

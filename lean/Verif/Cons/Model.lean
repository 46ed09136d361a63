import Mathlib.Data.Rat.Defs
import Mathlib.Data.Rat.Floor

/-!
# Placement constraints and the formulas given to the solver

Models the placement constraints of `align/schema/constraint.py`, the formulas their `translate`
methods yield, `expand_user_constraints`, and `translate` of a sub-circuit
(`align/schema/subcircuit.py:78-101`, `align/schema/hacks.py:76-99`).

Conventions.
* The solver variables `{name}_llx`, ... are integers (`align/schema/checker.py:196-203` and
  `239-247`, `z3.Ints`), so an assignment of the variables is a function from names to integer
  boxes.  A formula is modelled by its truth value under a given assignment; a formula list is
  satisfied when all its entries are `true`.  `solver.Or`/`And`/`Implies` are the Boolean
  connectives and `solver.Abs` is the absolute value (checker.py:212-230).
* Division of solver integers is the integer division of the solver, which for the divisor 2 rounds
  down (Lean's `/` on `Int`).
* Floating point attributes are rationals.
* Names are taken after upper-casing by `validate_instances` (constraint.py:35-41).
* A raised exception is `none`.
-/

namespace Verif.Cons

/-- A bounding box (`Bbox` tuple, checker.py:196-203). -/
structure Box (α : Type) where
  llx : α
  lly : α
  urx : α
  ury : α
deriving DecidableEq, Repr

/-- The same box with rational coordinates. -/
def Box.toQ (b : Box Int) : Box ℚ := ⟨b.llx, b.lly, b.urx, b.ury⟩

/-- `direction` of `Order` (constraint.py:158-162). -/
inductive Dir
  | horizontal | vertical | leftToRight | rightToLeft | bottomToTop | topToBottom
deriving DecidableEq, Repr

/-- `line` of `Align` (constraint.py:247-250). -/
inductive Line
  | hAny | hTop | hBottom | hCenter | vAny | vLeft | vRight | vCenter
deriving DecidableEq, Repr

/-- `line` of `AlignInOrder` (constraint.py:503-507). -/
inductive OLine
  | top | bottom | left | right | center
deriving DecidableEq, Repr

/-- A coordinate axis. -/
inductive Axis
  | x | y
deriving DecidableEq, Repr

/-- The other axis. -/
def Axis.orth : Axis → Axis
  | .x => .y
  | .y => .x

/-- `getattr(b, f'll{c}')`. -/
def Box.ll {α : Type} (b : Box α) : Axis → α
  | .x => b.llx
  | .y => b.lly

/-- `getattr(b, f'ur{c}')`. -/
def Box.ur {α : Type} (b : Box α) : Axis → α
  | .x => b.urx
  | .y => b.ury

/-- The constraints of `align/schema/constraint.py` which speak about the positions of blocks, and
`SameTemplate`.  All others (nets, ports, guard rings, ...) are `other`; what they yield when
expanded (`DoNotIdentify` at most) is not modelled.
`placeOnBoundary` has its eight attributes in the order of constraint.py:739-746, an absent
attribute being an empty list (a corner attribute is a list of at most one name). -/
inductive Cons
  /-- constraint.py:123-205 -/
  | order (instances : List String) (direction : Option Dir) (abut : Bool)
  /-- constraint.py:208-294 -/
  | align (instances : List String) (line : Option Line)
  /-- constraint.py:297-355; `axis` is `x` for `'horizontal'` -/
  | spread (instances : List String) (axis : Axis) (distance : Int)
  /-- constraint.py:383-412 -/
  | aspectRatio (low high : ℚ)
  /-- constraint.py:415-457, lengths in micrometres -/
  | boundary (maxWidth maxHeight : Option ℚ) (haloH haloV : ℚ)
  /-- constraint.py:466-544 after validation, i.e. with the direction filled in -/
  | alignInOrder (instances : List String) (line : OLine) (axis : Axis) (abut : Bool)
  /-- constraint.py:547-614 -/
  | floorplan (regions : List (List String)) (order symmetrize : Bool)
  /-- constraint.py:943-1040; `axis` is `x` for a vertical symmetry line (`'V'`) -/
  | symmetricBlocks (pairs : List (List String)) (axis : Axis)
  /-- constraint.py:684-721 -/
  | sameTemplate (instances : List String)
  /-- constraint.py:735-767 -/
  | placeOnBoundary (north south east west northeast northwest southeast southwest : List String)
  /-- constraint.py:928-940 -/
  | doNotIdentify (instances : List String)
  /-- anything else -/
  | other
deriving DecidableEq, Repr

/-- `itertools.pairwise`: consecutive elements. -/
def pairwise {α : Type} (l : List α) : List (α × α) := l.zip l.tail

/-- `itertools.combinations(l, 2)`: all pairs of elements at different positions, in order. -/
def combinations2 {α : Type} : List α → List (α × α)
  | [] => []
  | a :: l => l.map (fun b => (a, b)) ++ combinations2 l

/-- `cc` in `Order.translate` (constraint.py:173-177). -/
def orderCc (abut : Bool) (b1 b2 : Box Int) (c : Axis) : Bool :=
  if abut then b1.ur c == b2.ll c else decide (b1.ur c ≤ b2.ll c)

/-- One formula of `Order.translate` (constraint.py:180-202). -/
def orderFormula (direction : Option Dir) (abut : Bool) (b1 b2 : Box Int) : Bool :=
  match direction with
  | some .leftToRight => orderCc abut b1 b2 .x
  | some .rightToLeft => orderCc abut b2 b1 .x
  | some .bottomToTop => orderCc abut b1 b2 .y
  | some .topToBottom => orderCc abut b2 b1 .y
  | some .horizontal => orderCc abut b1 b2 .x || orderCc abut b2 b1 .x
  | some .vertical => orderCc abut b1 b2 .y || orderCc abut b2 b1 .y
  | none => orderCc abut b1 b2 .x || orderCc abut b2 b1 .x || orderCc abut b1 b2 .y ||
      orderCc abut b2 b1 .y

/-- `And(b1.ll >= b2.ll, b1.ur <= b2.ur)` of `Align.translate` (constraint.py:271 etc.). -/
def within (b1 b2 : Box Int) (c : Axis) : Bool :=
  decide (b2.ll c ≤ b1.ll c) && decide (b1.ur c ≤ b2.ur c)

/-- One formula of `Align.translate` (constraint.py:262-291).  The division is the one of solver
integers. -/
def alignFormula (line : Option Line) (b1 b2 : Box Int) : Bool :=
  match line with
  | some .hTop => b1.ury == b2.ury
  | some .hBottom => b1.lly == b2.lly
  | some .hCenter => (b1.lly + b1.ury) / 2 == (b2.lly + b2.ury) / 2
  | some .hAny => within b1 b2 .y || within b2 b1 .y
  | some .vLeft => b1.llx == b2.llx
  | some .vRight => b1.urx == b2.urx
  | some .vCenter => (b1.llx + b1.urx) / 2 == (b2.llx + b2.urx) / 2
  | some .vAny => within b1 b2 .x || within b2 b1 .x
  | none => within b1 b2 .x || within b2 b1 .x || within b1 b2 .y || within b2 b1 .y

/-- `solver.Abs` (checker.py:224-226). -/
def absZ (e : Int) : Int := if 0 ≤ e then e else e * (-1)

/-- One formula of `Spread.translate` (constraint.py:332-343). -/
def spreadFormula (axis : Axis) (distance : Int) (b1 b2 : Box Int) : Bool :=
  !(decide (b2.ll axis.orth < b1.ur axis.orth) && decide (b1.ll axis.orth < b2.ur axis.orth)) ||
    (decide (distance ≤ absZ (b1.ll axis - b2.ur axis)) &&
      decide (distance ≤ absZ (b2.ll axis - b1.ur axis)))

/-- `construct_expression` in `SymmetricBlocks.translate` (constraint.py:1003-1010): the four times
center line of one or two boxes. -/
def centerExpr (c : Axis) : List (Box Int) → Option Int
  | [b1] => some (b1.ll c + b1.ur c + (b1.ll c + b1.ur c))
  | [b1, b2] => some (b1.ll c + b1.ur c + (b2.ll c + b2.ur c))
  | _ => none

/-- The formula about the center lines of one pair in the direction along the symmetry line
(constraint.py:1013-1027). -/
def pairFormula (c : Axis) (b0 b1 : Box Int) : Bool :=
  let q0 := 2 * (b0.ll c + b0.ur c)
  let q1 := 2 * (b1.ll c + b1.ur c)
  decide (absZ (q0 - q1) ≤ b0.ur c - b0.ll c) && decide (absZ (q0 - q1) ≤ b1.ur c - b1.ll c)

/-- The formulas of one pair: those of constraint.py:1013-1027 if there are two instances. -/
def pairFormulas (β : String → Box Int) (axis : Axis) : List String → List Bool
  | [a, b] => [pairFormula axis.orth (β a) (β b)]
  | _ => []

/-- `SymmetricBlocks.translate` for the pairs after the first, with the reference of the first
(constraint.py:1012-1035). -/
def symmRest (β : String → Box Int) (axis : Axis) (reference : Int) :
    List (List String) → Option (List Bool)
  | [] => some []
  | p :: ps => do
    let centerline ← centerExpr axis (p.map β)
    let rest ← symmRest β axis reference ps
    some (pairFormulas β axis p ++ [reference == centerline] ++ rest)

/-- `SymmetricBlocks.translate` (constraint.py:1001-1035). -/
def symmTranslate (β : String → Box Int) (axis : Axis) : List (List String) → Option (List Bool)
  | [] => some []
  | p :: ps => do
    let reference ← centerExpr axis (p.map β)
    let rest ← symmRest β axis reference ps
    some (pairFormulas β axis p ++ rest)

/-- Python `int` of a non-negative float: round down. -/
def pyInt (q : ℚ) : Int := if 0 ≤ q then q.floor else -(-q).floor

/-- `Boundary.translate` (constraint.py:446-457); `instances` are all the instances of the
sub-circuit and `bbox` its box. -/
def boundaryTranslate (instances : List String) (β : String → Box Int) (bbox : Box Int)
    (maxWidth maxHeight : Option ℚ) (haloH haloV : ℚ) : Option (List Bool) := do
  let w ← maxWidth
  let h ← maxHeight
  some ([decide (((bbox.urx - bbox.llx : Int) : ℚ) ≤ 1000 * w),
      decide (((bbox.ury - bbox.lly : Int) : ℚ) ≤ 1000 * h)] ++
    instances.flatMap (fun i =>
      [decide (bbox.llx + pyInt (1000 * haloH) ≤ (β i).llx),
       decide ((β i).urx ≤ bbox.urx - pyInt (1000 * haloH)),
       decide (bbox.lly + pyInt (1000 * haloV) ≤ (β i).lly),
       decide ((β i).ury ≤ bbox.ury - pyInt (1000 * haloV))]))

/-- `line=f'{self.direction[0]}_{self.line}'` (constraint.py:537): `none` if this is no line of
`Align` (excluded by the validator of constraint.py:512-531). -/
def alignLine : Axis → OLine → Option Line
  | .x, .top => some .hTop
  | .x, .bottom => some .hBottom
  | .x, .center => some .hCenter
  | .y, .left => some .vLeft
  | .y, .right => some .vRight
  | .y, .center => some .vCenter
  | _, _ => none

/-- `'left_to_right' if self.direction == 'horizontal' else 'top_to_bottom'` (constraint.py:541). -/
def orderDir : Axis → Dir
  | .x => .leftToRight
  | .y => .topToBottom

/-- The pairs of one region made by `Floorplan` (constraint.py:599-606). -/
def regionPairs (region : List String) : List (List String) :=
  if region.length ≤ 2 then [region]
  else
    let half := region.length / 2
    (List.range half).map (fun i => [region.getD i "", region.getD (region.length - 1 - i) ""]) ++
      (if region.length % 2 = 1 then [[region.getD half ""]] else [])

/-- `yield_constraints` (constraint.py:204-205, 293-294, 354-355, 533-544, 575-614, 1037-1040,
765-767).  `Floorplan` asserts that no instance is placed both above and below another one
(584-586); the test is made while the pairs are generated, over the pairs so far. -/
def aboveBelow : List (List String) → List (String × String)
  | r1 :: r2 :: rs => (r1.flatMap (fun a => r2.map (fun b => (a, b)))) ++ aboveBelow (r2 :: rs)
  | _ => []

/-- The assertion of constraint.py:584-586 over the generated pairs: with each new pair, its
reverse is not yet (nor is it the pair itself) among the pairs. -/
def noReverse : List (String × String) → List (String × String) → Bool
  | _, [] => true
  | seen, (a, b) :: l => !((a, b) :: seen).contains (b, a) && noReverse ((a, b) :: seen) l

/-- `yield_constraints` of the constraint, `[]` for those without (see `aboveBelow`). -/
def yieldConstraints : Cons → Option (List Cons)
  | .order instances _ _ => some [.doNotIdentify instances]
  | .align instances _ => some [.doNotIdentify instances]
  | .spread instances _ _ => some [.doNotIdentify instances]
  | .symmetricBlocks pairs _ => some [.doNotIdentify pairs.flatten]
  | .placeOnBoundary n s e w ne nw se sw =>
    some [.doNotIdentify (n ++ s ++ e ++ w ++ ne ++ nw ++ se ++ sw)]
  | .alignInOrder instances line axis abut => do
    let l ← alignLine axis line
    some [.align instances (some l),
      .order instances (some (orderDir axis)) abut,
      .doNotIdentify instances]
  | .floorplan regions order symmetrize =>
    let ab := aboveBelow regions
    if noReverse [] ab then
      some (ab.map (fun p => .order [p.1, p.2] (some .topToBottom) false) ++
        (if order then
          (regions.filter (fun r => 1 < r.length)).map
            (fun r => .order r (some .leftToRight) false) else []) ++
        (if symmetrize then [.symmetricBlocks (regions.flatMap regionPairs) .x] else []) ++
        (if symmetrize && order then [.doNotIdentify regions.flatten] else []))
    else none
  | _ => some []

/-- `isinstance(const, UserConstraint)` (constraint.py:466, 547). -/
def isUser : Cons → Bool
  | .alignInOrder .. => true
  | .floorplan .. => true
  | _ => false

/-- `expand_user_constraints` (constraint.py:1562-1569). -/
def expand : List Cons → Option (List Cons)
  | [] => some []
  | c :: cs => do
    let ys ← yieldConstraints c
    let rest ← expand cs
    some (ys ++ (if isUser c then [] else [c]) ++ rest)

/-- `translate` of the constraints which are not user constraints; `some []` for those which have
no `translate` (soft constraints). -/
def translateHard (instances : List String) (β : String → Box Int) (bbox : Box Int) :
    Cons → Option (List Bool)
  | .order is d abut =>
    some ((pairwise (is.map β)).map (fun p => orderFormula d abut p.1 p.2))
  | .align is line => some ((pairwise (is.map β)).map (fun p => alignFormula line p.1 p.2))
  | .spread is axis d =>
    some ((combinations2 (is.map β)).map (fun p => spreadFormula axis d p.1 p.2))
  | .aspectRatio low high =>
    some [decide (low * ((bbox.ury - bbox.lly : Int) : ℚ) ≤ ((bbox.urx - bbox.llx : Int) : ℚ)),
      decide (((bbox.urx - bbox.llx : Int) : ℚ) < high * ((bbox.ury - bbox.lly : Int) : ℚ))]
  | .boundary w h hh hv => boundaryTranslate instances β bbox w h hh hv
  | .symmetricBlocks pairs axis => symmTranslate β axis pairs
  | _ => some []

/-- `translate` (constraint.py:117-120 for user constraints): all the formulas of the constraint
under the assignment `β` of the instances of the sub-circuit and the box `bbox` of the sub-circuit
itself. -/
def translate (instances : List String) (β : String → Box Int) (bbox : Box Int) (c : Cons) :
    Option (List Bool) :=
  if isUser c then do
    let ys ← yieldConstraints c
    let fs ← ys.mapM (translateHard instances β bbox)
    some fs.flatten
  else translateHard instances β bbox c

/-- A Python generator object which is iterated to its end: it yields its items and is empty
afterwards.  `solver.iter_bbox_vars` is such a generator (checker.py:90-98 uses `yield`). -/
def drain {α : Type} (g : List α) : List α × List α := (g, [])

/-- `SubCircuit.translate` (subcircuit.py:78-101) without the constraints of its last line; the
same text is in `VerilogJsonModule.translate` (hacks.py:76-99), and `Instance.translate`
(instance.py:25-32, hacks.py:51-58) is the size formula.  The variable `bvars` is a generator that
the first loop iterates over to its end, before the second one uses it. -/
def elementFormulas (names : List String) (β : String → Box Int) (bb : Box Int) : List Bool :=
  let size (b : Box Int) : List Bool := [decide (b.llx < b.urx), decide (b.lly < b.ury)]
  let bvars := names.map β
  let first := drain bvars
  let second := drain first.2
  size bb ++ (names.map β).flatMap size ++
    first.1.flatMap (fun b => [decide (bb.llx ≤ b.llx), decide (bb.lly ≤ b.lly),
      decide (b.urx ≤ bb.urx), decide (b.ury ≤ bb.ury)]) ++
    (combinations2 second.1).map (fun p => decide (p.1.urx ≤ p.2.llx) ||
      decide (p.2.urx ≤ p.1.llx) || decide (p.1.ury ≤ p.2.lly) || decide (p.2.ury ≤ p.1.lly))

/-- `SubCircuit.translate` (subcircuit.py:78-101) with the constraints. -/
def subcktFormulas (names : List String) (cs : List Cons) (β : String → Box Int) (bb : Box Int) :
    Option (List Bool) := do
  let fs ← cs.mapM (translate names β bb)
  some (elementFormulas names β bb ++ fs.flatten)

end Verif.Cons

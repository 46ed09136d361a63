import Mathlib.Data.Rat.Defs
import Mathlib.Algebra.Order.Ring.Rat
import Mathlib.Algebra.Order.Field.Rat
import Mathlib.Data.List.Nodup
import Mathlib.Data.List.Perm.Subperm
import Mathlib.Data.List.Range

/-!
# C112: the path search of the detailed router

Model of `A_star::A_star_algorithm_Sym` (`PlaceRouteHierFlow/router/A_star.cpp` 1248-1380) and all it calls, for the single wire
(`left_up = right_down = 0`) which the router of signals asks for (`GcellDetailRouter.cpp` 459 and 1380).

Simplifications. A node is a natural number; -1 is `none`. Floating point numbers are rationals. Each layer is horizontal or vertical.
With `left = right = 0` the functions `find_nodes_*` return no node whatever the grid is, so that `find_succsive_parallel_node`
(695-799) gives the node itself and cost 0. What is undefined in C++ (an index out of range) or would never return is a fault.
Logging is left out.
-/

namespace Verif.AStar

/-- `RouterDB::vertex` (`Rdatatype.h` 90-114), the part which the search only reads. -/
structure Vertex where
  x : Int
  y : Int
  metal : Nat
  active : Bool
  viaUp : Bool
  viaDown : Bool
  north : List Nat
  south : List Nat
  east : List Nat
  west : List Nat
  up : Option Nat
  down : Option Nat

/-- `Grid` (`Grid.h`): `vertices_total` with its size, and the centre. -/
structure Grid where
  size : Nat
  vert : Nat → Vertex
  centerX : Int
  centerY : Int

/-- What is read of `PnRDB::Drc_info`: direction, shortest wire and resistance per layer, and size, spacing and resistance of vias
(`viaR m` is that of the via above the layer `m`). -/
structure Rules where
  horizontal : Nat → Bool
  minL : Nat → Int
  viaWidth : Nat → Int
  viaHeight : Nat → Int
  viaGapX : Nat → Int
  viaGapY : Nat → Int
  unitR : Nat → Rat
  viaR : Nat → Rat

/-- `RouterDB::Metal`: layer and the two ends. -/
structure Wire where
  metal : Nat
  x0 : Int
  y0 : Int
  x1 : Int
  y1 : Int
deriving DecidableEq

/-- A write to a table indexed by nodes. -/
def put {α : Type} (f : Nat → α) (i : Nat) (a : α) : Nat → α := fun j => if j = i then a else f j

/-- The test of a computed index against `vertices_total.size()` (for example lines 924-927). -/
def inRange (g : Grid) (i : Int) : Option Nat := if i < 0 ∨ (g.size : Int) ≤ i then none else some i.toNat

/-- `found_near_node` with `expand_node` and `expand_node_ud` (170-263). -/
def near (g : Grid) (c : Nat) : List Nat :=
  let v := g.vert c
  (v.north ++ v.south ++ v.west ++ v.east).filter (fun n => (g.vert n).active)
    ++ (if v.viaUp then v.up.toList.filter (fun n => (g.vert n).active) else [])
    ++ (if v.viaDown then v.down.toList.filter (fun n => (g.vert n).active) else [])

/-- `find_next_node` (972-1006), with the check of the caller that the result is a node (907-914). -/
def findNext (g : Grid) (r : Rules) (c : Nat) (x y layer dummy : Int) : Option Nat :=
  let v := g.vert c
  if r.horizontal v.metal ∧ x ≠ 0 then inRange g (c + x)
  else if ¬ r.horizontal v.metal ∧ y ≠ 0 then inRange g (c + y)
  else if layer ≠ 0 then (if 0 < layer then v.up else v.down)
  else (if 0 < dummy then v.up else v.down)

/-- One of the two loops of `L_shape_Connection_Check` (868-917 and 923-959). The list is `node_set_up` from its end; a loop that
comes to a node again gives up, so that more than `size` rounds are never made. -/
def walk (g : Grid) (r : Rules) (goal : Nat) (dummy : Int) : Nat → List Nat → Option (List Nat)
  | 0, _ => none
  | _ + 1, [] => none
  | f + 1, c :: seen =>
    if c = goal then some (c :: seen).reverse
    else if c ∈ seen then none
    else
      let v := g.vert c
      let e := g.vert goal
      match findNext g r c (e.x - v.x).sign (e.y - v.y).sign ((e.metal : Int) - v.metal).sign dummy with
      | none => none
      | some n => walk g r goal dummy f (n :: c :: seen)

/-- The loop of `Check_activa_via_active` (1042-1061). -/
def checkFrom (g : Grid) : Nat → List Nat → Bool
  | _, [] => true
  | p, n :: l =>
    (g.vert n).active
      && (if (g.vert n).metal < (g.vert p).metal then (g.vert n).viaUp && (g.vert p).active && (g.vert p).viaDown else true)
      && (if (g.vert p).metal < (g.vert n).metal then (g.vert n).viaDown && (g.vert p).active && (g.vert p).viaUp else true)
      && checkFrom g n l

/-- `Check_activa_via_active` (1037-1064). -/
def checkActive (g : Grid) : List Nat → Bool
  | [] => false
  | p :: l => (g.vert p).active && checkFrom g p l

/-- `L_shape_Connection_Check` (862-970). -/
def lCheck (g : Grid) (r : Rules) (s e : Nat) : Option (List Nat) :=
  match walk g r e 1 (g.size + 2) [s], walk g r e (-1) (g.size + 2) [s] with
  | some u, some d => if checkActive g d then some d else if checkActive g u then some u else none
  | _, _ => none

/-- The distance of two nodes, as written at 1079-1080. -/
def dist (g : Grid) (a b : Nat) : Int := |(g.vert a).x - (g.vert b).x| + |(g.vert a).y - (g.vert b).y|

/-- One loop of `CheckExendable_With_Certain_Length*` (375-400): are there free nodes from `a` on up to the distance `need`? The index
moves by one in each round, so that more than `size` rounds are never made. -/
def reach (g : Grid) (a : Nat) (dir need : Int) : Nat → Int → Nat → Bool
  | 0, _, _ => false
  | f + 1, got, n =>
    if need ≤ got then true
    else match inRange g (n + dir) with
      | none => false
      | some m =>
        if ¬ (g.vert m).active then false
        else if ((g.vert m).x ≠ (g.vert a).x ∧ (g.vert m).y ≠ (g.vert a).y) ∨ (g.vert m).metal ≠ (g.vert a).metal then false
        else reach g a dir need f (dist g m a) m

/-- `first_direction` (366-373). -/
def headDir (first c : Nat) : Int := if first ≤ c then -1 else 1

/-- `CheckExendable_With_Certain_Length` (357-430): half of what is missing at each end. -/
def extBoth (g : Grid) (first c : Nat) (len need : Int) : Bool :=
  let half := -Int.fdiv (-(need - len)) 2
  reach g first (headDir first c) half (g.size + 2) 0 first && reach g c (-headDir first c) half (g.size + 2) 0 c

/-- `CheckExendable_With_Certain_Length_Head_Extend` (432-478). -/
def extHead (g : Grid) (first c : Nat) (len need : Int) : Bool := reach g first (headDir first c) (need - len) (g.size + 2) 0 first

/-- `CheckExendable_With_Certain_Length_Tail_Extend` (480-526). -/
def extTail (g : Grid) (first c : Nat) (len need : Int) : Bool := reach g c (-headDir first c) (need - len) (g.size + 2) 0 c

/-- `trace_back_node_parent` (265-309) and `trace_back_node` (311-355): the first node on the layer. A link back to the start is a loop
which never ends. -/
def traceSame (link : Nat → Option Nat) (g : Grid) (start : Nat) : Nat → Nat → Option Nat
  | 0, _ => none
  | f + 1, d =>
    match link d with
    | none => some d
    | some l =>
      if g.size ≤ l then some d
      else if l = start then none
      else if (g.vert l).metal = (g.vert d).metal then traceSame link g start f l
      else some d

/-- `via_space_length` (1085-1101): the room needed between two vias to the same layer. -/
def viaGap (g : Grid) (r : Rules) (link : Nat → Option Nat) (first c next : Nat) : Int :=
  match link first with
  | none => 0
  | some p =>
    if (g.vert p).metal = (g.vert next).metal then
      let m := (g.vert c).metal
      let i := if m < (g.vert next).metal then m else (g.vert next).metal
      if r.horizontal m then r.viaWidth i + r.viaGapX i else r.viaHeight i + r.viaGapY i
    else 0

/-- `Extention_check_prime` (1076-1115). -/
def extPrime (g : Grid) (r : Rules) (src : List Nat) (parent : Nat → Option Nat) (c next : Nat) : Option Bool :=
  match traceSame parent g c (g.size + 1) c with
  | none => none
  | some first =>
    if first ∈ src then some true
    else
      let len := dist g c first
      let need := r.minL (g.vert c).metal
      let gap := viaGap g r parent first c next
      if len < need ∧ gap ≤ len then some (extBoth g first c len need || extHead g first c len need || extTail g first c len need)
      else some (decide (gap ≤ len))

/-- `Extention_check` (1117-1173); the node before is a node, as it was written by `lable_father`. -/
def extCheck (g : Grid) (r : Rules) (src : List Nat) (back : Nat → Option Nat) (n : Nat) : Option Bool :=
  match back n with
  | none => some true
  | some p =>
    if (g.vert n).metal = (g.vert p).metal then some true
    else match traceSame back g p (g.size + 1) p with
      | none => none
      | some first =>
        if first ∈ src then some true
        else
          let len := dist g p first
          let need := r.minL (g.vert p).metal
          let gap := viaGap g r back first p n
          if len < need ∧ gap ≤ len then some (extBoth g first p len need || extHead g first p len need || extTail g first p len need)
          else some true

/-- `Extention_checks` (1066-1074). -/
def extChecks (g : Grid) (r : Rules) (src : List Nat) (back : Nat → Option Nat) : List Nat → Option Bool
  | [] => some true
  | n :: l =>
    match extCheck g r src back n with
    | none => none
    | some false => some false
    | some true => extChecks g r src back l

/-- `parallel_routing` (801-845) with `L_shape_Connection` (847-860): whether a connection was found, and `node_L_path`. -/
def parallel (g : Grid) (r : Rules) (src : List Nat) (parent : Nat → Option Nat) (c next : Nat) : Option (Bool × List (List Nat)) :=
  match (if (g.vert c).metal ≠ (g.vert next).metal then extPrime g r src parent c next else some true) with
  | none => none
  | some false => some (false, [])
  | some true =>
    match lCheck g r c next with
    | none => some (false, [[]])
    | some p => some (true, [p])

/-- `Manhattan_distan_dest` (119-126). -/
def farDest (g : Grid) (dests : List Nat) (v : Nat) : Int := dests.foldl (fun (m : Int) d => min m (dist g v d)) 2147483647

/-- `Manhattan_distan_dest_via` (128-135). -/
def viaDest (g : Grid) (dests : List Nat) (v : Nat) : Int :=
  dests.foldl (fun (m : Int) d => min m |((g.vert v).metal : Int) - (g.vert d).metal|) 2147483647

/-- `Find_Symmetry_cost` (1398-1430). -/
def symCost1 (g : Grid) (r : Rules) (v : Nat) (w : Wire) : Int :=
  let x := (g.vert v).x
  let y := (g.vert v).y
  if r.horizontal w.metal then
    |y - w.y0| + (if x ≤ max w.x0 w.x1 ∧ min w.x0 w.x1 ≤ x then 0 else min |x - min w.x0 w.x1| |x - max w.x0 w.x1|)
  else
    |x - w.x0| + (if y ≤ max w.y0 w.y1 ∧ min w.y0 w.y1 ≤ y then 0 else min |y - min w.y0 w.y1| |y - max w.y0 w.y1|)

/-- `Find_Symmetry_Cost` (1382-1396). -/
def symCost (g : Grid) (r : Rules) (sym : List Wire) (v : Nat) : Int :=
  if sym = [] then 0 else sym.foldl (fun (m : Int) w => min m (symCost1 g r v w)) 2147483647

/-- `RouterDB::pairCompDBL` (`Rdatatype.h` 521-529) . -/
def before (a b : Rat × Nat) : Bool := if a.1 = b.1 then decide (a.2 < b.2) else decide (a.1 < b.1)

/-- Insertion into the ordered set `L_list`; to erase an equal element first (1351-1354) changes nothing. -/
def insert (k : Rat × Nat) : List (Rat × Nat) → List (Rat × Nat)
  | [] => [k]
  | h :: t => if k = h then h :: t else if before k h then k :: h :: t else h :: insert k t

/-- What the search writes: `Cost`, `Cost2Source`, `parent` and `trace_back_node` of the nodes, `L_list` and `close_set`. -/
structure St where
  cost : Nat → Rat
  cost2 : Nat → Rat
  parent : Nat → Option Nat
  back : Nat → Option Nat
  queue : List (Rat × Nat)
  closed : List Nat

/-- The distance from the centre of the grid, which only breaks ties (163 and 1344). -/
def offCenter (g : Grid) (v : Nat) : Rat := (|(g.vert v).x - g.centerX| + |(g.vert v).y - g.centerY| : Int) / 10000000000

/-- One round of `initial_source` (157-167). -/
def addSource (g : Grid) (r : Rules) (dests : List Nat) (st : St) (s : Nat) : St :=
  { st with
    cost := put st.cost s 0
    cost2 := put st.cost2 s 0
    queue := insert (0 + (farDest g dests s : Rat) * r.unitR (g.vert s).metal + offCenter g s, s) st.queue }

/-- `cost_inc` (1332-1337): the resistance of the step. -/
def stepCost (g : Grid) (r : Rules) (c v : Nat) : Rat :=
  (|(g.vert c).x - (g.vert v).x| : Int) * r.unitR (g.vert c).metal + (|(g.vert c).y - (g.vert v).y| : Int) * r.unitR (g.vert c).metal
    + (if (g.vert v).metal ≠ (g.vert c).metal then r.viaR (min (g.vert v).metal (g.vert c).metal) else 0)

/-- What `temp_cost` (1338-1344) adds to the cost from the source: the way still to go. -/
def goCost (g : Grid) (r : Rules) (dests : List Nat) (c v : Nat) : Rat :=
  (farDest g dests v : Rat) * r.unitR (g.vert c).metal
    + r.viaR (min (g.vert v).metal (g.vert c).metal) * (viaDest g dests v : Rat) + offCenter g v

/-- One round of the loop over the candidates (1324-1366). -/
def relax (g : Grid) (r : Rules) (dests : List Nat) (sym : List Wire) (c : Nat) (st : St) (v : Nat) : St :=
  if st.cost2 c + stepCost g r c v + goCost g r dests c v < st.cost v then
    { st with
      cost := put st.cost v (st.cost2 c + stepCost g r c v + goCost g r dests c v)
      cost2 := put st.cost2 v (st.cost2 c + stepCost g r c v)
      parent := put st.parent v (some c)
      queue := insert (st.cost2 c + stepCost g r c v + goCost g r dests c v + (1 / 5 : Rat) * (symCost g r sym v : Rat), v) st.queue }
  else st

/-- `Trace_Back_Path_parent` (1782-1806) and `Trace_Back_Path_trace_back_node` (1808-1834). The list is the path found so far; -1 before
a source is reached is used as an index by the first and by the caller of the second. -/
def trace (link : Nat → Option Nat) (src : List Nat) : Nat → List Nat → Option (List Nat)
  | 0, _ => none
  | _ + 1, [] => none
  | f + 1, c :: acc =>
    if c ∈ src then some (c :: acc)
    else match link c with
      | none => none
      | some p => trace link src f (p :: c :: acc)

/-- The loop over the pairs in `Pre_trace_back` (1682-1691): all of `node_L_path[0]`. -/
def segments (g : Grid) (r : Rules) (src : List Nat) (parent : Nat → Option Nat) : List Nat → Option (List Nat)
  | a :: b :: l =>
    match parallel g r src parent a b with
    | some (_, seg :: _) =>
      match segments g r src parent (b :: l) with
      | some rest => some (seg ++ rest)
      | none => none
    | _ => none
  | _ => some []

/-- The loop of `compact_path` (1557-1561). -/
def compactFrom : Nat → List Nat → List Nat
  | _, [] => []
  | p, n :: l => if n ≠ p then n :: compactFrom n l else compactFrom n l

/-- `compact_path` (1545-1566). -/
def compact : List Nat → Option (List Nat)
  | [] => none
  | p :: l => some (p :: compactFrom p l)

/-- `rm_cycle_path` (1568-1611) after `compact_path`: the places after the first and up to the last of a node are cut out. For a node
that comes once these are none, so that the set `cycle_set` need not be formed. -/
def rmCycle (p : List Nat) : List Nat :=
  (p.zipIdx.filter (fun e => !(p.any (fun v => decide (p.idxOf v + 1 ≤ e.2 ∧ e.2 + p.reverse.idxOf v + 1 ≤ p.length))))).map Prod.fst

/-- The loop of `lable_father` (1654-1657). -/
def labelFrom (back : Nat → Option Nat) : Nat → List Nat → Nat → Option Nat
  | _, [] => back
  | p, n :: l => labelFrom (put back n (some p)) n l

/-- `lable_father` (1651-1659). -/
def label (back : Nat → Option Nat) : List Nat → Nat → Option Nat
  | [] => back
  | p :: l => labelFrom (put back p none) p l

/-- `Pre_trace_back` (1671-1707). -/
def preTrace (g : Grid) (r : Rules) (src : List Nat) (st : St) (c : Nat) : Option (Bool × St) :=
  match trace st.parent src (g.size + 1) [c] with
  | none => none
  | some path =>
    if c ∈ src then some (true, st)
    else match (segments g r src st.parent path).bind compact with
      | none => none
      | some line =>
        let back := label st.back (rmCycle line)
        match extChecks g r src back (rmCycle line) with
        | none => none
        | some ok => some (ok, { st with back := back })

/-- The loop which keeps the candidates with a connection (1305-1316). -/
def keep (g : Grid) (r : Rules) (src : List Nat) (parent : Nat → Option Nat) (c : Nat) : List Nat → Option (List Nat)
  | [] => some []
  | n :: l =>
    match parallel g r src parent c n, keep g r src parent c l with
    | some (ok, _), some rest => some (if ok then n :: rest else rest)
    | _, _ => none

/-- How the loop of the search ends; `running`: not within the given number of rounds. -/
inductive Outcome
  | fault
  | running
  | failed
  | found (st : St) (c : Nat)

/-- The loop of the search (1278-1368). -/
def search (g : Grid) (r : Rules) (src dests : List Nat) (sym : List Wire) : Nat → St → Outcome
  | 0, _ => .running
  | f + 1, st =>
    match st.queue with
    | [] => .failed
    | k :: q =>
      let c := k.2
      if c ∈ dests then
        match preTrace g r src { st with queue := q } c with
        | none => .fault
        | some (true, st') => .found st' c
        | some (false, st') => search g r src dests sym f st'
      else
        let closed := c :: st.closed
        match keep g r src st.parent c ((near g c).filter (fun n => !closed.contains n)) with
        | none => .fault
        | some cands => search g r src dests sym f (cands.foldl (relax g r dests sym c) { st with queue := q, closed := closed })

/-- The state at the beginning (1251-1275): no node has a parent, as the constructor of the grid and `refreshGrid` (1848-1853) leave it;
`trace_back_node` is what an earlier search left. -/
def start (g : Grid) (r : Rules) (src dests : List Nat) (cost cost2 : Nat → Rat) (back : Nat → Option Nat) : St :=
  src.foldl (addSource g r dests) { cost := cost, cost2 := cost2, parent := fun _ => none, back := back, queue := [], closed := src.reverse }

/-- What a search reports. -/
inductive Report
  | fault
  | running
  | noPath
  | path (p : List Nat)
deriving DecidableEq

/-- `A_star_algorithm_Sym` (1248-1380) with `Trace_Back_Paths` (1709-1780). -/
def astar (g : Grid) (r : Rules) (src dests : List Nat) (sym : List Wire) (cost cost2 : Nat → Rat) (back : Nat → Option Nat)
    (fuel : Nat) : Report :=
  match search g r src dests sym fuel (start g r src dests cost cost2 back) with
  | .fault => .fault
  | .running => .running
  | .failed => .noPath
  | .found st c =>
    match trace st.back src (g.size + 1) [c] with
    | none => .fault
    | some p => .path p

/-! ## What the property says -/

/-- The grid as its constructor makes it (`Grid.cpp` 3262-3553): the nodes beside a node on its layer are the next ones of its track, the
nodes above and below are at the same place on the next layers. -/
structure Sound (g : Grid) (r : Rules) : Prop where
  north : ∀ v n, v < g.size → n ∈ (g.vert v).north → n = v + 1 ∧ n < g.size ∧ (g.vert n).metal = (g.vert v).metal
    ∧ r.horizontal (g.vert v).metal = false ∧ (g.vert n).x = (g.vert v).x ∧ (g.vert v).y < (g.vert n).y
  south : ∀ v n, v < g.size → n ∈ (g.vert v).south → v = n + 1 ∧ (g.vert n).metal = (g.vert v).metal
    ∧ r.horizontal (g.vert v).metal = false ∧ (g.vert n).x = (g.vert v).x ∧ (g.vert n).y < (g.vert v).y
  east : ∀ v n, v < g.size → n ∈ (g.vert v).east → n = v + 1 ∧ n < g.size ∧ (g.vert n).metal = (g.vert v).metal
    ∧ r.horizontal (g.vert v).metal = true ∧ (g.vert n).y = (g.vert v).y ∧ (g.vert v).x < (g.vert n).x
  west : ∀ v n, v < g.size → n ∈ (g.vert v).west → v = n + 1 ∧ (g.vert n).metal = (g.vert v).metal
    ∧ r.horizontal (g.vert v).metal = true ∧ (g.vert n).y = (g.vert v).y ∧ (g.vert n).x < (g.vert v).x
  up : ∀ v n, v < g.size → (g.vert v).up = some n → n < g.size ∧ (g.vert n).metal = (g.vert v).metal + 1
    ∧ (g.vert n).x = (g.vert v).x ∧ (g.vert n).y = (g.vert v).y
  down : ∀ v n, v < g.size → (g.vert v).down = some n → n < g.size ∧ (g.vert v).metal = (g.vert n).metal + 1
    ∧ (g.vert n).x = (g.vert v).x ∧ (g.vert n).y = (g.vert v).y

/-- A step along a track: to a node listed beside, on the same layer, in the direction of the layer. -/
def Along (g : Grid) (r : Rules) (a b : Nat) : Prop :=
  (b ∈ (g.vert a).north ∨ b ∈ (g.vert a).south ∨ b ∈ (g.vert a).east ∨ b ∈ (g.vert a).west)
    ∧ (g.vert a).metal = (g.vert b).metal
    ∧ (if r.horizontal (g.vert a).metal then (g.vert a).y = (g.vert b).y ∧ (g.vert a).x ≠ (g.vert b).x
       else (g.vert a).x = (g.vert b).x ∧ (g.vert a).y ≠ (g.vert b).y)

/-- A step through a via: from `lo` to the node `hi` above it, allowed from below and from above. -/
def Via (g : Grid) (lo hi : Nat) : Prop :=
  (g.vert hi).metal = (g.vert lo).metal + 1 ∧ (g.vert hi).x = (g.vert lo).x ∧ (g.vert hi).y = (g.vert lo).y
    ∧ (g.vert lo).viaUp = true ∧ (g.vert hi).viaDown = true

/-- One step of a path, between free nodes. -/
def Step (g : Grid) (r : Rules) (a b : Nat) : Prop :=
  (g.vert a).active = true ∧ (g.vert b).active = true
    ∧ (Along g r a b ∨ ((g.vert a).up = some b ∧ Via g a b) ∨ ((g.vert a).down = some b ∧ Via g b a))

/-- A path from the sources to the destinations: it meets the sources only where it begins and the destinations only where it ends,
comes to no node twice and consists of steps. -/
structure Connects (g : Grid) (r : Rules) (src dests p : List Nat) : Prop where
  nodes : ∀ n ∈ p, n < g.size
  first : ∃ s l, p = s :: l ∧ s ∈ src ∧ ∀ n ∈ l, n ∉ src
  last : ∃ d l, p = l ++ [d] ∧ d ∈ dests ∧ ∀ n ∈ l, n ∉ dests
  nodup : p.Nodup
  steps : ∀ a b l₁ l₂, p = l₁ ++ a :: b :: l₂ → Step g r a b

/-- Each step of the path passes the check which the search makes, with each node linked to the one before (used in C114). -/
def Checked (g : Grid) (r : Rules) (src p : List Nat) : Prop :=
  ∀ a b l₁ l₂, p = l₁ ++ a :: b :: l₂ → parallel g r src (label (fun _ => none) p) a b = some (true, [[a, b]])

/-! ## Proofs -/

theorem inRange_succ {g : Grid} {c : Nat} (h : c + 1 < g.size) : inRange g ((c : Int) + 1) = some (c + 1) := by
  unfold inRange
  rw [if_neg (by omega)]
  congr 1

theorem inRange_pred {g : Grid} {n : Nat} (h : n + 1 < g.size) : inRange g (((n + 1 : Nat) : Int) + -1) = some n := by
  unfold inRange
  rw [if_neg (by omega)]
  congr 1
  omega

theorem near_cases {g : Grid} {r : Rules} (hs : Sound g r) {c n : Nat} (hc : c < g.size) (h : n ∈ near g c) :
    n < g.size ∧ c ≠ n ∧ (∀ dummy, findNext g r c ((g.vert n).x - (g.vert c).x).sign ((g.vert n).y - (g.vert c).y).sign
        (((g.vert n).metal : Int) - (g.vert c).metal).sign dummy = some n)
      ∧ (Along g r c n
        ∨ ((g.vert c).up = some n ∧ (g.vert n).metal = (g.vert c).metal + 1 ∧ (g.vert n).x = (g.vert c).x ∧ (g.vert n).y = (g.vert c).y)
        ∨ ((g.vert c).down = some n ∧ (g.vert c).metal = (g.vert n).metal + 1 ∧ (g.vert c).x = (g.vert n).x ∧ (g.vert c).y = (g.vert n).y)) := by
  unfold near at h
  simp only [List.mem_append, List.mem_filter] at h
  rcases h with (⟨(((h | h) | h) | h), _⟩ | h) | h
  · obtain ⟨e, hn, hm, hd, hx, hy⟩ := hs.north c n hc h
    refine ⟨hn, by omega, ?_, Or.inl ⟨Or.inl h, hm.symm, by rw [hd]; simp; exact ⟨hx.symm, by omega⟩⟩⟩
    intro dummy
    unfold findNext
    simp only [hd, hx]
    rw [if_neg (by simp), if_pos (by simp; omega), Int.sign_eq_one_of_pos (by omega)]
    subst e
    exact inRange_succ hn
  · obtain ⟨e, hm, hd, hx, hy⟩ := hs.south c n hc h
    refine ⟨by omega, by omega, ?_, Or.inl ⟨Or.inr (Or.inl h), hm.symm, by rw [hd]; simp; exact ⟨hx.symm, by omega⟩⟩⟩
    intro dummy
    unfold findNext
    simp only [hd, hx]
    rw [if_neg (by simp), if_pos (by simp; omega), Int.sign_eq_neg_one_of_neg (by omega)]
    subst e
    exact inRange_pred hc
  · obtain ⟨e, hm, hd, hy, hx⟩ := hs.west c n hc h
    refine ⟨by omega, by omega, ?_, Or.inl ⟨Or.inr (Or.inr (Or.inr h)), hm.symm, by rw [hd]; simp; exact ⟨hy.symm, by omega⟩⟩⟩
    intro dummy
    unfold findNext
    simp only [hd]
    rw [if_pos (by simp; omega), Int.sign_eq_neg_one_of_neg (by omega)]
    subst e
    exact inRange_pred hc
  · obtain ⟨e, hn, hm, hd, hy, hx⟩ := hs.east c n hc h
    refine ⟨by omega, by omega, ?_, Or.inl ⟨Or.inr (Or.inr (Or.inl h)), hm.symm, by rw [hd]; simp; exact ⟨hy.symm, by omega⟩⟩⟩
    intro dummy
    unfold findNext
    simp only [hd]
    rw [if_pos (by simp; omega), Int.sign_eq_one_of_pos (by omega)]
    subst e
    exact inRange_succ hn
  · by_cases hv : (g.vert c).viaUp = true
    · rw [if_pos hv] at h
      simp only [List.mem_filter, Option.mem_toList] at h
      obtain ⟨hn, hm, hx, hy⟩ := hs.up c n hc h.1
      refine ⟨hn, ?_, ?_, Or.inr (Or.inl ⟨h.1, hm, hx, hy⟩)⟩
      · intro e
        rw [← e] at hm
        omega
      · intro dummy
        unfold findNext
        simp only [hx, hy, hm]
        rw [if_neg (by simp), if_neg (by simp), Int.sign_eq_one_of_pos (by push_cast; omega)]
        simp
        exact h.1
    · rw [if_neg hv] at h
      simp at h
  · by_cases hv : (g.vert c).viaDown = true
    · rw [if_pos hv] at h
      simp only [List.mem_filter, Option.mem_toList] at h
      obtain ⟨hn, hm, hx, hy⟩ := hs.down c n hc h.1
      refine ⟨hn, ?_, ?_, Or.inr (Or.inr ⟨h.1, hm, hx.symm, hy.symm⟩)⟩
      · intro e
        rw [← e] at hm
        omega
      · intro dummy
        unfold findNext
        simp only [hx, hy, hm]
        rw [if_neg (by simp), if_neg (by simp), Int.sign_eq_neg_one_of_neg (by push_cast; omega)]
        simp
        exact h.1
    · rw [if_neg hv] at h
      simp at h

theorem walk_near {g : Grid} {r : Rules} {c n : Nat} (hne : c ≠ n)
    (hf : ∀ dummy, findNext g r c ((g.vert n).x - (g.vert c).x).sign ((g.vert n).y - (g.vert c).y).sign
        (((g.vert n).metal : Int) - (g.vert c).metal).sign dummy = some n) (dummy : Int) :
    walk g r n dummy (g.size + 2) [c] = some [c, n] := by
  show walk g r n dummy ((g.size + 1) + 1) [c] = _
  rw [walk, if_neg hne, if_neg (by simp)]
  simp only [hf]
  rw [walk, if_pos rfl]
  rfl

theorem lCheck_near {g : Grid} {r : Rules} (hs : Sound g r) {c n : Nat} (hc : c < g.size) (h : n ∈ near g c) :
    lCheck g r c n = if checkActive g [c, n] then some [c, n] else none := by
  obtain ⟨_, hne, hf, _⟩ := near_cases hs hc h
  unfold lCheck
  rw [walk_near hne hf, walk_near hne hf]
  simp only
  split <;> rfl

theorem step_of_check {g : Grid} {r : Rules} (hs : Sound g r) {c n : Nat} (hc : c < g.size) (h : n ∈ near g c)
    (hk : checkActive g [c, n] = true) : Step g r c n := by
  obtain ⟨_, _, _, hcase⟩ := near_cases hs hc h
  simp only [checkActive, checkFrom, Bool.and_eq_true, Bool.and_true] at hk
  obtain ⟨ha, ⟨hb, h1⟩, h2⟩ := hk
  refine ⟨ha, hb, ?_⟩
  rcases hcase with hal | ⟨hu, hm, hx, hy⟩ | ⟨hd, hm, hx, hy⟩
  · exact Or.inl hal
  · rw [if_pos (by omega)] at h2
    simp only [Bool.and_eq_true] at h2
    exact Or.inr (Or.inl ⟨hu, hm, hx, hy, h2.2, h2.1.1⟩)
  · rw [if_pos (by omega)] at h1
    simp only [Bool.and_eq_true] at h1
    exact Or.inr (Or.inr ⟨hd, hm, hx, hy, h1.1.1, h1.2⟩)

theorem parallel_near {g : Grid} {r : Rules} (hs : Sound g r) {src : List Nat} {parent : Nat → Option Nat} {c n : Nat}
    (hc : c < g.size) (h : n ∈ near g c) {q : List (List Nat)} (hp : parallel g r src parent c n = some (true, q)) :
    q = [[c, n]] ∧ Step g r c n := by
  unfold parallel at hp
  rw [lCheck_near hs hc h] at hp
  split at hp
  · exact absurd hp (by simp)
  · simp at hp
  · by_cases hk : checkActive g [c, n] = true
    · rw [if_pos hk] at hp
      simp only [Option.some.injEq, Prod.mk.injEq, true_and] at hp
      exact ⟨hp.symm, step_of_check hs hc h hk⟩
    · rw [if_neg hk] at hp
      simp at hp

/-! ### Links -/

/-- The nodes of the list are linked each to the next, and the last to none. -/
def Linked (link : Nat → Option Nat) : List Nat → Prop
  | [] => False
  | [d] => link d = none
  | d :: e :: t => link d = some e ∧ Linked link (e :: t)

theorem linked_congr {link link' : Nat → Option Nat} : ∀ {l : List Nat}, (∀ w ∈ l, link' w = link w) → Linked link l → Linked link' l
  | [], _, h => h
  | [d], he, h => by
    unfold Linked at *
    rw [he d (by simp)]
    exact h
  | d :: e :: t, he, h => by
    unfold Linked at *
    refine ⟨by rw [he d (by simp)]; exact h.1, linked_congr (fun w hw => he w (by simp [hw])) h.2⟩

theorem linked_split {link : Nat → Option Nat} : ∀ {l : List Nat}, Linked link l →
    ∃ l' s, l = l' ++ [s] ∧ link s = none ∧ ∀ w ∈ l', link w ≠ none
  | [], h => h.elim
  | [d], h => ⟨[], d, rfl, h, by simp⟩
  | d :: e :: t, h => by
    obtain ⟨l', s, h1, h2, h3⟩ := linked_split h.2
    refine ⟨d :: l', s, by rw [h1]; rfl, h2, ?_⟩
    intro w hw
    rcases List.mem_cons.1 hw with rfl | hw
    · rw [h.1]; simp
    · exact h3 w hw

theorem linked_tail {link : Nat → Option Nat} : ∀ {t : List Nat} {d : Nat}, Linked link (d :: t) → ∀ w ∈ t, ∃ v ∈ d :: t, link v = some w
  | [], _, _ => by simp
  | e :: t, d, h => by
    intro w hw
    rcases List.mem_cons.1 hw with rfl | hw
    · exact ⟨d, by simp, h.1⟩
    · obtain ⟨v, hv, e'⟩ := linked_tail h.2 w hw
      exact ⟨v, List.mem_cons_of_mem _ hv, e'⟩

theorem linked_consec {link : Nat → Option Nat} : ∀ {l₁ : List Nat} {b a : Nat} {l₂ : List Nat}, Linked link (l₁ ++ b :: a :: l₂) →
    link b = some a
  | [], _, _, _, h => h.1
  | [_], _, _, _, h => h.2.1
  | _ :: e :: t, _, _, _, h => linked_consec (l₁ := e :: t) h.2

theorem linked_suffix {link : Nat → Option Nat} : ∀ {l : List Nat}, Linked link l → ∀ n ∈ l, ∀ p, link n = some p →
    ∃ t, Linked link (p :: t) ∧ (p :: t) <:+ l
  | [], h => h.elim
  | [d], h => by
    intro n hn p hp
    rw [List.mem_singleton.1 hn, show link d = none from h] at hp
    exact absurd hp (by simp)
  | d :: e :: t, h => by
    intro n hn p hp
    rcases List.mem_cons.1 hn with rfl | hn
    · rw [h.1] at hp
      rw [← Option.some.inj hp]
      exact ⟨t, h.2, List.suffix_cons _ _⟩
    · obtain ⟨t', h1, h2⟩ := linked_suffix h.2 n hn p hp
      exact ⟨t', h1, h2.trans (List.suffix_cons _ _)⟩

theorem linked_agree {link link' : Nat → Option Nat} : ∀ {l : List Nat}, Linked link l → Linked link' l → ∀ w ∈ l, link' w = link w
  | [], h, _ => h.elim
  | [d], h, h' => by
    intro w hw
    rw [List.mem_singleton.1 hw, show link d = none from h, show link' d = none from h']
  | d :: e :: t, h, h' => by
    intro w hw
    rcases List.mem_cons.1 hw with hw | hw
    · rw [hw, h.1, h'.1]
    · exact linked_agree h.2 h'.2 w hw

theorem traceSame_some {link : Nat → Option Nat} {g : Grid} {start : Nat} : ∀ {t : List Nat} {d f : Nat}, Linked link (d :: t) → start ∉ t →
    t.length < f → ∃ x, traceSame link g start f d = some x
  | [], d, f + 1, h, _, _ => ⟨d, by rw [traceSame, show link d = none from h]⟩
  | e :: t, d, f + 1, h, hn, hf => by
    rw [traceSame, h.1]
    simp only
    by_cases h1 : g.size ≤ e
    · exact ⟨d, by rw [if_pos h1]⟩
    · rw [if_neg h1, if_neg (fun e' => hn (by simp [e']))]
      by_cases h2 : (g.vert e).metal = (g.vert d).metal
      · rw [if_pos h2]
        exact traceSame_some h.2 (fun e' => hn (List.mem_cons_of_mem _ e')) (by simp at hf; omega)
      · exact ⟨d, by rw [if_neg h2]⟩

theorem traceSame_frame {link link' : Nat → Option Nat} {g : Grid} {start : Nat} {C : List Nat} (he : ∀ u ∈ C, link' u = link u)
    (hc : ∀ u ∈ C, ∀ p, link u = some p → p ∈ C) : ∀ (f : Nat) {d : Nat}, d ∈ C →
    traceSame link' g start f d = traceSame link g start f d ∧ ∀ x, traceSame link g start f d = some x → x ∈ C
  | 0, d, _ => ⟨rfl, by simp [traceSame]⟩
  | f + 1, d, hd => by
    rw [traceSame, traceSame, he d hd]
    cases hl : link d with
    | none => exact ⟨by trivial, fun x hx => by rw [← Option.some.inj hx]; exact hd⟩
    | some l =>
      simp only
      by_cases h1 : g.size ≤ l
      · simp only [if_pos h1]
        exact ⟨by trivial, fun x hx => by rw [← Option.some.inj hx]; exact hd⟩
      · simp only [if_neg h1]
        by_cases h2 : l = start
        · simp only [if_pos h2]
          exact ⟨by trivial, by simp⟩
        · simp only [if_neg h2]
          by_cases h3 : (g.vert l).metal = (g.vert d).metal
          · simp only [if_pos h3]
            exact traceSame_frame he hc f (hc d hd l hl)
          · simp only [if_neg h3]
            exact ⟨by trivial, fun x hx => by rw [← Option.some.inj hx]; exact hd⟩

theorem extPrime_frame {link link' : Nat → Option Nat} {g : Grid} {r : Rules} {src : List Nat} {C : List Nat}
    (he : ∀ u ∈ C, link' u = link u) (hc : ∀ u ∈ C, ∀ p, link u = some p → p ∈ C) {c : Nat} (hd : c ∈ C) (n : Nat) :
    extPrime g r src link' c n = extPrime g r src link c n := by
  obtain ⟨h1, h2⟩ := traceSame_frame (g := g) (start := c) he hc (g.size + 1) hd
  unfold extPrime
  rw [h1]
  cases hx : traceSame link g c (g.size + 1) c with
  | none => rfl
  | some first =>
    simp only
    rw [show viaGap g r link' first c n = viaGap g r link first c n by unfold viaGap; rw [he first (h2 first hx)]]

theorem parallel_frame {link link' : Nat → Option Nat} {g : Grid} {r : Rules} {src : List Nat} {C : List Nat}
    (he : ∀ u ∈ C, link' u = link u) (hc : ∀ u ∈ C, ∀ p, link u = some p → p ∈ C) {c : Nat} (hd : c ∈ C) (n : Nat) :
    parallel g r src link' c n = parallel g r src link c n := by
  unfold parallel
  rw [extPrime_frame he hc hd]

theorem short {n : Nat} {l : List Nat} (hn : l.Nodup) (h : ∀ w ∈ l, w < n) : l.length ≤ n := by
  have := (hn.subperm (l₂ := List.range n) (fun w hw => List.mem_range.2 (h w hw))).length_le
  simpa using this

theorem trace_linked {link : Nat → Option Nat} {src : List Nat} : ∀ {t : List Nat} {d f : Nat} {acc : List Nat}, Linked link (d :: t) →
    (∀ w ∈ d :: t, w ∈ src ↔ link w = none) → t.length < f → trace link src f (d :: acc) = some ((d :: t).reverse ++ acc)
  | [], d, f + 1, acc, h, hs, _ => by
    rw [trace, if_pos ((hs d (by simp)).2 h)]
    rfl
  | e :: t, d, f + 1, acc, h, hs, hf => by
    rw [trace, if_neg (fun hd => by have := h.1; rw [(hs d (by simp)).1 hd] at this; exact absurd this (by simp)), h.1]
    simp only
    rw [trace_linked h.2 (fun w hw => hs w (List.mem_cons_of_mem _ hw)) (by simp at hf; omega)]
    simp

/-! ### The path that is traced -/

/-- The ends of all steps of a path. -/
def ends : List Nat → List Nat
  | a :: b :: l => a :: b :: ends (b :: l)
  | _ => []

theorem segments_eq {g : Grid} {r : Rules} {src : List Nat} {parent : Nat → Option Nat} : ∀ {p : List Nat},
    (∀ a b l₁ l₂, p = l₁ ++ a :: b :: l₂ → parallel g r src parent a b = some (true, [[a, b]])) →
    segments g r src parent p = some (ends p)
  | [], _ => rfl
  | [_], _ => rfl
  | a :: b :: l, h => by
    rw [segments, h a b [] l rfl]
    simp only
    rw [segments_eq (p := b :: l) (fun x y l₁ l₂ e => h x y (a :: l₁) l₂ (by rw [e]; rfl))]
    rfl

theorem compactFrom_ends : ∀ {l : List Nat} {p : Nat}, (p :: l).Nodup → compactFrom p (ends (p :: l)) = l
  | [], _, _ => rfl
  | b :: l, p, h => by
    rw [ends, compactFrom, if_neg (by simp), compactFrom, if_pos (by simp at h; tauto), compactFrom_ends (List.nodup_cons.1 h).2]

theorem compact_ends {a b : Nat} {l : List Nat} (h : (a :: b :: l).Nodup) : compact (ends (a :: b :: l)) = some (a :: b :: l) := by
  rw [ends, compact, compactFrom, if_pos (by simp at h; tauto), compactFrom_ends (List.nodup_cons.1 h).2]

theorem rmCycle_nodup {p : List Nat} (h : p.Nodup) : rmCycle p = p := by
  unfold rmCycle
  rw [List.filter_eq_self.2]
  · exact List.zipIdx_map_fst 0 p
  · intro e _
    simp only [Bool.not_eq_true', List.any_eq_false, decide_eq_true_eq, not_and]
    intro v hv h1
    have hi : p.idxOf v < p.length := List.idxOf_lt_length_iff.2 hv
    have hr : p.reverse.idxOf v = p.length - 1 - p.idxOf v := by
      have hk : p.length - 1 - p.idxOf v < p.reverse.length := by rw [List.length_reverse]; omega
      have h3 : p.reverse[p.length - 1 - p.idxOf v] = v := by
        rw [List.getElem_reverse]
        have : p.length - 1 - (p.length - 1 - p.idxOf v) = p.idxOf v := by omega
        simp only [this, List.getElem_idxOf]
      have h4 := (List.nodup_reverse.2 h).idxOf_getElem (p.length - 1 - p.idxOf v) hk
      rw [h3] at h4
      exact h4
    omega

theorem labelFrom_linked : ∀ {l : List Nat} {back : Nat → Option Nat} {p : Nat} {acc : List Nat}, Linked back (p :: acc) →
    (l.reverse ++ p :: acc).Nodup → Linked (labelFrom back p l) (l.reverse ++ p :: acc)
  | [], _, _, _, h, _ => h
  | n :: l, back, p, acc, h, hn => by
    rw [labelFrom]
    have e : (n :: l).reverse ++ p :: acc = l.reverse ++ n :: p :: acc := by simp
    rw [e] at hn ⊢
    refine labelFrom_linked ⟨by simp [put], ?_⟩ hn
    have hmem : n ∉ p :: acc := (List.nodup_cons.1 (List.nodup_append.1 hn).2.1).1
    refine linked_congr ?_ h
    intro w hw
    unfold put
    rw [if_neg (fun e : w = n => hmem (e ▸ hw))]

theorem label_linked {back : Nat → Option Nat} {p : Nat} {l : List Nat} (h : (p :: l).Nodup) :
    Linked (label back (p :: l)) (p :: l).reverse := by
  rw [label]
  have e : (p :: l).reverse = l.reverse ++ [p] := by simp
  rw [e]
  refine labelFrom_linked ?_ (by rw [← e]; exact List.nodup_reverse.2 h)
  show put back p none p = none
  simp [put]

theorem extChecks_some {g : Grid} {r : Rules} {src : List Nat} {back : Nat → Option Nat} : ∀ {l : List Nat},
    (∀ n ∈ l, ∃ b, extCheck g r src back n = some b) → ∃ b, extChecks g r src back l = some b
  | [], _ => ⟨true, rfl⟩
  | n :: l, h => by
    obtain ⟨b, hb⟩ := h n (by simp)
    rw [extChecks, hb]
    cases b with
    | false => exact ⟨false, rfl⟩
    | true => exact extChecks_some (fun m hm => h m (List.mem_cons_of_mem _ hm))

theorem extCheck_some {g : Grid} {r : Rules} {src : List Nat} {back : Nat → Option Nat} {l : List Nat} (hl : Linked back l) (hn : l.Nodup)
    (hb : ∀ w ∈ l, w < g.size) {n : Nat} (hm : n ∈ l) : ∃ b, extCheck g r src back n = some b := by
  unfold extCheck
  cases hp : back n with
  | none => exact ⟨true, rfl⟩
  | some p =>
    simp only
    obtain ⟨t, h1, h2⟩ := linked_suffix hl n hm p hp
    have hnd : (p :: t).Nodup := h2.sublist.nodup hn
    obtain ⟨x, hx⟩ := traceSame_some (g := g) (start := p) (f := g.size + 1) h1 (List.nodup_cons.1 hnd).1
      (by have := short hnd (fun w hw => hb w (h2.subset hw)); simp at this; omega)
    rw [hx]
    simp only
    by_cases e1 : (g.vert n).metal = (g.vert p).metal
    · exact ⟨true, by rw [if_pos e1]⟩
    · rw [if_neg e1]
      split
      · exact ⟨_, rfl⟩
      · split <;> exact ⟨_, rfl⟩

/-! ### The invariant of the search -/

/-- Nodes that were expanded have a chain of parents, all expanded, back to a source, and each link was found to be a connection. -/
structure Inv (g : Grid) (r : Rules) (src dests : List Nat) (st : St) : Prop where
  srcClosed : ∀ s ∈ src, s ∈ st.closed
  srcRoot : ∀ s ∈ src, st.parent s = none
  link : ∀ v u, st.parent v = some u → u ∈ st.closed ∧ u ∉ dests ∧ v ∈ near g u
    ∧ parallel g r src st.parent u v = some (true, [[u, v]])
  chain : ∀ u ∈ st.closed, ∃ t, Linked st.parent (u :: t) ∧ (u :: t).Nodup ∧ (∀ w ∈ u :: t, w ∈ st.closed)
    ∧ ∀ w ∈ u :: t, st.parent w = none → w ∈ src
  closedOk : ∀ u ∈ st.closed, u < g.size ∧ (u ∈ src ∨ u ∉ dests)
  queueOk : ∀ k ∈ st.queue, k.2 < g.size ∧ (k.2 ∈ src ∨ ∃ u, st.parent k.2 = some u)

theorem mem_insert {k e : Rat × Nat} : ∀ {q : List (Rat × Nat)}, e ∈ insert k q → e = k ∨ e ∈ q
  | [], h => by
    rw [insert, List.mem_singleton] at h
    exact Or.inl h
  | x :: q, h => by
    rw [insert] at h
    split at h
    · exact Or.inr h
    · split at h
      · rcases List.mem_cons.1 h with h | h
        · exact Or.inl h
        · exact Or.inr h
      · rcases List.mem_cons.1 h with h | h
        · exact Or.inr (by rw [h]; simp)
        · rcases mem_insert h with h | h
          · exact Or.inl h
          · exact Or.inr (List.mem_cons_of_mem _ h)

theorem relax_cases (g : Grid) (r : Rules) (dests : List Nat) (sym : List Wire) (c : Nat) (st : St) (v : Nat) :
    relax g r dests sym c st v = st ∨ ∃ a b k, relax g r dests sym c st v =
      { st with cost := put st.cost v a, cost2 := put st.cost2 v b, parent := put st.parent v (some c), queue := insert (k, v) st.queue } := by
  unfold relax
  split
  · exact Or.inr ⟨_, _, _, rfl⟩
  · exact Or.inl rfl

theorem inv_closure {g : Grid} {r : Rules} {src dests : List Nat} {st : St} (h : Inv g r src dests st) :
    ∀ u ∈ st.closed, ∀ p, st.parent u = some p → p ∈ st.closed := fun u _ p hp => (h.link u p hp).1

theorem inv_relax {g : Grid} {r : Rules} {src dests : List Nat} {sym : List Wire} {c v : Nat} {st : St} (hs : Sound g r)
    (h : Inv g r src dests st) (hc : c ∈ st.closed) (hd : c ∉ dests) (hv : v ∈ near g c) (hv' : v ∉ st.closed)
    (hp : parallel g r src st.parent c v = some (true, [[c, v]])) :
    Inv g r src dests (relax g r dests sym c st v) ∧ (relax g r dests sym c st v).closed = st.closed
      ∧ ∀ n, parallel g r src (relax g r dests sym c st v).parent c n = parallel g r src st.parent c n := by
  rcases relax_cases g r dests sym c st v with e | ⟨a, b, k, e⟩
  · rw [e]
    exact ⟨h, rfl, fun _ => rfl⟩
  · rw [e]
    have he : ∀ u ∈ st.closed, put st.parent v (some c) u = st.parent u := by
      intro u hu
      unfold put
      rw [if_neg (fun e : u = v => hv' (e ▸ hu))]
    have hfr : ∀ u ∈ st.closed, ∀ n, parallel g r src (put st.parent v (some c)) u n = parallel g r src st.parent u n :=
      fun u hu n => parallel_frame he (inv_closure h) hu n
    refine ⟨⟨h.srcClosed, ?_, ?_, ?_, h.closedOk, ?_⟩, rfl, hfr c hc⟩
    · intro s hs'
      show put st.parent v (some c) s = none
      rw [he s (h.srcClosed s hs')]
      exact h.srcRoot s hs'
    · intro w u hw
      by_cases hwv : w = v
      · have : u = c := by
          simp only [put, hwv, if_true] at hw
          exact (Option.some.inj hw).symm
        subst this
        subst hwv
        exact ⟨hc, hd, hv, by rw [hfr u hc]; exact hp⟩
      · have hw' : st.parent w = some u := by
          simp only [put, hwv, if_false] at hw
          exact hw
        obtain ⟨h1, h2, h3, h4⟩ := h.link w u hw'
        exact ⟨h1, h2, h3, by rw [hfr u h1]; exact h4⟩
    · intro u hu
      obtain ⟨t, h1, h2, h3, h4⟩ := h.chain u hu
      refine ⟨t, linked_congr (fun w hw => he w (h3 w hw)) h1, h2, h3, ?_⟩
      intro w hw hn
      have hn' : put st.parent v (some c) w = none := hn
      rw [he w (h3 w hw)] at hn'
      exact h4 w hw hn'
    · intro k' hk'
      rcases mem_insert hk' with hk' | hk'
      · rw [hk']
        refine ⟨(near_cases hs (h.closedOk c hc).1 hv).1, Or.inr ⟨c, ?_⟩⟩
        simp [put]
      · obtain ⟨h1, h2⟩ := h.queueOk k' hk'
        refine ⟨h1, ?_⟩
        rcases h2 with h2 | ⟨u, h2⟩
        · exact Or.inl h2
        · by_cases hkv : k'.2 = v
          · exact Or.inr ⟨c, by simp [put, hkv]⟩
          · exact Or.inr ⟨u, by simp only [put, hkv, if_false]; exact h2⟩

theorem inv_fold {g : Grid} {r : Rules} {src dests : List Nat} {sym : List Wire} {c : Nat} (hs : Sound g r) (hd : c ∉ dests) :
    ∀ {l : List Nat} {st : St}, Inv g r src dests st → c ∈ st.closed →
    (∀ v ∈ l, v ∈ near g c ∧ v ∉ st.closed ∧ parallel g r src st.parent c v = some (true, [[c, v]])) →
    Inv g r src dests (l.foldl (relax g r dests sym c) st)
  | [], _, h, _, _ => h
  | v :: l, st, h, hc, hl => by
    obtain ⟨h1, h2, h3⟩ := hl v (by simp)
    obtain ⟨i1, i2, i3⟩ := inv_relax (sym := sym) hs h hc hd h1 h2 h3
    rw [List.foldl_cons]
    refine inv_fold hs hd i1 (by rw [i2]; exact hc) ?_
    intro w hw
    obtain ⟨a1, a2, a3⟩ := hl w (List.mem_cons_of_mem _ hw)
    exact ⟨a1, by rw [i2]; exact a2, by rw [i3]; exact a3⟩

/-- A node is popped and closed. -/
theorem inv_close {g : Grid} {r : Rules} {src dests : List Nat} {st : St} {k : Rat × Nat} {q : List (Rat × Nat)}
    (h : Inv g r src dests st) (hq : st.queue = k :: q) (hd : k.2 ∉ dests) :
    Inv g r src dests { st with queue := q, closed := k.2 :: st.closed } := by
  obtain ⟨hk1, hk2⟩ := h.queueOk k (by rw [hq]; simp)
  refine ⟨fun s hs => List.mem_cons_of_mem _ (h.srcClosed s hs), h.srcRoot, ?_, ?_, ?_, ?_⟩
  · intro v u hv
    obtain ⟨h1, h2⟩ := h.link v u hv
    exact ⟨List.mem_cons_of_mem _ h1, h2⟩
  · intro u hu
    by_cases hu' : u ∈ st.closed
    · obtain ⟨t, h1, h2, h3, h4⟩ := h.chain u hu'
      exact ⟨t, h1, h2, fun w hw => List.mem_cons_of_mem _ (h3 w hw), h4⟩
    · have e : u = k.2 := by
        rcases List.mem_cons.1 hu with e | e
        · exact e
        · exact absurd e hu'
      rcases hk2 with hk2 | ⟨p, hk2⟩
      · exact absurd (h.srcClosed _ hk2) (e ▸ hu')
      · rw [← e] at hk2
        obtain ⟨h1, _⟩ := h.link u p hk2
        obtain ⟨t, g1, g2, g3, g4⟩ := h.chain p h1
        refine ⟨p :: t, ⟨hk2, g1⟩, List.nodup_cons.2 ⟨fun hm => hu' (g3 u hm), g2⟩, ?_, ?_⟩
        · intro w hw
          rcases List.mem_cons.1 hw with hw | hw
          · rw [hw]; exact hu
          · exact List.mem_cons_of_mem _ (g3 w hw)
        · intro w hw hn
          rcases List.mem_cons.1 hw with hw | hw
          · rw [hw] at hn
            have hn' : st.parent u = none := hn
            rw [hk2] at hn'
            exact absurd hn' (by simp)
          · exact g4 w hw hn
  · intro u hu
    rcases List.mem_cons.1 hu with e | e
    · rw [e]; exact ⟨hk1, Or.inr hd⟩
    · exact h.closedOk u e
  · intro k' hk'
    exact h.queueOk k' (by rw [hq]; exact List.mem_cons_of_mem _ hk')

theorem parallel_some {g : Grid} {r : Rules} {src dests : List Nat} {st : St} (h : Inv g r src dests st) {c : Nat} (hc : c ∈ st.closed)
    (n : Nat) : ∃ q, parallel g r src st.parent c n = some q := by
  obtain ⟨t, h1, h2, h3, _⟩ := h.chain c hc
  obtain ⟨x, hx⟩ := traceSame_some (g := g) (start := c) (f := g.size + 1) h1 (List.nodup_cons.1 h2).1
    (by have := short h2 (fun w hw => (h.closedOk w (h3 w hw)).1); simp at this; omega)
  have he : ∃ b, extPrime g r src st.parent c n = some b := by
    unfold extPrime
    rw [hx]
    simp only
    split
    · exact ⟨_, rfl⟩
    · split <;> exact ⟨_, rfl⟩
  obtain ⟨b, hb⟩ := he
  unfold parallel
  rw [hb]
  by_cases hm : (g.vert c).metal ≠ (g.vert n).metal
  · rw [if_pos hm]
    cases b with
    | false => exact ⟨_, rfl⟩
    | true =>
      simp only
      split <;> exact ⟨_, rfl⟩
  · rw [if_neg hm]
    simp only
    split <;> exact ⟨_, rfl⟩

theorem keep_spec {g : Grid} {r : Rules} {src : List Nat} {parent : Nat → Option Nat} {c : Nat} : ∀ {l : List Nat},
    (∀ n ∈ l, ∃ q, parallel g r src parent c n = some q) →
    ∃ l', keep g r src parent c l = some l' ∧ ∀ n ∈ l', n ∈ l ∧ ∃ q, parallel g r src parent c n = some (true, q)
  | [], _ => ⟨[], rfl, by simp⟩
  | n :: l, h => by
    obtain ⟨l', h1, h2⟩ := keep_spec (fun m hm => h m (List.mem_cons_of_mem _ hm))
    obtain ⟨⟨ok, q⟩, hq⟩ := h n (by simp)
    rw [keep, hq, h1]
    refine ⟨_, rfl, ?_⟩
    intro m hm
    cases ok with
    | false =>
      simp only [Bool.false_eq_true, if_false] at hm
      obtain ⟨a, b⟩ := h2 m hm
      exact ⟨List.mem_cons_of_mem _ a, b⟩
    | true =>
      simp only [if_true] at hm
      rcases List.mem_cons.1 hm with hm | hm
      · rw [hm]; exact ⟨by simp, q, hq⟩
      · obtain ⟨a, b⟩ := h2 m hm
        exact ⟨List.mem_cons_of_mem _ a, b⟩

theorem preTrace_spec {g : Grid} {r : Rules} {src dests : List Nat} {st : St} (hs : Sound g r) (h : Inv g r src dests st) {c : Nat}
    (hd : c ∈ dests) (hcs : c < g.size) (hc : c ∈ src ∨ ∃ u, st.parent c = some u) :
    ∃ ok st', preTrace g r src st c = some (ok, st') ∧ Inv g r src dests st'
      ∧ st'.queue = st.queue
      ∧ ∃ p, trace st'.back src (g.size + 1) [c] = some p ∧ Connects g r src dests p ∧ Checked g r src p := by
  by_cases hsrc : c ∈ src
  · refine ⟨true, st, ?_, h, rfl, [c], ?_, ?_⟩
    · unfold preTrace
      rw [trace, if_pos hsrc]
      simp only
      rw [if_pos hsrc]
    · rw [trace, if_pos hsrc]
    · have hno : ∀ (P : Prop) (a b : Nat) (l₁ l₂ : List Nat), [c] = l₁ ++ a :: b :: l₂ → P := by
        intro P a b l₁ l₂ e
        have := congrArg List.length e
        simp at this
        omega
      exact ⟨⟨by simpa using hcs, ⟨c, [], rfl, hsrc, by simp⟩, ⟨c, [], rfl, hd, by simp⟩, by simp, fun a b l₁ l₂ e => hno _ a b l₁ l₂ e⟩,
        fun a b l₁ l₂ e => hno _ a b l₁ l₂ e⟩
  · rcases hc with hc | ⟨u, hu⟩
    · exact absurd hc hsrc
    obtain ⟨huc, hud, _, _⟩ := h.link c u hu
    obtain ⟨t, h1, h2, h3, h4⟩ := h.chain u huc
    have hnc : c ∉ st.closed := fun hm => by
      rcases (h.closedOk c hm).2 with e | e
      · exact hsrc e
      · exact e hd
    have hL : Linked st.parent (c :: u :: t) := ⟨hu, h1⟩
    have hN : (c :: u :: t).Nodup := List.nodup_cons.2 ⟨fun hm => hnc (h3 c hm), h2⟩
    have hB : ∀ w ∈ c :: u :: t, w < g.size := by
      intro w hw
      rcases List.mem_cons.1 hw with e | e
      · rw [e]; exact hcs
      · exact (h.closedOk w (h3 w e)).1
    have hR : ∀ w ∈ c :: u :: t, w ∈ src ↔ st.parent w = none := by
      intro w hw
      refine ⟨h.srcRoot w, fun hn => ?_⟩
      rcases List.mem_cons.1 hw with e | e
      · rw [e, hu] at hn; exact absurd hn (by simp)
      · exact h4 w e hn
    have hlen : (u :: t).length < g.size + 1 := by
      have := short hN hB
      simp at this ⊢
      omega
    have htr := trace_linked (acc := []) hL hR hlen
    obtain ⟨path, hpath⟩ : ∃ path, path = (c :: u :: t).reverse := ⟨_, rfl⟩
    rw [List.append_nil, ← hpath] at htr
    have hNp : path.Nodup := by rw [hpath]; exact List.nodup_reverse.2 hN
    have hcons : ∀ a b l₁ l₂, path = l₁ ++ a :: b :: l₂ → st.parent b = some a := by
      intro a b l₁ l₂ e
      have : c :: u :: t = l₂.reverse ++ b :: a :: l₁.reverse := by
        have := congrArg List.reverse e
        rw [hpath, List.reverse_reverse] at this
        rw [this]
        simp
      rw [this] at hL
      exact linked_consec hL
    have hseg := segments_eq (g := g) (r := r) (src := src) (parent := st.parent) (p := path)
      (fun a b l₁ l₂ e => (h.link b a (hcons a b l₁ l₂ e)).2.2.2)
    obtain ⟨p0, p1, rest, hp0⟩ : ∃ p0 p1 rest, path = p0 :: p1 :: rest := by
      cases hpc : path with
      | nil => rw [hpc] at hpath; simp at hpath
      | cons p0 l =>
        cases l with
        | nil =>
          have := congrArg List.length hpath
          rw [hpc] at this
          simp at this
        | cons p1 rest => exact ⟨p0, p1, rest, rfl⟩
    have hcomp : compact (ends path) = some path := by
      rw [hp0]
      exact compact_ends (hp0 ▸ hNp)
    have hlab : Linked (label st.back path) (c :: u :: t) := by
      have : Linked (label st.back path) path.reverse := by
        rw [hp0]
        exact label_linked (hp0 ▸ hNp)
      rw [hpath, List.reverse_reverse, ← hpath] at this
      exact this
    obtain ⟨ok, hok⟩ : ∃ ok, extChecks g r src (label st.back path) path = some ok := by
      refine extChecks_some (fun n hn => extCheck_some hlab hN hB ?_)
      rw [hpath, List.mem_reverse] at hn
      exact hn
    refine ⟨ok, { st with back := label st.back path }, ?_, ?_, rfl, path, ?_, ?_⟩
    · unfold preTrace
      rw [htr]
      simp only
      rw [if_neg hsrc, hseg]
      simp only [Option.bind_some]
      rw [hcomp]
      simp only
      rw [rmCycle_nodup hNp, hok]
    · exact ⟨h.srcClosed, h.srcRoot, h.link, h.chain, h.closedOk, h.queueOk⟩
    · have hR' : ∀ w ∈ c :: u :: t, w ∈ src ↔ label st.back path w = none := by
        obtain ⟨l1, s1, e1, n1, o1⟩ := linked_split hL
        obtain ⟨l2, s2, e2, n2, o2⟩ := linked_split hlab
        have he := List.append_inj' (e1.symm.trans e2) rfl
        have hss : s1 = s2 := by simpa using he.2
        intro w hw
        rw [hR w hw]
        constructor
        · intro hn
          rw [e1] at hw
          rcases List.mem_append.1 hw with hm | hm
          · exact absurd hn (o1 w hm)
          · rw [List.mem_singleton.1 hm, hss]; exact n2
        · intro hn
          rw [e2] at hw
          rcases List.mem_append.1 hw with hm | hm
          · exact absurd hn (o2 w hm)
          · rw [List.mem_singleton.1 hm, ← hss]; exact n1
      have := trace_linked (acc := []) hlab hR' hlen
      rw [List.append_nil, ← hpath] at this
      exact this
    · refine ⟨⟨?_, ?_, ?_, hNp, ?_⟩, ?_⟩
      · intro n hn
        rw [hpath, List.mem_reverse] at hn
        exact hB n hn
      · obtain ⟨l1, s1, e1, n1, o1⟩ := linked_split hL
        refine ⟨s1, l1.reverse, by rw [hpath, e1]; simp, (hR s1 (by rw [e1]; simp)).2 n1, ?_⟩
        intro n hn hns
        exact o1 n (List.mem_reverse.1 hn) (h.srcRoot n hns)
      · refine ⟨c, (u :: t).reverse, by rw [hpath]; simp, hd, ?_⟩
        intro n hn
        obtain ⟨v, _, hv⟩ := linked_tail hL n (List.mem_reverse.1 hn)
        exact (h.link v n hv).2.1
      · intro a b l₁ l₂ e
        obtain ⟨k1, _, k3, k4⟩ := h.link b a (hcons a b l₁ l₂ e)
        exact (parallel_near hs (h.closedOk a k1).1 k3 k4).2
      · intro a b l₁ l₂ e
        obtain ⟨_, _, _, k4⟩ := h.link b a (hcons a b l₁ l₂ e)
        have hlab' : Linked (label (fun _ => none) path) (c :: u :: t) := by
          have : Linked (label (fun _ => none) path) path.reverse := by
            rw [hp0]
            exact label_linked (hp0 ▸ hNp)
          rw [hpath, List.reverse_reverse, ← hpath] at this
          exact this
        have ha : a ∈ c :: u :: t := by
          have : a ∈ path := by rw [e]; simp
          rw [hpath, List.mem_reverse] at this
          exact this
        rw [parallel_frame (linked_agree hL hlab') (fun w hw q hq => ?_) ha]
        · exact k4
        · obtain ⟨_, _, h6⟩ := linked_suffix hL w hw q hq
          exact h6.subset (by simp)

theorem search_spec {g : Grid} {r : Rules} {src dests : List Nat} {sym : List Wire} (hs : Sound g r) : ∀ (f : Nat) {st : St},
    Inv g r src dests st → search g r src dests sym f st ≠ .fault
      ∧ ∀ st' c, search g r src dests sym f st = .found st' c →
        ∃ p, trace st'.back src (g.size + 1) [c] = some p ∧ Connects g r src dests p ∧ Checked g r src p
  | 0, st, _ => by simp [search]
  | f + 1, st, h => by
    rw [search]
    cases hq : st.queue with
    | nil => simp
    | cons k q =>
      simp only
      by_cases hd : k.2 ∈ dests
      · simp only [if_pos hd]
        have h' : Inv g r src dests { st with queue := q } :=
          ⟨h.srcClosed, h.srcRoot, h.link, h.chain, h.closedOk, fun k' hk' => h.queueOk k' (by rw [hq]; exact List.mem_cons_of_mem _ hk')⟩
        obtain ⟨k1, k2⟩ := h.queueOk k (by rw [hq]; simp)
        obtain ⟨ok, st', e, hi, _, hp⟩ := preTrace_spec hs h' hd k1 k2
        rw [e]
        cases ok with
        | true =>
          refine ⟨by simp, ?_⟩
          intro st'' c e'
          simp only [Outcome.found.injEq] at e'
          rw [← e'.1, ← e'.2]
          exact hp
        | false => exact search_spec hs f hi
      · simp only [if_neg hd]
        have h' := inv_close h hq hd
        have hmem : k.2 ∈ ({ st with queue := q, closed := k.2 :: st.closed } : St).closed := by simp
        obtain ⟨l', e, hl⟩ := keep_spec (l := (near g k.2).filter (fun n => !(k.2 :: st.closed).contains n))
          (fun n _ => parallel_some h' hmem n)
        have e' : keep g r src st.parent k.2 ((near g k.2).filter (fun n => !(k.2 :: st.closed).contains n)) = some l' := e
        rw [e']
        refine search_spec hs f (inv_fold hs hd h' hmem ?_)
        intro v hv
        obtain ⟨a, qq, b⟩ := hl v hv
        rw [List.mem_filter] at a
        refine ⟨a.1, by simpa using a.2, ?_⟩
        rw [b, (parallel_near hs (h'.closedOk _ hmem).1 a.1 b).1]

theorem addSource_fields (g : Grid) (r : Rules) (dests : List Nat) : ∀ (l : List Nat) (st : St),
    (l.foldl (addSource g r dests) st).parent = st.parent ∧ (l.foldl (addSource g r dests) st).closed = st.closed
      ∧ ∀ k ∈ (l.foldl (addSource g r dests) st).queue, k.2 ∈ l ∨ k ∈ st.queue
  | [], st => ⟨rfl, rfl, fun k hk => Or.inr hk⟩
  | s :: l, st => by
    rw [List.foldl_cons]
    obtain ⟨h1, h2, h3⟩ := addSource_fields g r dests l (addSource g r dests st s)
    refine ⟨h1, h2, ?_⟩
    intro k hk
    rcases h3 k hk with hk | hk
    · exact Or.inl (List.mem_cons_of_mem _ hk)
    · rcases mem_insert hk with hk | hk
      · rw [hk]; exact Or.inl (by simp)
      · exact Or.inr hk

theorem inv_start {g : Grid} {r : Rules} {src dests : List Nat} (hsrc : ∀ s ∈ src, s < g.size) (cost cost2 : Nat → Rat)
    (back : Nat → Option Nat) : Inv g r src dests (start g r src dests cost cost2 back) := by
  unfold start
  obtain ⟨h1, h2, h3⟩ := addSource_fields g r dests src
    { cost := cost, cost2 := cost2, parent := fun _ => none, back := back, queue := [], closed := src.reverse }
  refine ⟨?_, ?_, ?_, ?_, ?_, ?_⟩
  · intro s hs
    rw [h2]
    exact List.mem_reverse.2 hs
  · intro s _
    rw [h1]
  · intro v u hv
    rw [h1] at hv
    exact absurd hv (by simp)
  · intro u hu
    rw [h2] at hu
    refine ⟨[], ?_, by simp, ?_, ?_⟩
    · show _ = none
      rw [h1]
    · intro w hw
      rw [List.mem_singleton.1 hw, h2]
      exact hu
    · intro w hw _
      rw [List.mem_singleton.1 hw]
      exact List.mem_reverse.1 hu
  · intro u hu
    rw [h2] at hu
    exact ⟨hsrc u (List.mem_reverse.1 hu), Or.inl (List.mem_reverse.1 hu)⟩
  · intro k hk
    rcases h3 k hk with hk | hk
    · exact ⟨hsrc _ hk, Or.inl hk⟩
    · exact absurd hk (by simp)

theorem astar_path {g : Grid} {r : Rules} {src dests : List Nat} {sym : List Wire} {cost cost2 : Nat → Rat} {back : Nat → Option Nat}
    {fuel : Nat} {p : List Nat} (hs : Sound g r) (hsrc : ∀ s ∈ src, s < g.size)
    (h : astar g r src dests sym cost cost2 back fuel = .path p) : Connects g r src dests p ∧ Checked g r src p := by
  unfold astar at h
  obtain ⟨_, h2⟩ := search_spec (sym := sym) hs fuel (inv_start (dests := dests) hsrc cost cost2 back)
  cases he : search g r src dests sym fuel (start g r src dests cost cost2 back) with
  | fault => rw [he] at h; exact absurd h (by simp)
  | running => rw [he] at h; exact absurd h (by simp)
  | failed => rw [he] at h; exact absurd h (by simp)
  | found st c =>
    rw [he] at h
    obtain ⟨q, h3, h4⟩ := h2 st c he
    simp only [h3] at h
    rw [← Report.path.inj h]
    exact h4

/-- C112: what the search reports is a path of free nodes from a source to a destination, by steps along tracks and allowed vias. -/
theorem C112_path {g : Grid} {r : Rules} {src dests : List Nat} {sym : List Wire} {cost cost2 : Nat → Rat} {back : Nat → Option Nat}
    {fuel : Nat} {p : List Nat} (hs : Sound g r) (hsrc : ∀ s ∈ src, s < g.size)
    (h : astar g r src dests sym cost cost2 back fuel = .path p) : Connects g r src dests p := (astar_path hs hsrc h).1

/-- C112: the search never reads out of range and none of its inner loops runs for ever. -/
theorem C112_no_fault {g : Grid} {r : Rules} {src dests : List Nat} {sym : List Wire} {cost cost2 : Nat → Rat} {back : Nat → Option Nat}
    (fuel : Nat) (hs : Sound g r) (hsrc : ∀ s ∈ src, s < g.size) : astar g r src dests sym cost cost2 back fuel ≠ .fault := by
  unfold astar
  obtain ⟨h1, h2⟩ := search_spec (sym := sym) hs fuel (inv_start (dests := dests) hsrc cost cost2 back)
  cases he : search g r src dests sym fuel (start g r src dests cost cost2 back) with
  | fault => exact absurd he h1
  | running => simp
  | failed => simp
  | found st c =>
    obtain ⟨q, h3, _⟩ := h2 st c he
    simp [h3]

/-! ### The search ends -/

/-- The most candidates that nodes not yet expanded can give. -/
def pend (g : Grid) (l E : List Nat) : Nat := (l.map (fun u => if u ∈ E then 0 else (near g u).length)).sum

theorem pend_mono (g : Grid) (c : Nat) (E : List Nat) : ∀ l : List Nat, pend g l (c :: E) ≤ pend g l E
  | [] => Nat.le_refl _
  | u :: l => by
    have ih := pend_mono g c E l
    unfold pend at ih ⊢
    simp only [List.map_cons, List.sum_cons]
    have : (if u ∈ c :: E then 0 else (near g u).length) ≤ if u ∈ E then 0 else (near g u).length := by
      by_cases h : u ∈ E
      · rw [if_pos (List.mem_cons_of_mem _ h), if_pos h]
      · rw [if_neg h]
        split <;> omega
    omega

theorem pend_close {g : Grid} {c : Nat} {E : List Nat} (hc : c ∉ E) : ∀ {l : List Nat}, c ∈ l →
    pend g l (c :: E) + (near g c).length ≤ pend g l E
  | [], h => absurd h (by simp)
  | u :: l, h => by
    by_cases e : u = c
    · have := pend_mono g c E l
      unfold pend at this ⊢
      simp only [List.map_cons, List.sum_cons]
      rw [e, if_pos (by simp), if_neg hc]
      omega
    · have hl : c ∈ l := by
        rcases List.mem_cons.1 h with h | h
        · exact absurd h.symm e
        · exact h
      have ih := pend_close (g := g) hc hl
      unfold pend at ih ⊢
      simp only [List.map_cons, List.sum_cons]
      have : (if u ∈ c :: E then 0 else (near g u).length) = if u ∈ E then 0 else (near g u).length := by
        by_cases h : u ∈ E
        · rw [if_pos (List.mem_cons_of_mem _ h), if_pos h]
        · rw [if_neg h, if_neg (by simp [e, h])]
      omega

theorem insert_length (k : Rat × Nat) : ∀ q : List (Rat × Nat), (insert k q).length ≤ q.length + 1
  | [] => Nat.le_refl _
  | x :: q => by
    rw [insert]
    split
    · simp
    · split
      · simp
      · have := insert_length k q
        simp only [List.length_cons]
        omega

/-- What a search has settled about the nodes it expanded: their candidates cost no more than by way of them. -/
def Settled (g : Grid) (r : Rules) (src dests : List Nat) (E : List Nat) (st : St) : Prop :=
  ∀ c ∈ E, c ∈ st.closed ∧ ∀ v ∈ near g c, v ∉ st.closed → (∃ q, parallel g r src st.parent c v = some (true, q)) →
    st.cost v ≤ st.cost2 c + stepCost g r c v + goCost g r dests c v

theorem relax_facts (g : Grid) (r : Rules) (dests : List Nat) (sym : List Wire) (c : Nat) (st : St) (v : Nat) :
    (∀ w, (relax g r dests sym c st v).cost w ≤ st.cost w) ∧ (∀ w, w ≠ v → (relax g r dests sym c st v).cost2 w = st.cost2 w)
      ∧ (relax g r dests sym c st v).cost v ≤ st.cost2 c + stepCost g r c v + goCost g r dests c v
      ∧ (relax g r dests sym c st v).queue.length ≤ st.queue.length + 1
      ∧ (relax g r dests sym c st v).closed = st.closed
      ∧ ∀ w, w ≠ v → (relax g r dests sym c st v).parent w = st.parent w := by
  unfold relax
  split
  · rename_i h
    refine ⟨?_, ?_, ?_, insert_length _ _, rfl, ?_⟩
    · intro w
      show put st.cost v _ w ≤ _
      unfold put
      split
      · rename_i e
        rw [e]
        exact le_of_lt h
      · exact le_refl _
    · intro w hw
      show put st.cost2 v _ w = _
      unfold put
      rw [if_neg hw]
    · show put st.cost v _ v ≤ _
      unfold put
      rw [if_pos rfl]
    · intro w hw
      show put st.parent v _ w = _
      unfold put
      rw [if_neg hw]
  · rename_i h
    exact ⟨fun _ => le_refl _, fun _ _ => rfl, not_lt.1 h, by omega, rfl, fun _ _ => rfl⟩

theorem fold_facts (g : Grid) (r : Rules) (dests : List Nat) (sym : List Wire) (c : Nat) : ∀ (l : List Nat) (st : St), c ∈ st.closed →
    (∀ v ∈ l, v ∉ st.closed) →
    (∀ w, (l.foldl (relax g r dests sym c) st).cost w ≤ st.cost w)
      ∧ (∀ w ∈ st.closed, (l.foldl (relax g r dests sym c) st).cost2 w = st.cost2 w)
      ∧ (∀ v ∈ l, (l.foldl (relax g r dests sym c) st).cost v ≤ st.cost2 c + stepCost g r c v + goCost g r dests c v)
      ∧ (l.foldl (relax g r dests sym c) st).queue.length ≤ st.queue.length + l.length
      ∧ (l.foldl (relax g r dests sym c) st).closed = st.closed
      ∧ (∀ w ∈ st.closed, (l.foldl (relax g r dests sym c) st).parent w = st.parent w)
  | [], st, _, _ => ⟨fun _ => le_refl _, fun _ _ => rfl, by simp, by simp, rfl, fun _ _ => rfl⟩
  | v :: l, st, hc, hl => by
    obtain ⟨a1, a2, a3, a4, a5, a6⟩ := relax_facts g r dests sym c st v
    obtain ⟨b1, b2, b3, b4, b5, b6⟩ := fold_facts g r dests sym c l (relax g r dests sym c st v) (by rw [a5]; exact hc)
      (fun w hw => by rw [a5]; exact hl w (List.mem_cons_of_mem _ hw))
    have hv : v ∉ st.closed := hl v (by simp)
    have hne : ∀ w ∈ st.closed, w ≠ v := fun w hw e => hv (e ▸ hw)
    rw [List.foldl_cons]
    refine ⟨fun w => le_trans (b1 w) (a1 w), fun w hw => ?_, fun w hw => ?_, ?_, by rw [b5, a5], fun w hw => ?_⟩
    · rw [b2 w (by rw [a5]; exact hw), a2 w (hne w hw)]
    · rcases List.mem_cons.1 hw with e | hw
      · rw [e]
        exact le_trans (b1 v) a3
      · have := b3 w hw
        rw [a2 c (hne c hc)] at this
        exact this
    · simp only [List.length_cons]
      omega
    · rw [b6 w (by rw [a5]; exact hw), a6 w (hne w hw)]

theorem fold_same (g : Grid) (r : Rules) (dests : List Nat) (sym : List Wire) (c : Nat) (st : St) : ∀ l : List Nat,
    (∀ v ∈ l, st.cost v ≤ st.cost2 c + stepCost g r c v + goCost g r dests c v) → l.foldl (relax g r dests sym c) st = st
  | [], _ => rfl
  | v :: l, h => by
    rw [List.foldl_cons]
    have : relax g r dests sym c st v = st := by
      unfold relax
      rw [if_neg (not_lt.2 (h v (by simp)))]
    rw [this]
    exact fold_same g r dests sym c st l (fun w hw => h w (List.mem_cons_of_mem _ hw))

theorem keep_facts {g : Grid} {r : Rules} {src : List Nat} {parent : Nat → Option Nat} {c : Nat} : ∀ {l l' : List Nat},
    keep g r src parent c l = some l' → l'.length ≤ l.length ∧ ∀ n ∈ l, (∃ q, parallel g r src parent c n = some (true, q)) → n ∈ l'
  | [], l', h => by
    rw [keep] at h
    rw [← Option.some.inj h]
    simp
  | n :: l, l', h => by
    rw [keep] at h
    cases hp : parallel g r src parent c n with
    | none => rw [hp] at h; simp at h
    | some x =>
      obtain ⟨ok, q⟩ := x
      cases hk : keep g r src parent c l with
      | none => rw [hp, hk] at h; simp at h
      | some rest =>
        rw [hp, hk] at h
        simp only at h
        have e := Option.some.inj h
        obtain ⟨h1, h2⟩ := keep_facts hk
        refine ⟨?_, ?_⟩
        · rw [← e]
          split <;> simp only [List.length_cons] <;> omega
        · intro m hm ⟨q', hq'⟩
          rcases List.mem_cons.1 hm with em | hm
          · rw [em, hp] at hq'
            have : ok = true := by
              have := Option.some.inj hq'
              exact (Prod.mk.inj this).1
            rw [← e, if_pos this, em]
            simp
          · have := h2 m hm ⟨q', hq'⟩
            rw [← e]
            split
            · exact List.mem_cons_of_mem _ this
            · exact this

theorem preTrace_same {g : Grid} {r : Rules} {src : List Nat} {st st' : St} {c : Nat} {ok : Bool}
    (h : preTrace g r src st c = some (ok, st')) :
    st'.cost = st.cost ∧ st'.cost2 = st.cost2 ∧ st'.parent = st.parent ∧ st'.closed = st.closed ∧ st'.queue = st.queue := by
  unfold preTrace at h
  split at h
  · exact absurd h (by simp)
  · split at h
    · have e := (Prod.mk.inj (Option.some.inj h)).2
      rw [← e]
      exact ⟨rfl, rfl, rfl, rfl, rfl⟩
    · split at h
      · exact absurd h (by simp)
      · simp only at h
        split at h
        · exact absurd h (by simp)
        · have e := (Prod.mk.inj (Option.some.inj h)).2
          rw [← e]
          exact ⟨rfl, rfl, rfl, rfl, rfl⟩

theorem search_ends {g : Grid} {r : Rules} {src dests : List Nat} {sym : List Wire} (hs : Sound g r) : ∀ (f : Nat) {st : St} {E : List Nat},
    Inv g r src dests st → Settled g r src dests E st → st.queue.length + pend g (List.range g.size) E < f →
    search g r src dests sym f st ≠ .running
  | 0, _, _, _, _, hf => absurd hf (by omega)
  | f + 1, st, E, h, hE, hf => by
    rw [search]
    cases hq : st.queue with
    | nil => simp
    | cons k q =>
      rw [hq, List.length_cons] at hf
      simp only
      obtain ⟨k1, k2⟩ := h.queueOk k (by rw [hq]; simp)
      by_cases hd : k.2 ∈ dests
      · simp only [if_pos hd]
        have h' : Inv g r src dests { st with queue := q } :=
          ⟨h.srcClosed, h.srcRoot, h.link, h.chain, h.closedOk, fun k' hk' => h.queueOk k' (by rw [hq]; exact List.mem_cons_of_mem _ hk')⟩
        obtain ⟨ok, st', e, hi, _, hp⟩ := preTrace_spec hs h' hd k1 k2
        rw [e]
        cases ok with
        | true => simp
        | false =>
          obtain ⟨e1, e2, e3, e4, e5⟩ := preTrace_same e
          refine search_ends hs f (E := E) hi ?_ (by rw [e5]; show q.length + _ < f; omega)
          intro c hc
          rw [e1, e2, e3, e4]
          exact hE c hc
      · simp only [if_neg hd]
        have h' := inv_close h hq hd
        have hmem : k.2 ∈ ({ st with queue := q, closed := k.2 :: st.closed } : St).closed := by simp
        obtain ⟨l', e, hl⟩ := keep_spec (l := (near g k.2).filter (fun n => !(k.2 :: st.closed).contains n))
          (fun n _ => parallel_some h' hmem n)
        have e' : keep g r src st.parent k.2 ((near g k.2).filter (fun n => !(k.2 :: st.closed).contains n)) = some l' := e
        rw [e']
        simp only
        have hl' : ∀ v ∈ l', v ∈ near g k.2 ∧ v ∉ k.2 :: st.closed ∧ ∃ q, parallel g r src st.parent k.2 v = some (true, q) := by
          intro v hv
          obtain ⟨a, b⟩ := hl v hv
          rw [List.mem_filter] at a
          exact ⟨a.1, by simpa using a.2, b⟩
        have hinv := inv_fold (sym := sym) hs hd h' hmem (l := l') (fun v hv => by
          obtain ⟨a, b, qq, d⟩ := hl' v hv
          exact ⟨a, b, by
            show parallel g r src st.parent k.2 v = _
            rw [d, (parallel_near hs k1 a d).1]⟩)
        by_cases hkE : k.2 ∈ E
        · have hsame : l'.foldl (relax g r dests sym k.2) { st with queue := q, closed := k.2 :: st.closed }
              = { st with queue := q, closed := k.2 :: st.closed } := by
            refine fold_same _ _ _ _ _ _ _ ?_
            intro v hv
            obtain ⟨a, b, d⟩ := hl' v hv
            exact (hE k.2 hkE).2 v a (fun hm => b (List.mem_cons_of_mem _ hm)) d
          rw [hsame] at hinv ⊢
          refine search_ends hs f (E := E) hinv ?_ (by show q.length + _ < f; omega)
          intro c hc
          refine ⟨List.mem_cons_of_mem _ (hE c hc).1, fun v hv hv' hp => (hE c hc).2 v hv (fun hm => hv' (List.mem_cons_of_mem _ hm)) hp⟩
        · obtain ⟨b1, b2, b3, b4, b5, b6⟩ := fold_facts g r dests sym k.2 l'
            ({ st with queue := q, closed := k.2 :: st.closed } : St) hmem (fun v hv => (hl' v hv).2.1)
          have hfr : ∀ c ∈ k.2 :: st.closed, ∀ n,
              parallel g r src (l'.foldl (relax g r dests sym k.2) { st with queue := q, closed := k.2 :: st.closed }).parent c n
                = parallel g r src st.parent c n := fun c hc n => parallel_frame (C := k.2 :: st.closed) b6 (inv_closure h') hc n
          have hlen : l'.length ≤ (near g k.2).length :=
            le_trans (keep_facts e').1 (List.length_filter_le _ _)
          have hpend := pend_close (g := g) hkE (List.mem_range.2 k1)
          refine search_ends hs f (E := k.2 :: E) hinv ?_ ?_
          · intro c hc
            have hcc : c ∈ k.2 :: st.closed := by
              rcases List.mem_cons.1 hc with e | hc
              · rw [e]; simp
              · exact List.mem_cons_of_mem _ (hE c hc).1
            refine ⟨by rw [b5]; exact hcc, ?_⟩
            intro v hv hv' hp
            rw [b5] at hv'
            rw [b2 c hcc]
            rw [hfr c hcc] at hp
            by_cases ec : c = k.2
            · rw [ec] at hv hp ⊢
              refine b3 v ((keep_facts e').2 v ?_ hp)
              rw [List.mem_filter]
              exact ⟨hv, by simpa using hv'⟩
            · have hcE : c ∈ E := by
                rcases List.mem_cons.1 hc with e | hc
                · exact absurd e ec
                · exact hc
              exact le_trans (b1 v) ((hE c hcE).2 v hv (fun hm => hv' (List.mem_cons_of_mem _ hm)) hp)
          · have : ({ st with queue := q, closed := k.2 :: st.closed } : St).queue.length = q.length := rfl
            omega

theorem start_queue (g : Grid) (r : Rules) (dests : List Nat) : ∀ (l : List Nat) (st : St),
    (l.foldl (addSource g r dests) st).queue.length ≤ st.queue.length + l.length
  | [], _ => Nat.le_refl _
  | s :: l, st => by
    rw [List.foldl_cons]
    have := start_queue g r dests l (addSource g r dests st s)
    have h2 : (addSource g r dests st s).queue.length ≤ st.queue.length + 1 := insert_length _ _
    simp only [List.length_cons]
    omega

/-- C112: the search ends. It makes no more rounds than there are sources and links between nodes, and one. -/
theorem C112_ends {g : Grid} {r : Rules} {src dests : List Nat} {sym : List Wire} {cost cost2 : Nat → Rat} {back : Nat → Option Nat}
    {fuel : Nat} (hs : Sound g r) (hsrc : ∀ s ∈ src, s < g.size)
    (hf : src.length + ((List.range g.size).map (fun u => (near g u).length)).sum < fuel) :
    astar g r src dests sym cost cost2 back fuel ≠ .running := by
  have h := search_ends (sym := sym) hs fuel (E := []) (inv_start (dests := dests) hsrc cost cost2 back) (by intro c hc; simp at hc)
    (by
      have h1 := start_queue g r dests src
        { cost := cost, cost2 := cost2, parent := fun _ => none, back := back, queue := [], closed := src.reverse }
      have h2 : pend g (List.range g.size) [] = ((List.range g.size).map (fun u => (near g u).length)).sum := by simp [pend]
      rw [h2]
      unfold start
      simp only [List.length_nil] at h1
      omega)
  unfold astar
  cases he : search g r src dests sym fuel (start g r src dests cost cost2 back) with
  | fault => simp
  | running => exact absurd he h
  | failed => simp
  | found st c =>
    simp only
    split <;> simp

/-! ### Concrete runs -/

/-- Two tracks: nodes 0, 1 on the horizontal layer 0 and nodes 2, 3 on the vertical layer 1, with a via between 1 and 2. -/
def small (free : Bool) : Grid where
  size := 4
  vert := fun i =>
    if i = 0 then ⟨0, 0, 0, true, true, true, [], [], [1], [], none, none⟩
    else if i = 1 then ⟨10, 0, 0, true, true, true, [], [], [], [0], some 2, none⟩
    else if i = 2 then ⟨10, 0, 1, true, true, free, [3], [], [], [], none, some 1⟩
    else ⟨10, 10, 1, true, true, true, [], [2], [], [], none, none⟩
  centerX := 5
  centerY := 5

/-- Horizontal and vertical layers in turn. -/
def smallRules : Rules where
  horizontal := fun m => decide (m % 2 = 0)
  minL := fun _ => 10
  viaWidth := fun _ => 4
  viaHeight := fun _ => 4
  viaGapX := fun _ => 4
  viaGapY := fun _ => 4
  unitR := fun _ => 1
  viaR := fun _ => 20

theorem small_sound (free : Bool) : Sound (small free) smallRules := by
  constructor <;>
  · intro v n hv h
    have hv4 : v < 4 := hv
    have : v = 0 ∨ v = 1 ∨ v = 2 ∨ v = 3 := by omega
    rcases this with rfl | rfl | rfl | rfl <;> simp [small] at h <;> subst h <;> simp [small, smallRules]

example : ∀ s ∈ [0], s < (small true).size := by decide +kernel

/-- The path goes along the first track, up the via and along the second. -/
example : astar (small true) smallRules [0] [3] [] (fun _ => 1000000) (fun _ => 1000000) (fun _ => none) 20 = .path [0, 1, 2, 3] := by
  decide +kernel

/-- Where the via may not land from above, there is no path. -/
example : astar (small false) smallRules [0] [3] [] (fun _ => 1000000) (fun _ => 1000000) (fun _ => none) 20 = .noPath := by
  decide +kernel

example : [0].length + ((List.range (small true).size).map (fun u => (near (small true) u).length)).sum < 20 := by decide +kernel

end Verif.AStar

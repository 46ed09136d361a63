import Mathlib.Data.List.Basic
import Mathlib.Data.List.Nodup
import Mathlib.Data.Rat.Defs
import Mathlib.Algebra.Order.Field.Rat
import Mathlib.Algebra.Order.Ring.Abs
import Mathlib.Algebra.BigOperators.Group.List.Basic
import Mathlib.Tactic.Ring
import Mathlib.Tactic.FieldSimp
import Mathlib.Tactic.Linarith

/-!
# C83: charge flow for the placer

Model of the part for `ChargeFlow` of `PnRConstraintWriter.map_valid_const` (align/pnr/write_constraint.py 179-231).

Simplifications: numbers are rational; `sqrt` is a parameter; the set of the pins of a net is listed in an order that is a
parameter; each list of currents has as many entries as there are times (checked when the constraint is read,
align/schema/constraint.py 1350).  The two loops over sinks and sources are one loop over their pairs.
-/

namespace Verif.Charge

abbrev Pin := String

/-- The constraint: times, and the current of each pin at each time. -/
structure Flow where
  time : List Rat
  cur : List (Pin × List Rat)

/-- An instance with its pairs of pin and net. -/
structure Inst where
  name : String
  conn : List (String × String)

/-- `nets` (181-190): the nets that are not of power, ground or clock. -/
def nets (pg : List String) (insts : List Inst) : List String :=
  ((insts.flatMap fun x => x.conn.map Prod.snd).filter fun n => !pg.contains n).eraseDups

/-- The pins on a net. -/
def pinsOf (insts : List Inst) (n : String) : List Pin :=
  (insts.flatMap fun x => (x.conn.filter fun pn => decide (pn.2 = n)).map fun pn => x.name ++ "/" ++ pn.1).eraseDups

/-- `pc` (193-196) -/
def given (k : Flow) (pins : List Pin) : List (Pin × List Rat) :=
  pins.filterMap fun p => (k.cur.lookup p).map fun c => (p, c)

/-- The current at a time. -/
def at' (i : Nat) (pc : Pin × List Rat) : Rat := pc.2.getD i 0

/-- `sumc` (202-206) -/
def sumc (pc : List (Pin × List Rat)) (i : Nat) : Rat := ((pc.filter fun x => decide (0 ≤ at' i x)).map (at' i)).sum

abbrev PP := List ((Pin × Pin) × List Rat)

/-- Assignment of one entry of a list in the dictionary. -/
def update (pp : PP) (k : Pin × Pin) (i : Nat) (v : Rat) : PP := pp.map fun e => if e.1 = k then (e.1, e.2.set i v) else e

/-- 211-216 -/
def setPair (T : Nat) (pp : PP) (src snk : Pin) (i : Nat) (v : Rat) : PP :=
  let pp := if (pp.lookup (src, snk)).isNone && (pp.lookup (snk, src)).isNone then pp ++ [((src, snk), List.replicate T 0)] else pp
  if (pp.lookup (src, snk)).isSome then update pp (src, snk) i v else update pp (snk, src) i v

/-- The steps of the loops (199, 209, 210): time, sink, source. -/
def jobs (T : Nat) (pc : List (Pin × List Rat)) : List (Nat × (Pin × List Rat) × (Pin × List Rat)) :=
  (List.range T).flatMap fun i => (pc.filter fun x => !decide (0 ≤ at' i x)).flatMap fun snk =>
    (pc.filter fun x => decide (0 ≤ at' i x)).map fun src => (i, snk, src)

/-- One step; `none` is a division by zero. -/
def job (T : Nat) (pc : List (Pin × List Rat)) (pp : PP) (j : Nat × (Pin × List Rat) × (Pin × List Rat)) : Option PP :=
  if sumc pc j.1 = 0 then none
  else some (setPair T pp j.2.2.1 j.2.1.1 j.1 (|at' j.1 j.2.1| * at' j.1 j.2.2 / sumc pc j.1))

/-- `ppcurrents` (198-216) -/
def pairs (T : Nat) (pc : List (Pin × List Rat)) : Option PP := (jobs T pc).foldlM (job T pc) []

/-- Line 219; `none` is a division by zero or the root of a negative number. -/
def rms (sqrt : Rat → Rat) (time : List Rat) (x : List Rat) : Option Rat :=
  let d := time.getD (time.length - 1) 0 - time.getD 0 0
  if d = 0 then none else
    let q := ((List.range (time.length - 1)).map fun i =>
      (time.getD (i + 1) 0 - time.getD i 0) * (x.getD i 0 + x.getD (i + 1) 0) ^ 2 / 4).sum / d
    if q < 0 then none else some (sqrt q)

/-- One net (193-222) -/
def flowNet (sqrt : Rat → Rat) (k : Flow) (pins : List Pin) : Option (List ((Pin × Pin) × Rat)) :=
  (pairs k.time.length (given k pins)).bind fun pp => pp.mapM fun e => (rms sqrt k.time e.2).map fun v => (e.1, v)

/-- One constraint: the nets that have pairs. -/
def flow (sqrt : Rat → Rat) (order : List Pin → List Pin) (pg : List String) (insts : List Inst) (k : Flow) :
    Option (List (String × List ((Pin × Pin) × Rat))) :=
  ((nets pg insts).mapM fun n => (flowNet sqrt k (order (pinsOf insts n))).map fun r => (n, r)).map
    fun l => l.filter fun e => !e.2.isEmpty

abbrev Out := List (List (String × List ((Pin × Pin) × Rat)))

/-- All values. -/
def values (o : Out) : List Rat := o.flatMap fun c => c.flatMap fun n => n.2.map Prod.snd

/-- `maxrmsc` (56, 222) -/
def top (o : Out) : Rat := (values o).foldl max (-1)

/-- 226-231 -/
def scale (o : Out) : Out :=
  if 0 < top o then o.map fun c => c.map fun n => (n.1, n.2.map fun e => (e.1, e.2 / top o)) else o

/-- All constraints `ChargeFlow` of a module. -/
def charge (sqrt : Rat → Rat) (order : List Pin → List Pin) (pg : List String) (insts : List Inst) (ks : List Flow) : Option Out :=
  (ks.mapM (flow sqrt order pg insts)).map scale

end Verif.Charge

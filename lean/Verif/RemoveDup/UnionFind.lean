/-!
# Model of `UnionFind` in `align/cell_fabric/remove_duplicates.py`

Objects are numbered in order of creation; `dad i` is the number of the object `i.dad`. An object not created yet
is its own dad. The `while` loops carry fuel; `Verif.RemoveDup.C12_root_terminates` shows that the number of
objects is enough fuel in every reachable state.
-/

namespace Verif.RemoveDup

/-- The heap of union-find objects: how many exist, and their `dad` attributes. -/
structure UF where
  n : Nat
  dad : Nat → Nat

/-- Assignment `i.dad = v`. -/
def setDad (dad : Nat → Nat) (i v : Nat) : Nat → Nat := fun j => if j = i then v else dad j

/-- `remove_duplicates.py:15-17`, first loop of `root`; `none` when the fuel runs out. -/
def findRoot (dad : Nat → Nat) : Nat → Nat → Option Nat
  | 0, _ => none
  | fuel + 1, x => if dad x = x then some x else findRoot dad fuel (dad x)

/-- `remove_duplicates.py:20-22`, path compression. The tuple assignment `x.dad,x = root,x.dad` evaluates its right
side first. -/
def compress (root : Nat) : Nat → (Nat → Nat) → Nat → Option (Nat → Nat)
  | 0, _, _ => none
  | fuel + 1, dad, x =>
    if dad x = x then some dad else compress root fuel (setDad dad x root) (dad x)

/-- `remove_duplicates.py:14-24`, `root`, with its effect on the heap. -/
def UF.root (u : UF) (x : Nat) : Option (UF × Nat) := do
  let r ← findRoot u.dad (u.n + 1) x
  let dad ← compress r (u.n + 1) u.dad x
  some (⟨u.n, dad⟩, r)

/-- `remove_duplicates.py:26-27`, `connect`: the right side `self.root()` is evaluated first, then
`other.root()`, then the assignment. -/
def UF.connect (u : UF) (self other : Nat) : Option UF := do
  let (u1, rs) ← u.root self
  let (u2, ro) ← u1.root other
  some ⟨u2.n, setDad u2.dad ro rs⟩

/-- `remove_duplicates.py:11-12`, creation of an object: its own dad. -/
def UF.new (u : UF) : UF := ⟨u.n + 1, setDad u.dad u.n u.n⟩

/-- No objects. -/
def UF.init : UF := ⟨0, id⟩

/-- The operations a client performs. -/
inductive Op
  | new
  | root (x : Nat)
  | connect (self other : Nat)
deriving DecidableEq, Repr

/-- One operation; only existing objects can be passed. -/
def UF.exec (u : UF) : Op → Option UF
  | .new => some u.new
  | .root x => if x < u.n then (u.root x).map Prod.fst else none
  | .connect a b => if a < u.n ∧ b < u.n then u.connect a b else none

/-- A history of operations. -/
def UF.run (u : UF) : List Op → Option UF
  | [] => some u
  | o :: os => (u.exec o).bind fun u' => u'.run os

end Verif.RemoveDup

import Verif.Util.Sort

/-!
# Checkpoints of ALIGN lists and of the constraint database

Model of `align/schema/types.py` (class `List`: 119-205) and of
`align/schema/constraint.py` (class `ConstraintDB`: 1512-1559).
-/

namespace Verif.Schema

/-! ## `types.List` -/

/-- The state of a `types.List` (types.py:119-125): its items and the dictionary of commits from
commit name to the length at the time of the commit.  The ordered dictionary is represented by the
list of its entries, **newest first** (`popitem()` and `next(reversed(...))` both look at the newest
entry). -/
structure LState (α : Type) where
  items : List α
  commits : List (String × Nat)

/-- The public operations which grow or restore a list.  `checkpoint id` is `checkpoint()` where
`_gen_commit_id` has drawn the random name `id`. -/
inductive LOp (α : Type) where
  | append (x : α)
  | extend (xs : List α)
  | checkpoint (id : String)
  | revert (name : Option String)

/-- `List.revert` with `List._revert` (types.py:188-200).  `none` is a failed assertion.
`_revert` pops the newest commit and deletes `self[length:]`. -/
def revertAux {α : Type} (name : Option String) : List (String × Nat) → List α → Option (LState α)
  | [], _ => none
  | (k, n) :: rest, items =>
    if name = none ∨ name = some k then some ⟨items.take n, rest⟩
    else if ((k, n) :: rest).any (fun c => name == some c.1) then
      revertAux name rest (items.take n)
    else none

/-- `append` (types.py:138-139), `extend` (141-143), `checkpoint` (184-186) and `revert`.
`_gen_commit_id` (179-182) draws again until the name is new, so a name in use is impossible
(`none`). -/
def LState.step {α : Type} (s : LState α) : LOp α → Option (LState α)
  | .append x => some { s with items := s.items ++ [x] }
  | .extend xs => some { s with items := xs.foldl (fun l x => l ++ [x]) s.items }
  | .checkpoint id =>
    if s.commits.any (fun c => c.1 == id) then none
    else some { s with commits := (id, s.items.length) :: s.commits }
  | .revert name => revertAux name s.commits s.items

/-- A history: an operation which raises leaves the list as it was. -/
def LState.exec {α : Type} (s : LState α) (op : LOp α) : LState α := (s.step op).getD s

/-! ## `ConstraintDB` -/

/-- What the constraint database needs to know of constraints: their printed form, and whether they
have a `translate` method (and hence formulas for the solver). -/
structure Kind (κ : Type) where
  repr : κ → String
  translates : κ → Bool

/-- The state of a `ConstraintDB` with the checker of its parent.
`cache` is `_cache` (a set of printed constraints); `solver` is `parent._checker`, if there is one,
represented by its stack of frames (newest first), each frame listing the constraints whose formulas
have been asserted in it.  The formulas of the sub-circuit itself (bounding boxes and elements) are
not listed: they are the same at all times. -/
structure DB (κ : Type) where
  items : List κ
  commits : List (String × Nat)
  cache : List String
  solver : Option (List (List κ))

/-- `SubCircuit.verify()` without a constraint (subcircuit.py:103-110): a new checker with the
formulas of all constraints in the database; z3's answer is the parameter `sat`.
(`types.List.translate`, types.py:202-204, with `cast_to_solver`, 46-55; a constraint whose
`translate` yields nothing raises there and is taken to have been rejected when it was made.) -/
def verifyAll {κ : Type} (K : Kind κ) (db : DB κ) : DB κ :=
  { db with solver := some [db.items.filter K.translates] }

/-- "If there is no checker, `verify()`" (constraint.py:1518-1519, 1551-1552). -/
def DB.ready {κ : Type} (K : Kind κ) (db : DB κ) : DB κ :=
  if db.solver.isNone then verifyAll K db else db

/-- All constraints asserted in a solver. -/
def asserted {κ : Type} (fs : List (List κ)) : List κ := fs.flatten

/-- `verify(constraint=c)` adds the formulas of `c` to the newest frame (subcircuit.py:111-116). -/
def assertIn {κ : Type} (c : κ) : List (List κ) → List (List κ)
  | [] => [[c]]
  | f :: fs => (f ++ [c]) :: fs

/-- `ConstraintDB.append` (constraint.py:1515-1525).  The result is the new state and whether the
call returned normally; it raises `SolutionNotFoundError` when the solver (`sat`) finds no solution,
in which case formulas asserted so far stay asserted. -/
def DB.append {κ : Type} (K : Kind κ) (sat : List κ → Bool) (db : DB κ) (c : κ) : DB κ × Bool :=
  if db.cache.contains (K.repr c) then (db, true)
  else if K.translates c then
    let db0 := db.ready K
    let fs0 := db0.solver.getD []
    if db.solver.isNone && !sat (asserted fs0) then (db0, false)
    else
      let fs := assertIn c fs0
      if sat (asserted fs) then
        ({ db0 with items := db0.items ++ [c], cache := K.repr c :: db0.cache, solver := some fs }, true)
      else ({ db0 with solver := some fs }, false)
  else ({ db with items := db.items ++ [c], cache := K.repr c :: db.cache }, true)

/-- `ConstraintDB.remove` (constraint.py:1527-1529, types.py:145-146); `ValueError` if absent. -/
def DB.remove {κ : Type} [DecidableEq κ] (db : DB κ) (c : κ) : DB κ × Bool :=
  if c ∈ db.items then ({ db with items := db.items.erase c }, true) else (db, false)

/-- `ConstraintDB.checkpoint` (constraint.py:1550-1555). -/
def DB.checkpoint {κ : Type} (K : Kind κ) (sat : List κ → Bool) (db : DB κ) (id : String) :
    DB κ × Bool :=
  let db0 := db.ready K
  let fs0 := db0.solver.getD []
  if db.solver.isNone && !sat (asserted fs0) then (db0, false)
  else if db.commits.any (fun c => c.1 == id) then (db, false)
  else
    ({ db0 with commits := (id, db0.items.length) :: db0.commits, solver := some ([] :: fs0) }, true)

/-- `ConstraintDB.revert` through `_revert` (constraint.py:1557-1559, types.py:188-200).  Popping a
frame of a solver without pushed frames raises. -/
def dbRevertAux {κ : Type} (name : Option String) (cache : List String) :
    List (String × Nat) → List κ → Option (List (List κ)) → Option (DB κ)
  | [], _, _ => none
  | (k, n) :: rest, items, solver =>
    if name = none ∨ name = some k then
      match solver with
      | some (_ :: f :: fs) => some ⟨items.take n, rest, cache, some (f :: fs)⟩
      | _ => none
    else if ((k, n) :: rest).any (fun c => name == some c.1) then
      match solver with
      | some (_ :: f :: fs) => dbRevertAux name cache rest (items.take n) (some (f :: fs))
      | _ => none
    else none

/-- `ConstraintDB.revert`: failure leaves the state as it was (it cannot fail half way, because the
name is looked up before the first commit is dropped and every commit has its frame). -/
def DB.revert {κ : Type} (db : DB κ) (name : Option String) : DB κ × Bool :=
  match dbRevertAux name db.cache db.commits db.items db.solver with
  | some db' => (db', true)
  | none => (db, false)

/-- The operations on a constraint database. -/
inductive DOp (κ : Type) where
  | append (c : κ)
  | checkpoint (id : String)
  | revert (name : Option String)

/-- One operation; the flag tells whether it returned normally. -/
def DB.step {κ : Type} (K : Kind κ) (sat : List κ → Bool) (db : DB κ) : DOp κ → DB κ × Bool
  | .append c => db.append K sat c
  | .checkpoint id => db.checkpoint K sat id
  | .revert name => db.revert name

/-- The empty database of a new sub-circuit (constraint.py:1531-1548, no checker yet). -/
def DB.empty {κ : Type} : DB κ := ⟨[], [], [], none⟩

end Verif.Schema

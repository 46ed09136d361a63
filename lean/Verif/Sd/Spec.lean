import Verif.Sd.Bfs

/-!
# What the correction of sources and drains should do

Distances are counted in the graph whose nodes are the elements and the nets and whose edges are the pins named S and D.
-/

namespace Verif.Sd

open Verif.Sym (Inst Sub)

/-- `b` is what a model or subcircuit stands for: a subcircuit with a single element stands for what this element stands for. -/
inductive Kind (L : Library) : String → String → Prop
  | wrapper {s : Sub} {e : Inst} {b : String} : s ∈ L.subs → s.elems = [e] → Kind L e.model b → Kind L s.name b
  | block {s : Sub} : s ∈ L.subs → s.elems.length ≠ 1 → Kind L s.name s.name
  | derived {m b : String} : (m, some b) ∈ L.models → b ≠ "" → Kind L m b
  | unnamed {m : String} : (m, some "") ∈ L.models → Kind L m m
  | root {m : String} : (m, none) ∈ L.models → Kind L m m

/-- A transistor with the pin `up` that should be towards the power and the pin `dn` that should be towards the ground. -/
def Mos (L : Library) (d : Inst) (up dn : String) : Prop :=
  (Kind L d.model "NMOS" ∧ up = "D" ∧ dn = "S") ∨ (Kind L d.model "PMOS" ∧ up = "S" ∧ dn = "D")

/-- `x` and `y` are an element and a net on its source or drain. -/
def Joined (l : List Inst) (x y : String) : Prop :=
  ∃ e ∈ l, ∃ p n, (p, n) ∈ e.pins ∧ (p = "S" ∨ p = "D") ∧ ((x = e.name ∧ y = n) ∨ (x = n ∧ y = e.name))

/-- A port that some element is connected to and that is in the list of supplies. -/
def Supply (s : Sub) (sup : List String) (x : String) : Prop := x ∈ sup ∧ x ∈ s.ports ∧ ∃ e ∈ s.elems, ∃ p, (p, x) ∈ e.pins

/-- A walk from the power that does not enter the ground. -/
def FromPower (s : Sub) (power gnd : List String) : Nat → String → Prop :=
  Walk (Joined s.elems) (Supply s power) (· ∈ gnd)

/-- A walk from the ground that does not enter the power ports. -/
def FromGround (s : Sub) (power gnd : List String) : Nat → String → Prop :=
  Walk (Joined s.elems) (Supply s gnd) (fun x => x ∈ power ∧ x ∈ s.ports)

/-- `a` is reached, and `b` is not reached by a shorter walk. -/
def NotFarther (W : Nat → String → Prop) (a b : String) : Prop := ∃ k, W k a ∧ ∀ j, j < k → ¬ W j b

/-- `a` is reached by a shorter walk than any to `b`. -/
def Nearer (W : Nat → String → Prop) (a b : String) : Prop := ∃ k, W k a ∧ ∀ j, j ≤ k → ¬ W j b

/-- The pin at the other end of the channel. -/
def other (p : String) : String := if p = "D" then "S" else if p = "S" then "D" else p

/-- `d'` is `d` with source and drain exchanged. -/
structure Turned (d d' : Inst) : Prop where
  name : d'.name = d.name
  model : d'.model = d.model
  params : d'.params = d.params
  keys : d'.pins.map Prod.fst = d.pins.map Prod.fst
  pins : ∀ p n, (p, n) ∈ d'.pins ↔ (other p, n) ∈ d.pins

/-- Names are different as the schema demands: elements, pins of an element, elements and nets. -/
structure Good (s : Sub) (power gnd : List String) : Prop where
  names : (s.elems.map Inst.name).Nodup
  pins : ∀ e ∈ s.elems, (e.pins.map Prod.fst).Nodup
  nets : ∀ e ∈ s.elems, ∀ d ∈ s.elems, ∀ p n, (p, n) ∈ d.pins → n ≠ e.name
  supplies : ∀ e ∈ s.elems, e.name ∉ power ∧ e.name ∉ gnd

/-- The names of the library are different and no subcircuit contains itself; `rank` is the level of a subcircuit. -/
structure Ordered (L : Library) : Prop where
  names : (L.subs.map Sub.name ++ L.models.map Prod.fst).Nodup
  levels : ∃ rank : String → Nat, (∀ c ∈ L.subs, rank c.name < L.subs.length) ∧
    ∀ c ∈ L.subs, ∀ e ∈ c.elems, ∀ d ∈ L.subs, d.name = e.model → rank d.name < rank c.name

/-- All models are in the library. -/
structure Complete (L : Library) (s : Sub) : Prop where
  here : ∀ e ∈ s.elems, e.model ∈ L.subs.map Sub.name ++ L.models.map Prod.fst
  below : ∀ c ∈ L.subs, ∀ e ∈ c.elems, e.model ∈ L.subs.map Sub.name ++ L.models.map Prod.fst

end Verif.Sd

import Verif.Cells.Interleave
import Verif.Util.Sort
import Verif.Pnr.Route
import Mathlib.Tactic.Ring
import Mathlib.Tactic.Linarith

/-!
# Arrays of transistors

Model of `generate_MOS_primitive` (`align/primitive/main.py` 21-83) with the array generator of the PDK,
`MOSGenerator.addMOSArray`, `mos_array`, `stamp_cell` and `place`
(`align/pdk/finfet/transistor_array.py` 83-345), up to the placed cells; the wires added by `route` are
not modelled.  The shapes inside a cell (`align/pdk/finfet/transistor.py`) are a parameter.

Simplifications: a failed assertion or another exception is `none`; dicts are lists of pairs, a later
entry overrides an earlier one; all rows have the height of the cells (7 tracks of M2, transistor.py 83).
-/

namespace Verif.Cells.Mos

/-- A transistor of the primitive: its name, and its pins with their nets. -/
structure Dev where
  name : String
  pins : List (String × String)
  deriving DecidableEq, Repr

structure R where
  llx : Int
  lly : Int
  urx : Int
  ury : Int
  deriving DecidableEq, Repr

structure Term where
  layer : String
  net : Option String
  type : String
  rect : R
  deriving DecidableEq, Repr

inductive Kind
  | fill
  | tap
  | tx1
  | tx2
  deriving DecidableEq, Repr

/-- The pitches of Poly and M2, the number of fingers, and the shapes of the cells. -/
structure Tech where
  poly : Int
  m2 : Int
  nf : Nat
  tapTerms : List Term
  tx1 : List Term
  tx2 : List Term

/-- The shapes of a cell; a filler has none (transistor.py 118-123). -/
def Tech.terms (T : Tech) : Kind → List Term
  | .fill => []
  | .tap => T.tapTerms
  | .tx1 => T.tx1
  | .tx2 => T.tx2

/-- Width of a cell (transistor.py 82, 113, 121). -/
def Tech.width (T : Tech) : Kind → Int
  | .fill => T.poly * 1
  | _ => T.poly * (2 + T.nf)

/-- Height of a cell (transistor.py 83, 114, 122). -/
def Tech.height (T : Tech) : Int := T.m2 * 7

/-- `{vv: k ...}[k]`: the last entry counts. -/
def get (pm : List (String × String)) (k : String) : Option String := pm.reverse.lookup k

structure Obj where
  kind : Kind
  pinMap : List (String × String)
  flip : Int
  deriving DecidableEq, Repr

/-- `stamp_cell` (306-332). -/
def stamp (T : Tech) (x y : Int) (o : Obj) : List Term :=
  ⟨"Boundary", none, "drawing", ⟨0 + x, 0 + y, T.width o.kind + x, T.height + y⟩⟩ ::
    (T.terms o.kind).map fun t =>
      { layer := t.layer
        net := t.net.bind (get o.pinMap)
        type := t.type
        rect := if o.flip < 0
          then ⟨x + (T.width o.kind - 0) - t.rect.urx, t.rect.lly + y,
            x + (T.width o.kind - 0) - t.rect.llx, t.rect.ury + y⟩
          else ⟨x + t.rect.llx, t.rect.lly + y, x + t.rect.urx, t.rect.ury + y⟩ }

/-- One row of `place` (341-345): the shapes, and the final `x_offset`. -/
def placeRow (T : Tech) (y : Int) : Int → List Obj → List Term × Int
  | x, [] => ([], x)
  | x, o :: os =>
    let r := placeRow T y (x + T.width o.kind) os
    (stamp T x y o ++ r.1, r.2)

/-- `place` (334-351): the shapes, the final `x_offset` and `y_offset`. -/
def placeRows (T : Tech) : Int → Int → List (List Obj) → List Term × Int × Int
  | xl, y, [] => ([], xl, y)
  | _, y, row :: rows =>
    let a := placeRow T y 0 row
    let r := placeRows T a.2 (y + T.height) rows
    (a.1 ++ r.1, r.2)

/-- `connections` (main.py 76-79): per pin of the primitive the pins of devices on it. -/
def connect (pins : List String) (devs : List Dev) :
    Option (List (String × List (String × String))) :=
  if devs.all (fun d => d.pins.all (fun p => decide (p.2 ∈ pins))) then
    some (pins.map fun p => (p, devs.flatMap fun d =>
      (d.pins.filter (fun x => x.2 = p)).map fun x => (d.name, x.1)))
  else none

/-- `find_ports` (134-137). -/
def findPorts (conns : List (String × List (String × String))) (i : String) :
    List (String × String) :=
  conns.flatMap fun c => c.2.filterMap fun x => if x.1 = i then some (x.2, c.1) else none

/-- `element_names` (139). -/
def elementNames (conns : List (String × List (String × String))) : List String :=
  pySort (fun a b => decide (a ≤ b)) ((conns.flatMap fun c => c.2.map (·.1)).eraseDups)

/-- The check of the terminals (`align/schema/transistor.py` 46-53). -/
def legalPorts (pm : List (String × String)) : Bool :=
  ["S", "D", "G"].all (fun k => (get pm k).isSome) &&
    pm.all (fun p => decide (p.1 ∈ ["S", "D", "G", "B"]))

/-- `tr` (250-253). -/
def owner : Char → Option (Nat × Int)
  | 'A' => some (1, 1)
  | 'a' => some (1, -1)
  | 'B' => some (2, 1)
  | 'b' => some (2, -1)
  | _ => none

/-- The cell for one entry of the interleaving array (258-270). -/
def unitObj (p1 : List (String × String)) (p2 : Option (List (String × String))) (y : Nat) (c : Char) :
    Option Obj :=
  (owner c).bind fun o => (if o.1 = 1 then some p1 else p2).map fun pm =>
    { kind :=
        if p2.isSome then
          if o.1 = 2 then (if y % 2 = 0 then .tx2 else .tx1) else (if y % 2 = 0 then .tx1 else .tx2)
        else .tx1
      pinMap := pm
      flip := o.2 }

/-- What the user sets: the number of the pattern in `pattern_map`, the template of the interleaving,
whether a row of taps is added. -/
structure Cfg where
  input : Option Nat
  template : Option (List (List Char))
  addTap : Bool

/-- The pattern and the number of columns (main.py 52-64); all devices have the same parameters
(gen_param.py 141-144). -/
def pattern (input : Option Nat) (n x : Nat) : Nat × Nat :=
  let p := input.getD (if n = 1 then 0 else 1)
  if n = 2 then (if 2 * x % 4 ≠ 0 then 2 else p, 2 * x) else (p, x)

/-- The rows of cells (232-275). -/
def makeRows (cfg : Cfg) (p1 : List (String × String)) (p2 : Option (List (String × String)))
    (r c : Nat) (a : List (List Char)) : Option (List (List Obj)) :=
  ((List.range r).mapM fun y => ((List.range c).mapM fun x =>
      (a[y]?.bind (·[x]?)).bind (unitObj p1 p2 y)).map fun us =>
        (⟨.fill, [], 1⟩ : Obj) :: us ++ [⟨.fill, [], 1⟩]).map fun rows =>
    (if cfg.addTap then
      [(⟨.fill, [], 1⟩ : Obj) :: (List.range c).map (fun _ => ⟨.tap, [("B", (get p1 "B").getD "B")], 1⟩)
        ++ [⟨.fill, [], 1⟩]]
    else []) ++ rows

/-- `mos_array` (181-278): the shapes, and the bounding box. -/
def mosArray (T : Tech) (cfg : Cfg) (p1 : List (String × String))
    (p2 : Option (List (String × String))) (r c : Nat) : Option (List Term × R) :=
  (interleavePattern r c (cfg.template.getD (if p2.isSome then defaultTemplate else [['A']]))).bind
    fun a => (makeRows cfg p1 p2 r c a).map fun rows =>
      let o := placeRows T 0 0 rows
      (o.1, ⟨0, 0, o.2.1, o.2.2⟩)

/-- From the primitive to the placed cells (main.py 52-83, transistor_array.py 103-171): `m` units of
each device, `x` by `y` cells asked for. -/
def draw (T : Tech) (cfg : Cfg) (pins : List String) (devs : List Dev) (m x y : Nat) :
    Option (List Term × R) :=
  let pc := pattern cfg.input devs.length x
  (connect pins devs).bind fun conns =>
    if pc.1 ≤ 2 then
      ((elementNames conns)[0]?).bind fun n1 =>
        let p1 := findPorts conns n1
        let p2 := ((elementNames conns)[1]?).bind fun n2 =>
          if ((findPorts conns n2).map (·.1)).eraseDups.length > 1 then some (findPorts conns n2) else none
        if legalPorts p1 && p2.all legalPorts then
          let cells := if pc.1 > 0 then 2 * m else m
          (validateArray cells y pc.2).bind fun rc =>
            if rc.1 * rc.2 ≠ cells then none else mosArray T cfg p1 p2 rc.1 rc.2
        else none
    else none

/-! ## Specification -/

/-- Lower left corner of unit `x` of row `y` of the array: rows are stacked, the row of taps below; a
filler is left of the units. -/
def corner (T : Tech) (cfg : Cfg) (y x : Nat) : Int × Int :=
  (T.poly + x * (T.poly * (2 + T.nf)), (y + if cfg.addTap then 1 else 0) * (7 * T.m2))

/-- Rectangle `r` of a cell in a cell of width `w` with lower left corner `p`, mirrored or not. -/
def put (p : Int × Int) (w : Int) (mirrored : Bool) (r : R) : R :=
  if mirrored then ⟨p.1 + w - r.urx, p.2 + r.lly, p.1 + w - r.llx, p.2 + r.ury⟩
  else ⟨p.1 + r.llx, p.2 + r.lly, p.1 + r.urx, p.2 + r.ury⟩

/-- A unit of the array: the device it belongs to, which of the two cells, mirrored or not. -/
structure Unit where
  dev : Dev
  second : Bool
  mirrored : Bool

/-- `t` is a shape of a unit: a shape of the cell, put in place, on the net of the pin of the device. -/
def UnitShape (T : Tech) (p : Int × Int) (u : Unit) (t : Term) : Prop :=
  ∃ s ∈ (if u.second then T.tx2 else T.tx1), t.layer = s.layer ∧ t.type = s.type ∧
    t.rect = put p (T.poly * (2 + T.nf)) u.mirrored s.rect ∧
    t.net = s.net.bind fun pin => u.dev.pins.lookup pin

/-- `t` is a shape of a tap in column `x`, its body pin on net `b`. -/
def TapShape (T : Tech) (x : Nat) (b : String) (t : Term) : Prop :=
  ∃ s ∈ T.tapTerms, t.layer = s.layer ∧ t.type = s.type ∧
    t.rect = put (T.poly + x * (T.poly * (2 + T.nf)), 0) (T.poly * (2 + T.nf)) false s.rect ∧
    t.net = s.net.bind fun pin => if pin = "B" then some b else none

/-- `t` marks the boundary of cell `j` of row `i`; the first and the last cell are fillers. -/
def BoundaryShape (T : Tech) (c i j : Nat) (t : Term) : Prop :=
  t.layer = "Boundary" ∧ t.net = none ∧ t.type = "drawing" ∧
    t.rect = ⟨if j = 0 then 0 else T.poly + ((j : Int) - 1) * (T.poly * (2 + T.nf)), i * (7 * T.m2),
      if j = 0 then T.poly else if j = c + 1 then 2 * T.poly + c * (T.poly * (2 + T.nf))
        else T.poly + j * (T.poly * (2 + T.nf)), (i + 1) * (7 * T.m2)⟩

/-- Transistors: the pins have different names, which are D, G, S and perhaps B. -/
def Mosfet (d : Dev) : Prop :=
  (d.pins.map (·.1)).Nodup ∧ "D" ∈ d.pins.map (·.1) ∧ "G" ∈ d.pins.map (·.1) ∧ "S" ∈ d.pins.map (·.1) ∧
    ∀ p ∈ d.pins.map (·.1), p ∈ ["S", "D", "G", "B"]

/-! ## Proofs -/

theorem lookup_iff {l : List (String × String)}
    (hf : ∀ k a b, (k, a) ∈ l → (k, b) ∈ l → a = b) (k v : String) :
    l.lookup k = some v ↔ (k, v) ∈ l := by
  induction l with
  | nil => simp
  | cons p l ih =>
    obtain ⟨k', v'⟩ := p
    have ih := ih (fun k a b ha hb => hf k a b (List.mem_cons_of_mem _ ha) (List.mem_cons_of_mem _ hb))
    by_cases h : k = k'
    · subst h
      rw [List.lookup_cons_self, Option.some.injEq]
      constructor
      · rintro rfl
        exact List.mem_cons_self ..
      · exact fun hm => hf k v' v (List.mem_cons_self ..) hm
    · have : (k == k') = false := by simpa using h
      simp only [List.lookup_cons, this, ih, List.mem_cons, Prod.mk.injEq, h, false_and, false_or]

theorem functional_of_nodup {l : List (String × String)} (hn : (l.map (·.1)).Nodup) :
    ∀ k a b, (k, a) ∈ l → (k, b) ∈ l → a = b := by
  intro k a b ha hb
  have := List.inj_on_of_nodup_map hn ha hb rfl
  exact (Prod.mk.inj this).2

theorem mem_conns {pins : List String} {devs : List Dev}
    {conns : List (String × List (String × String))} (h : connect pins devs = some conns)
    (net n f : String) : (∃ c ∈ conns, c.1 = net ∧ (n, f) ∈ c.2) ↔
      ∃ d ∈ devs, d.name = n ∧ (f, net) ∈ d.pins := by
  unfold connect at h
  split at h
  · rename_i hall
    cases h
    constructor
    · rintro ⟨c, hc, rfl, hm⟩
      obtain ⟨p, _, rfl⟩ := List.mem_map.1 hc
      obtain ⟨d, hd, hx⟩ := List.mem_flatMap.1 hm
      obtain ⟨x, hx1, hx2⟩ := List.mem_map.1 hx
      obtain ⟨hx3, hx4⟩ := List.mem_filter.1 hx1
      simp only [Prod.mk.injEq] at hx2
      refine ⟨d, hd, hx2.1, ?_⟩
      rw [← hx2.2, show (p : String) = x.2 from (of_decide_eq_true hx4).symm]
      exact hx3
    · rintro ⟨d, hd, rfl, hp⟩
      have hin : net ∈ pins := by
        rw [List.all_eq_true] at hall
        have := hall d hd
        rw [List.all_eq_true] at this
        exact of_decide_eq_true (this _ hp)
      refine ⟨_, List.mem_map.2 ⟨net, hin, rfl⟩, rfl, List.mem_flatMap.2 ⟨d, hd, ?_⟩⟩
      exact List.mem_map.2 ⟨(f, net), List.mem_filter.2 ⟨hp, by simp⟩, rfl⟩
  · cases h

theorem mem_findPorts {conns : List (String × List (String × String))} {i f net : String} :
    (f, net) ∈ findPorts conns i ↔ ∃ c ∈ conns, c.1 = net ∧ (i, f) ∈ c.2 := by
  unfold findPorts
  rw [List.mem_flatMap]
  constructor
  · rintro ⟨c, hc, hm⟩
    obtain ⟨⟨a, b⟩, hx, hy⟩ := List.mem_filterMap.1 hm
    dsimp only at hy
    split at hy
    · rename_i ha
      cases hy
      subst ha
      exact ⟨c, hc, rfl, hx⟩
    · cases hy
  · rintro ⟨c, hc, rfl, hm⟩
    exact ⟨c, hc, List.mem_filterMap.2 ⟨(i, f), hm, by simp⟩⟩

theorem mem_ports {pins : List String} {devs : List Dev}
    {conns : List (String × List (String × String))} (h : connect pins devs = some conns)
    (hu : (devs.map (·.name)).Nodup) {d : Dev} (hd : d ∈ devs) (f net : String) :
    (f, net) ∈ findPorts conns d.name ↔ (f, net) ∈ d.pins := by
  rw [mem_findPorts, mem_conns h]
  constructor
  · rintro ⟨e, he, hn, hp⟩
    rwa [List.inj_on_of_nodup_map hu he hd hn] at hp
  · exact fun hp => ⟨d, hd, rfl, hp⟩

/-- The ports found for a device are its pins. -/
theorem get_ports {pins : List String} {devs : List Dev}
    {conns : List (String × List (String × String))} (h : connect pins devs = some conns)
    (hu : (devs.map (·.name)).Nodup) {d : Dev} (hd : d ∈ devs) (hm : (d.pins.map (·.1)).Nodup)
    (f : String) : get (findPorts conns d.name) f = d.pins.lookup f := by
  apply Option.ext
  intro net
  have hfun := functional_of_nodup hm
  unfold get
  rw [lookup_iff hfun, lookup_iff, List.mem_reverse, mem_ports h hu hd]
  intro k a b ha hb
  rw [List.mem_reverse, mem_ports h hu hd] at ha hb
  exact hfun k a b ha hb

theorem mem_elementNames {pins : List String} {devs : List Dev}
    {conns : List (String × List (String × String))} (h : connect pins devs = some conns)
    (hm : ∀ d ∈ devs, Mosfet d) (n : String) :
    n ∈ elementNames conns ↔ n ∈ devs.map (·.name) := by
  unfold elementNames
  rw [mem_pySort, List.mem_eraseDups, List.mem_flatMap, List.mem_map]
  constructor
  · rintro ⟨c, hc, hx⟩
    obtain ⟨⟨a, f⟩, ha, rfl⟩ := List.mem_map.1 hx
    obtain ⟨d, hd, hn, _⟩ := (mem_conns h c.1 a f).1 ⟨c, hc, rfl, ha⟩
    exact ⟨d, hd, hn⟩
  · rintro ⟨d, hd, rfl⟩
    obtain ⟨⟨f, net⟩, hp, _⟩ := List.mem_map.1 (hm d hd).2.1
    obtain ⟨c, hc, _, hx⟩ := (mem_conns h net d.name f).2 ⟨d, hd, rfl, hp⟩
    exact ⟨c, hc, List.mem_map.2 ⟨_, hx, rfl⟩⟩

theorem nodup_elementNames (conns : List (String × List (String × String))) :
    (elementNames conns).Nodup := by
  unfold elementNames
  exact (pySort_perm _).nodup_iff.2 (Route.nodup_eraseDups _ _ (Nat.le_refl _))

theorem elementNames_perm {pins : List String} {devs : List Dev}
    {conns : List (String × List (String × String))} (h : connect pins devs = some conns)
    (hu : (devs.map (·.name)).Nodup) (hm : ∀ d ∈ devs, Mosfet d) :
    (elementNames conns).Perm (devs.map (·.name)) :=
  (List.perm_ext_iff_of_nodup (nodup_elementNames conns) hu).2 (mem_elementNames h hm)

theorem stamp_mem {T : Tech} {x y : Int} {o : Obj} {t : Term} : t ∈ stamp T x y o ↔
    t = ⟨"Boundary", none, "drawing", ⟨x, y, x + T.width o.kind, y + T.height⟩⟩ ∨
    ∃ s ∈ T.terms o.kind, t.layer = s.layer ∧ t.type = s.type ∧
      t.rect = put (x, y) (T.width o.kind) (decide (o.flip < 0)) s.rect ∧
      t.net = s.net.bind (get o.pinMap) := by
  unfold stamp
  rw [List.mem_cons, List.mem_map]
  refine or_congr ?_ (exists_congr fun s => and_congr_right fun _ => ?_)
  · rw [show (⟨0 + x, 0 + y, T.width o.kind + x, T.height + y⟩ : R) =
      ⟨x, y, x + T.width o.kind, y + T.height⟩ by simp only [R.mk.injEq]; refine ⟨?_, ?_, ?_, ?_⟩ <;> ring]
  · obtain ⟨l, n, ty, rc⟩ := t
    simp only [Term.mk.injEq]
    have : (if o.flip < 0 then
        (⟨x + (T.width o.kind - 0) - s.rect.urx, s.rect.lly + y,
          x + (T.width o.kind - 0) - s.rect.llx, s.rect.ury + y⟩ : R)
        else ⟨x + s.rect.llx, s.rect.lly + y, x + s.rect.urx, s.rect.ury + y⟩) =
        put (x, y) (T.width o.kind) (decide (o.flip < 0)) s.rect := by
      unfold put
      by_cases hf : o.flip < 0
      · simp only [hf, if_true, decide_true, R.mk.injEq]
        refine ⟨?_, ?_, ?_, ?_⟩ <;> omega
      · simp only [hf, if_false, decide_false, Bool.false_eq_true, R.mk.injEq]
        refine ⟨?_, ?_, ?_, ?_⟩ <;> first | trivial | omega
    rw [this]
    constructor
    · rintro ⟨h1, h2, h3, h4⟩
      exact ⟨h1.symm, h3.symm, h4.symm, h2.symm⟩
    · rintro ⟨h1, h2, h3, h4⟩
      exact ⟨h1.symm, h4.symm, h2.symm, h3.symm⟩

/-- The left end of cell `j`. -/
def leftOf (T : Tech) (os : List Obj) (j : Nat) : Int := ((os.take j).map fun o => T.width o.kind).sum

theorem placeRow_mem {T : Tech} {y : Int} {t : Term} : ∀ (os : List Obj) (x : Int),
    ((t ∈ (placeRow T y x os).1 ↔ ∃ j, ∃ h : j < os.length, t ∈ stamp T (x + leftOf T os j) y os[j])) ∧
      (placeRow T y x os).2 = x + leftOf T os os.length
  | [], x => by simp [placeRow, leftOf]
  | o :: os, x => by
    obtain ⟨i1, i2⟩ := placeRow_mem (T := T) (y := y) (t := t) os (x + T.width o.kind)
    have hl : ∀ j, x + T.width o.kind + leftOf T os j = x + leftOf T (o :: os) (j + 1) := by
      intro j
      simp only [leftOf, List.take_succ_cons, List.map_cons, List.sum_cons]
      ring
    refine ⟨?_, ?_⟩
    · simp only [placeRow, List.mem_append, i1]
      constructor
      · rintro (h | ⟨j, hj, h⟩)
        · exact ⟨0, by simp, by simpa [leftOf] using h⟩
        · refine ⟨j + 1, by simpa using hj, ?_⟩
          rw [← hl]
          exact h
      · rintro ⟨j, hj, h⟩
        cases j with
        | zero => exact Or.inl (by simpa [leftOf] using h)
        | succ j =>
          rw [← hl] at h
          exact Or.inr ⟨j, by simpa using hj, h⟩
    · simp only [placeRow, i2, hl, List.length_cons]

theorem placeRows_mem {T : Tech} {t : Term} : ∀ (rows : List (List Obj)) (xl y : Int),
    (t ∈ (placeRows T xl y rows).1 ↔ ∃ i, ∃ h : i < rows.length,
      t ∈ (placeRow T (y + i * T.height) 0 rows[i]).1) ∧
    (placeRows T xl y rows).2.2 = y + rows.length * T.height ∧
    (∀ w, (∀ row ∈ rows, leftOf T row row.length = w) → rows ≠ [] → (placeRows T xl y rows).2.1 = w)
  | [], xl, y => by simp [placeRows]
  | row :: rows, xl, y => by
    obtain ⟨i1, i2, i3⟩ := placeRows_mem (T := T) (t := t) rows (placeRow T y 0 row).2 (y + T.height)
    have hh : ∀ i : Nat, y + T.height + i * T.height = y + ((i + 1 : Nat) : Int) * T.height := by
      intro i
      push_cast
      ring
    refine ⟨?_, ?_, ?_⟩
    · simp only [placeRows, List.mem_append, i1]
      constructor
      · rintro (h | ⟨j, hj, h⟩)
        · exact ⟨0, by simp, by simpa using h⟩
        · refine ⟨j + 1, by simpa using hj, ?_⟩
          rw [← hh]
          exact h
      · rintro ⟨j, hj, h⟩
        cases j with
        | zero => exact Or.inl (by simpa using h)
        | succ j =>
          rw [← hh] at h
          exact Or.inr ⟨j, by simpa using hj, h⟩
    · simp only [placeRows, i2, hh, List.length_cons]
    · intro w hw _
      simp only [placeRows]
      by_cases hr : rows = []
      · subst hr
        simp only [placeRows]
        rw [(placeRow_mem (t := t) row 0).2, hw row (by simp), zero_add]
      · exact i3 w (fun r h => hw r (List.mem_cons_of_mem _ h)) hr

theorem range_mapM {α : Type} {f : Nat → Option α} {n : Nat} {l : List α}
    (h : (List.range n).mapM f = some l) : l.length = n ∧ ∀ i, ∀ hi : i < l.length, f i = some l[i] := by
  have hf := Route.mapM_forall₂.1 h
  have hlen := hf.length_eq
  rw [List.length_range] at hlen
  refine ⟨hlen.symm, fun i hi => ?_⟩
  have := hf.get (i := i) (by simpa [hlen] using hi) hi
  simpa using this

/-- The unit for an entry of the interleaving array. -/
def unitFor (e1 : Dev) (e2 : Option Dev) (y : Nat) (ch : Char) : Unit :=
  { dev := if ch = 'A' ∨ ch = 'a' then e1 else e2.getD e1
    second := e2.isSome && (if ch = 'A' ∨ ch = 'a' then decide (y % 2 = 1) else decide (y % 2 = 0))
    mirrored := decide (ch = 'a' ∨ ch = 'b') }

theorem unit_obj {e1 : Dev} {e2 : Option Dev} {p1 : List (String × String)}
    {p2 : Option (List (String × String))} (h1 : ∀ f, get p1 f = e1.pins.lookup f)
    (h2 : p2.isSome = e2.isSome) (h3 : ∀ p ∈ p2, ∀ e ∈ e2, ∀ f, get p f = e.pins.lookup f)
    {y : Nat} {ch : Char} {o : Obj} (h : unitObj p1 p2 y ch = some o) :
    o.kind = (if (unitFor e1 e2 y ch).second then .tx2 else .tx1) ∧
    decide (o.flip < 0) = (unitFor e1 e2 y ch).mirrored ∧
    ∀ f, get o.pinMap f = (unitFor e1 e2 y ch).dev.pins.lookup f := by
  have hy : y % 2 = 0 ∨ y % 2 = 1 := by omega
  unfold unitObj at h
  rw [Option.bind_eq_some_iff] at h
  obtain ⟨w, hw, h⟩ := h
  rw [Option.map_eq_some_iff] at h
  obtain ⟨pm, hpm, rfl⟩ := h
  unfold owner at hw
  unfold unitFor
  split at hw
  all_goals cases hw
  · simp only [if_true, Option.some.injEq] at hpm
    subst hpm
    refine ⟨?_, by simp, by simpa using h1⟩
    rw [h2]
    cases e2.isSome <;> rcases hy with hy | hy <;> simp [hy]
  · simp only [if_true, Option.some.injEq] at hpm
    subst hpm
    refine ⟨?_, by simp, by simpa using h1⟩
    rw [h2]
    cases e2.isSome <;> rcases hy with hy | hy <;> simp [hy]
  all_goals
    simp only [OfNat.ofNat_ne_one, if_false] at hpm
    subst hpm
    cases e2 with
    | none => simp at h2
    | some e =>
      refine ⟨?_, by simp, by simpa using h3 pm rfl e rfl⟩
      rcases hy with hy | hy <;> simp [hy]

/-- The row of cells around the units. -/
def framed (us : List Obj) : List Obj := ⟨.fill, [], 1⟩ :: us ++ [⟨.fill, [], 1⟩]

theorem sum_width {T : Tech} {w : Int} : ∀ (us : List Obj), (∀ o ∈ us, T.width o.kind = w) →
    (us.map fun o => T.width o.kind).sum = us.length * w
  | [], _ => by simp
  | o :: us, h => by
    rw [List.map_cons, List.sum_cons, sum_width us (fun x hx => h x (List.mem_cons_of_mem _ hx)),
      h o (List.mem_cons_self ..), List.length_cons]
    push_cast
    ring

theorem framed_left {T : Tech} {us : List Obj} (hk : ∀ o ∈ us, o.kind ≠ .fill) :
    leftOf T (framed us) 0 = 0 ∧
    (∀ j, j ≤ us.length → leftOf T (framed us) (j + 1) = T.poly + j * (T.poly * (2 + T.nf))) ∧
    leftOf T (framed us) (framed us).length = 2 * T.poly + us.length * (T.poly * (2 + T.nf)) := by
  have hw : ∀ o ∈ us, T.width o.kind = T.poly * (2 + T.nf) := by
    intro o ho
    have := hk o ho
    unfold Tech.width
    split
    · rename_i hf
      exact absurd hf this
    · rfl
  have hfill : T.width .fill = T.poly := by simp [Tech.width]
  refine ⟨by simp [leftOf], fun j hj => ?_, ?_⟩
  · unfold leftOf framed
    rw [List.cons_append, List.take_succ_cons, List.take_append_of_le_length hj, List.map_cons,
      List.sum_cons, sum_width _ (fun o ho => hw o (List.mem_of_mem_take ho)), List.length_take,
      Nat.min_eq_left hj, hfill]
  · unfold leftOf
    rw [List.take_length]
    unfold framed
    rw [List.cons_append, List.map_cons, List.map_append, List.sum_cons, List.sum_append, sum_width _ hw]
    simp only [List.map_cons, List.map_nil, List.sum_cons, List.sum_nil, hfill]
    ring

/-- The shapes of a row. -/
theorem framed_mem {T : Tech} {y : Int} {us : List Obj} (hk : ∀ o ∈ us, o.kind ≠ .fill) {i : Nat}
    (hy : y = i * (7 * T.m2)) (t : Term) :
    t ∈ (placeRow T y 0 (framed us)).1 ↔ (∃ j < us.length + 2, BoundaryShape T us.length i j t) ∨
      ∃ x, ∃ hx : x < us.length, ∃ s ∈ T.terms us[x].kind, t.layer = s.layer ∧ t.type = s.type ∧
        t.rect = put (T.poly + x * (T.poly * (2 + T.nf)), y) (T.poly * (2 + T.nf))
          (decide (us[x].flip < 0)) s.rect ∧ t.net = s.net.bind (get us[x].pinMap) := by
  obtain ⟨l0, l1, _⟩ := framed_left (T := T) hk
  have hw : ∀ o ∈ us, T.width o.kind = T.poly * (2 + T.nf) := by
    intro o ho
    have := hk o ho
    unfold Tech.width
    split
    · rename_i hf
      exact absurd hf this
    · rfl
  have hfill : T.width .fill = T.poly := by simp [Tech.width]
  have hh : y + T.height = (i + 1) * (7 * T.m2) := by
    rw [hy]
    unfold Tech.height
    ring
  have hflen : (framed us).length = us.length + 2 := by simp [framed]
  have hget0 : ∀ h, (framed us)[0]'h = ⟨.fill, [], 1⟩ := fun h => by simp [framed]
  have hgetl : ∀ h, (framed us)[us.length + 1]'h = ⟨.fill, [], 1⟩ := fun h => by simp [framed]
  have hget : ∀ x (hx : x < us.length) h, (framed us)[x + 1]'h = us[x] := fun x hx h => by
    simp [framed, List.getElem_append_left hx]
  rw [(placeRow_mem (framed us) 0).1]
  have b0 : ∀ t, BoundaryShape T us.length i 0 t ↔
      t = ⟨"Boundary", none, "drawing", ⟨0, y, 0 + T.width .fill, y + T.height⟩⟩ := by
    intro t
    obtain ⟨a, b, c, d⟩ := t
    simp only [BoundaryShape, hh, hfill, Term.mk.injEq, if_true, zero_add, ← hy]
  have bl : ∀ t, BoundaryShape T us.length i (us.length + 1) t ↔
      t = ⟨"Boundary", none, "drawing", ⟨T.poly + us.length * (T.poly * (2 + T.nf)), y,
        T.poly + us.length * (T.poly * (2 + T.nf)) + T.width .fill, y + T.height⟩⟩ := by
    intro t
    obtain ⟨a, b, c, d⟩ := t
    have e1 : T.poly + (((us.length + 1 : Nat) : Int) - 1) * (T.poly * (2 + T.nf)) =
        T.poly + us.length * (T.poly * (2 + T.nf)) := by push_cast; ring
    have e2 : T.poly + us.length * (T.poly * (2 + T.nf)) + T.poly =
        2 * T.poly + us.length * (T.poly * (2 + T.nf)) := by ring
    simp only [BoundaryShape, hh, hfill, Term.mk.injEq, ← hy, Nat.add_one_ne_zero, if_false, if_true, e1, e2]
  have bm : ∀ x, x < us.length → ∀ t, BoundaryShape T us.length i (x + 1) t ↔
      t = ⟨"Boundary", none, "drawing", ⟨T.poly + x * (T.poly * (2 + T.nf)), y,
        T.poly + x * (T.poly * (2 + T.nf)) + T.poly * (2 + T.nf), y + T.height⟩⟩ := by
    intro x hx t
    obtain ⟨a, b, c, d⟩ := t
    have e1 : T.poly + (((x + 1 : Nat) : Int) - 1) * (T.poly * (2 + T.nf)) =
        T.poly + x * (T.poly * (2 + T.nf)) := by push_cast; ring
    have e2 : T.poly + x * (T.poly * (2 + T.nf)) + T.poly * (2 + T.nf) =
        T.poly + ((x + 1 : Nat) : Int) * (T.poly * (2 + T.nf)) := by push_cast; ring
    have e3 : x + 1 ≠ us.length + 1 := by omega
    simp only [BoundaryShape, hh, Term.mk.injEq, ← hy, Nat.add_one_ne_zero, if_false, e1, e2, e3]
  constructor
  · rintro ⟨j, hj, h⟩
    rw [stamp_mem] at h
    rcases Nat.eq_zero_or_pos j with rfl | hpos
    · rw [hget0] at h
      rcases h with h | ⟨s, hs, _⟩
      · refine Or.inl ⟨0, by omega, (b0 t).2 ?_⟩
        rw [h, l0, zero_add]
      · cases hs
    · obtain ⟨x, rfl⟩ : ∃ x, j = x + 1 := ⟨j - 1, by omega⟩
      rcases Nat.lt_or_ge x us.length with hx | hx
      · rw [hget x hx, l1 x hx.le, hw _ (List.getElem_mem hx)] at h
        rw [zero_add] at h
        rcases h with h | h
        · exact Or.inl ⟨x + 1, by omega, (bm x hx t).2 h⟩
        · exact Or.inr ⟨x, hx, h⟩
      · have : x = us.length := by omega
        subst this
        rw [hgetl, l1 _ (Nat.le_refl _), zero_add] at h
        rcases h with h | ⟨s, hs, _⟩
        · exact Or.inl ⟨us.length + 1, by omega, (bl t).2 h⟩
        · cases hs
  · rintro (⟨j, hj, h⟩ | ⟨x, hx, h⟩)
    · rcases Nat.eq_zero_or_pos j with rfl | hpos
      · refine ⟨0, by omega, ?_⟩
        rw [stamp_mem, hget0, l0, zero_add]
        exact Or.inl ((b0 t).1 h)
      · obtain ⟨x, rfl⟩ : ∃ x, j = x + 1 := ⟨j - 1, by omega⟩
        rcases Nat.lt_or_ge x us.length with hx | hx
        · refine ⟨x + 1, by omega, ?_⟩
          rw [stamp_mem, hget x hx, l1 x hx.le, hw _ (List.getElem_mem hx), zero_add]
          exact Or.inl ((bm x hx t).1 h)
        · have : x = us.length := by omega
          subst this
          refine ⟨us.length + 1, by omega, ?_⟩
          rw [stamp_mem, hgetl, l1 _ (Nat.le_refl _), zero_add]
          exact Or.inl ((bl t).1 h)
    · refine ⟨x + 1, by omega, ?_⟩
      rw [stamp_mem, hget x hx, l1 x hx.le, hw _ (List.getElem_mem hx), zero_add]
      exact Or.inr h

/-- The terms of the array from its rows. -/
theorem rows_mem {T : Tech} {cfg : Cfg} {p1 : List (String × String)}
    {p2 : Option (List (String × String))} {r c : Nat} {a : List (List Char)} {rows : List (List Obj)}
    {e1 : Dev} {e2 : Option Dev} (h1 : ∀ f, get p1 f = e1.pins.lookup f)
    (h2 : p2.isSome = e2.isSome) (h3 : ∀ p ∈ p2, ∀ e ∈ e2, ∀ f, get p f = e.pins.lookup f)
    (hr : makeRows cfg p1 p2 r c a = some rows) (h0 : 0 < r) :
    (∀ y < r, ∀ x < c, ∃ ch, (a[y]?.bind (·[x]?)) = some ch ∧ (unitObj p1 p2 y ch).isSome = true) ∧
    (∀ t, t ∈ (placeRows T 0 0 rows).1 ↔
      (∃ y < r, ∃ x < c, UnitShape T (corner T cfg y x)
        (unitFor e1 e2 y ((a[y]?.bind (·[x]?)).getD 'A')) t) ∨
      (cfg.addTap = true ∧ ∃ x < c, TapShape T x ((e1.pins.lookup "B").getD "B") t) ∨
      ∃ i < r + (if cfg.addTap then 1 else 0), ∃ j < c + 2, BoundaryShape T c i j t) ∧
    (placeRows T 0 0 rows).2 = (2 * T.poly + c * (T.poly * (2 + T.nf)),
      ((r + if cfg.addTap then 1 else 0 : Nat) : Int) * (7 * T.m2)) := by
  unfold makeRows at hr
  rw [Option.map_eq_some_iff] at hr
  obtain ⟨us, hus, rfl⟩ := hr
  obtain ⟨hul, hug⟩ := range_mapM hus
  -- the units of each row
  have hrow : ∀ y, ∀ hy : y < us.length, ∃ l : List Obj, us[y] = framed l ∧ l.length = c ∧
      ∀ x, ∀ hx : x < l.length, ∃ ch, (a[y]?.bind (·[x]?)) = some ch ∧
        unitObj p1 p2 y ch = some l[x] := by
    intro y hy
    obtain ⟨l, hl, hl2⟩ := Option.map_eq_some_iff.1 (hug y hy)
    obtain ⟨g1, g2⟩ := range_mapM hl
    refine ⟨l, hl2.symm, g1, fun x hx => ?_⟩
    exact Option.bind_eq_some_iff.1 (g2 x hx)
  have hnf : ∀ {y : Nat} {l : List Obj}, (∀ x, ∀ hx : x < l.length, ∃ ch,
      (a[y]?.bind (·[x]?)) = some ch ∧ unitObj p1 p2 y ch = some l[x]) → ∀ o ∈ l, o.kind ≠ .fill := by
    intro y l hl o ho
    obtain ⟨x, hx, rfl⟩ := List.getElem_of_mem ho
    obtain ⟨ch, _, hch⟩ := hl x hx
    rw [(unit_obj h1 h2 h3 hch).1]
    split <;> simp
  generalize htap : (List.range c).map
    (fun _ => (⟨.tap, [("B", (get p1 "B").getD "B")], 1⟩ : Obj)) = tl
  have htl : tl.length = c := by simp [← htap]
  have htk : ∀ o ∈ tl, o = ⟨.tap, [("B", (get p1 "B").getD "B")], 1⟩ := by
    intro o ho
    rw [← htap] at ho
    obtain ⟨_, _, rfl⟩ := List.mem_map.1 ho
    rfl
  have htnf : ∀ o ∈ tl, o.kind ≠ .fill := by
    intro o ho
    rw [htk o ho]
    simp
  -- a row of units at height index i
  have hunit : ∀ (t : Term) (y i : Nat) (hy : y < us.length), (i : Int) = y + (if cfg.addTap then 1 else 0) →
      (t ∈ (placeRow T (i * (7 * T.m2)) 0 us[y]).1 ↔ (∃ j < c + 2, BoundaryShape T c i j t) ∨
        ∃ x < c, UnitShape T (corner T cfg y x)
          (unitFor e1 e2 y ((a[y]?.bind (·[x]?)).getD 'A')) t) := by
    intro t y i hy hi
    obtain ⟨l, hl1, hl2, hl3⟩ := hrow y hy
    rw [hl1, framed_mem (hnf hl3) rfl]
    refine or_congr (by rw [hl2]) ?_
    have hcorner : ∀ x : Nat, corner T cfg y x =
        (T.poly + x * (T.poly * (2 + T.nf)), (i : Int) * (7 * T.m2)) := by
      intro x
      unfold corner
      rw [hi]
    have key : ∀ x (hx : x < l.length), (∃ s ∈ T.terms l[x].kind, t.layer = s.layer ∧ t.type = s.type ∧
        t.rect = put (T.poly + x * (T.poly * (2 + T.nf)), (i : Int) * (7 * T.m2)) (T.poly * (2 + T.nf))
          (decide (l[x].flip < 0)) s.rect ∧ t.net = s.net.bind (get l[x].pinMap)) ↔
        UnitShape T (corner T cfg y x) (unitFor e1 e2 y ((a[y]?.bind (·[x]?)).getD 'A')) t := by
      intro x hx
      obtain ⟨ch, hch, hu⟩ := hl3 x hx
      obtain ⟨u1, u2, u3⟩ := unit_obj h1 h2 h3 hu
      have u3' : get l[x].pinMap = fun f => (unitFor e1 e2 y ch).dev.pins.lookup f := funext u3
      have ht : T.terms l[x].kind = if (unitFor e1 e2 y ch).second then T.tx2 else T.tx1 := by
        rw [u1]
        split <;> rfl
      unfold UnitShape
      rw [hch, Option.getD_some, ht, u2, u3', hcorner]
    constructor
    · rintro ⟨x, hx, h⟩
      exact ⟨x, by omega, (key x hx).1 h⟩
    · rintro ⟨x, hx, h⟩
      exact ⟨x, by omega, (key x (by omega)).2 h⟩
  have htaprow : ∀ t : Term, t ∈ (placeRow T (((0 : Nat) : Int) * (7 * T.m2)) 0 (framed tl)).1 ↔
      (∃ j < c + 2, BoundaryShape T c 0 j t) ∨
        ∃ x < c, TapShape T x ((e1.pins.lookup "B").getD "B") t := by
    intro t
    rw [framed_mem htnf rfl]
    refine or_congr (by rw [htl]) ?_
    have key : ∀ x (hx : x < tl.length), (∃ s ∈ T.terms tl[x].kind, t.layer = s.layer ∧ t.type = s.type ∧
        t.rect = put (T.poly + x * (T.poly * (2 + T.nf)), ((0 : Nat) : Int) * (7 * T.m2))
          (T.poly * (2 + T.nf)) (decide (tl[x].flip < 0)) s.rect ∧ t.net = s.net.bind (get tl[x].pinMap)) ↔
        TapShape T x ((e1.pins.lookup "B").getD "B") t := by
      intro x hx
      rw [htk _ (List.getElem_mem hx)]
      have hg : get [("B", (get p1 "B").getD "B")] =
          fun pin => if pin = "B" then some ((e1.pins.lookup "B").getD "B") else none := by
        funext pin
        rw [← h1]
        by_cases hp : pin = "B"
        · subst hp
          simp [get]
        · have : (pin == "B") = false := by simpa using hp
          simp [get, List.lookup_cons, this, hp]
      unfold TapShape
      simp only [hg, Tech.terms, Nat.cast_zero, zero_mul, show ¬ ((1 : Int) < 0) by decide, decide_false]
    constructor
    · rintro ⟨x, hx, h⟩
      exact ⟨x, by omega, (key x hx).1 h⟩
    · rintro ⟨x, hx, h⟩
      exact ⟨x, by omega, (key x (by omega)).2 h⟩
  refine ⟨?_, ?_⟩
  · intro y hy x hx
    obtain ⟨l, _, hl2, hl3⟩ := hrow y (by omega)
    obtain ⟨ch, g1, g2⟩ := hl3 x (by omega)
    exact ⟨ch, g1, by rw [g2]; rfl⟩
  · have hwid : ∀ row ∈ us, leftOf T row row.length = 2 * T.poly + c * (T.poly * (2 + T.nf)) := by
      intro row hrw
      obtain ⟨y, hy, rfl⟩ := List.getElem_of_mem hrw
      obtain ⟨l, hl1, hl2, hl3⟩ := hrow y hy
      rw [hl1, (framed_left (hnf hl3)).2.2, hl2]
    have hheight : T.height = 7 * T.m2 := by unfold Tech.height; ring
    have hne : us ≠ [] := by
      rintro rfl
      simp at hul
      omega
    by_cases hc : cfg.addTap = true
    · simp only [hc, if_true, true_and]
      rw [show [(⟨.fill, [], 1⟩ : Obj) :: tl ++ [⟨.fill, [], 1⟩]] ++ us = framed tl :: us from rfl]
      constructor
      · intro t
        rw [(placeRows_mem (T := T) (t := t) (framed tl :: us) 0 0).1]
        constructor
        · rintro ⟨i, hi, h⟩
          cases i with
          | zero =>
            rw [zero_add, hheight] at h
            rcases (htaprow t).1 h with h | h
            · exact Or.inr (Or.inr ⟨0, by omega, h⟩)
            · exact Or.inr (Or.inl h)
          | succ y =>
            have hy : y < us.length := by simpa using hi
            rw [zero_add, hheight] at h
            rcases (hunit t y (y + 1) hy (by simp [hc])).1 h with h | h
            · exact Or.inr (Or.inr ⟨y + 1, by omega, h⟩)
            · exact Or.inl ⟨y, by omega, h⟩
        · rintro (⟨y, hy, h⟩ | h | ⟨i, hi, h⟩)
          · refine ⟨y + 1, by simp; omega, ?_⟩
            rw [zero_add, hheight]
            exact (hunit t y (y + 1) (by omega) (by simp [hc])).2 (Or.inr h)
          · refine ⟨0, by simp, ?_⟩
            rw [zero_add, hheight]
            exact (htaprow t).2 (Or.inr h)
          · cases i with
            | zero =>
              refine ⟨0, by simp, ?_⟩
              rw [zero_add, hheight]
              exact (htaprow t).2 (Or.inl h)
            | succ y =>
              refine ⟨y + 1, by simp; omega, ?_⟩
              rw [zero_add, hheight]
              exact (hunit t y (y + 1) (by omega) (by simp [hc])).2 (Or.inl h)
      · obtain ⟨_, q2, q3⟩ := placeRows_mem (T := T) (t := ⟨"", none, "", ⟨0, 0, 0, 0⟩⟩)
          (framed tl :: us) 0 0
        refine Prod.ext (q3 _ ?_ (by simp)) ?_
        · intro row hrw
          rcases List.mem_cons.1 hrw with rfl | hrw
          · rw [(framed_left htnf).2.2, htl]
          · exact hwid row hrw
        · rw [q2, hheight, List.length_cons, hul]
          simp
    · simp only [hc, if_false, false_and, false_or, List.nil_append, Nat.add_zero, Bool.false_eq_true]
      constructor
      · intro t
        rw [(placeRows_mem (T := T) (t := t) us 0 0).1]
        constructor
        · rintro ⟨y, hy, h⟩
          rw [zero_add, hheight] at h
          rcases (hunit t y y hy (by simp [hc])).1 h with h | h
          · exact Or.inr ⟨y, by omega, h⟩
          · exact Or.inl ⟨y, by omega, h⟩
        · rintro (⟨y, hy, h⟩ | ⟨y, hy, h⟩)
          · refine ⟨y, by omega, ?_⟩
            rw [zero_add, hheight]
            exact (hunit t y y (by omega) (by simp [hc])).2 (Or.inr h)
          · refine ⟨y, by omega, ?_⟩
            rw [zero_add, hheight]
            exact (hunit t y y (by omega) (by simp [hc])).2 (Or.inl h)
      · obtain ⟨_, q2, q3⟩ := placeRows_mem (T := T) (t := ⟨"", none, "", ⟨0, 0, 0, 0⟩⟩) us 0 0
        refine Prod.ext (q3 _ hwid hne) ?_
        rw [q2, hheight, hul]
        simp

theorem entry_map {r c : Nat} (g : Nat → Nat → Char) {y x : Nat} (hy : y < r) (hx : x < c) :
    (((List.range r).map fun y => (List.range c).map (g y))[y]?.bind (·[x]?)) = some (g y x) := by
  simp [List.getElem?_map, List.getElem?_range hy, List.getElem?_range hx]

/-- The number of units of a device. -/
def Units (unit : Nat → Nat → Unit) (r c : Nat) (d : Dev) : Nat :=
  ((List.range r).map fun y => ((List.range c).filter fun x => (unit y x).dev = d).length).sum

theorem units_dual {r c m : Nat} {e1 e2 : Dev} (hne : e1 ≠ e2) (h : r * c = 2 * m)
    {a : List (List Char)} (ha : interleavePattern r c defaultTemplate = some a) :
    Units (fun y x => unitFor e1 (some e2) y ((a[y]?.bind (·[x]?)).getD 'A')) r c e1 = m ∧
    Units (fun y x => unitFor e1 (some e2) y ((a[y]?.bind (·[x]?)).getD 'A')) r c e2 = m := by
  obtain ⟨a', ha', _, hA, hB⟩ := C50_equal h
  rw [ha'] at ha
  cases ha
  rw [interleave_default, Option.some.injEq] at ha'
  subst ha'
  have key : ∀ (d : Dev) (C : Char), (∀ y x, (unitFor e1 (some e2) y (board y x)).dev = d ↔
      board y x = C) → Units (fun y x => unitFor e1 (some e2) y
        ((((List.range r).map fun y => (List.range c).map (board y))[y]?.bind (·[x]?)).getD 'A')) r c d =
      cellsOf C ((List.range r).map fun y => (List.range c).map (board y)) := by
    intro d C hC
    unfold Units cellsOf
    rw [List.map_map]
    congr 1
    apply List.map_congr_left
    intro y hy
    rw [List.mem_range] at hy
    rw [Function.comp_apply, List.count_eq_countP, List.countP_map, List.countP_eq_length_filter]
    congr 1
    apply List.filter_congr
    intro x hx
    rw [List.mem_range] at hx
    rw [Bool.eq_iff_iff, decide_eq_true_iff]
    dsimp only
    rw [entry_map _ hy hx, Option.getD_some, hC]
    simp
  have hbd : ∀ y x, board y x = 'A' ∨ board y x = 'B' := by
    intro y x
    unfold board
    split <;> simp
  refine ⟨(key e1 'A' fun y x => ?_).trans hA, (key e2 'B' fun y x => ?_).trans hB⟩
  · rcases hbd y x with h | h <;> rw [h] <;> simp [unitFor, hne.symm]
  · rcases hbd y x with h | h <;> rw [h] <;> simp [unitFor, hne]

theorem units_single {r c : Nat} (e1 : Dev) (unit : Nat → Nat → Unit)
    (h : ∀ y x, (unit y x).dev = e1) : Units unit r c e1 = r * c := by
  unfold Units
  have : ∀ y, ((List.range c).filter fun x => (unit y x).dev = e1).length = c := by
    intro y
    rw [List.filter_eq_self.2, List.length_range]
    intro x _
    simp [h]
  simp only [this]
  simp

theorem perm_pair_of {l : List String} {a b : String} (h : l.Perm [a, b]) :
    l = [a, b] ∨ l = [b, a] := by
  have hl := h.length_eq
  match l, hl with
  | [x, y], _ =>
    have hx : x ∈ [a, b] := h.subset (by simp)
    simp only [List.mem_cons, List.not_mem_nil, or_false] at hx
    rcases hx with rfl | rfl
    · have := (List.perm_cons x).1 h
      rw [List.singleton_perm] at this
      simp at this
      left
      rw [this]
    · have h2 : [x, y].Perm [x, a] := h.trans (List.Perm.swap ..)
      have := (List.perm_cons x).1 h2
      rw [List.singleton_perm] at this
      simp at this
      right
      rw [this]

/-- The array of a primitive with one or two transistors. -/
structure Drawn (T : Tech) (cfg : Cfg) (devs : List Dev) (m : Nat) (ts : List Term) (box : R)
    (r c : Nat) (unit : Nat → Nat → Unit) (b : String) : Prop where
  /-- there are as many units as all devices need together -/
  size : r * c = m * devs.length
  /-- each unit belongs to a device -/
  owned : ∀ y < r, ∀ x < c, (unit y x).dev ∈ devs
  /-- each device has its units, if the interleaving is not chosen by the user -/
  count : cfg.template = none → ∀ d ∈ devs, Units unit r c d = m
  /-- the shapes drawn are those of the units, of the taps, and the boundaries of the cells -/
  shapes : ∀ t, t ∈ ts ↔ (∃ y < r, ∃ x < c, UnitShape T (corner T cfg y x) (unit y x) t) ∨
    (cfg.addTap = true ∧ ∃ x < c, TapShape T x b t) ∨
    ∃ i < r + (if cfg.addTap then 1 else 0), ∃ j < c + 2, BoundaryShape T c i j t
  bbox : box = ⟨0, 0, 2 * T.poly + c * (T.poly * (2 + T.nf)),
    ((r + if cfg.addTap then 1 else 0 : Nat) : Int) * (7 * T.m2)⟩

theorem mosArray_drawn {T : Tech} {cfg : Cfg} {devs : List Dev} {m r c : Nat}
    {p1 : List (String × String)} {p2 : Option (List (String × String))} {e1 : Dev} {e2 : Option Dev}
    (h1 : ∀ f, get p1 f = e1.pins.lookup f) (h2 : p2.isSome = e2.isSome)
    (h3 : ∀ p ∈ p2, ∀ e ∈ e2, ∀ f, get p f = e.pins.lookup f) (hm : 0 < m)
    (hd : ∀ d, d ∈ devs ↔ d = e1 ∨ d ∈ e2) (hne : e1 ∉ e2)
    (hl : devs.length = if e2.isSome then 2 else 1) (hrc : r * c = m * devs.length)
    {ts : List Term} {box : R} (h : mosArray T cfg p1 p2 r c = some (ts, box)) :
    ∃ unit, Drawn T cfg devs m ts box r c unit ((e1.pins.lookup "B").getD "B") := by
  unfold mosArray at h
  simp only [Option.bind_eq_some_iff, Option.map_eq_some_iff] at h
  obtain ⟨a, ha, rows, hr, h⟩ := h
  have h0 : 0 < r := by
    rcases Nat.eq_zero_or_pos r with rfl | h
    · rw [Nat.zero_mul] at hrc
      have : 0 < m * devs.length := Nat.mul_pos hm (by rw [hl]; split <;> omega)
      omega
    · exact h
  obtain ⟨q1, q2, q3⟩ := rows_mem (T := T) h1 h2 h3 hr h0
  simp only [Prod.mk.injEq] at h
  obtain ⟨rfl, rfl⟩ := h
  refine ⟨fun y x => unitFor e1 e2 y ((a[y]?.bind (·[x]?)).getD 'A'), hrc, ?_, ?_, q2, ?_⟩
  · intro y hy x hx
    rw [hd]
    unfold unitFor
    dsimp only
    split
    · exact Or.inl rfl
    · cases e2 with
      | none => exact Or.inl rfl
      | some e => exact Or.inr rfl
  · intro ht d hdd
    cases e2 with
    | none =>
      have : d = e1 := by simpa using (hd d).1 hdd
      subst this
      rw [units_single, hrc, hl]
      · simp
      · intro y x
        simp [unitFor]
    | some e =>
      have hp2 : p2.isSome = true := by rw [h2]; rfl
      rw [ht, Option.getD_none, hp2, if_pos rfl] at ha
      have hrc' : r * c = 2 * m := by
        rw [hrc, hl]
        simp [Nat.mul_comm]
      obtain ⟨u1, u2⟩ := units_dual (e1 := e1) (e2 := e) (fun h => hne (h ▸ rfl)) hrc' ha
      rcases (hd d).1 hdd with rfl | hde
      · exact u1
      · cases hde
        exact u2
  · rw [q3]

/-- C95: the array of a primitive with one or two transistors has `m` units of each, side by side,
with the shapes of the cell on the nets of the transistor; no other shapes are drawn. -/
theorem C95_draws_partial (T : Tech) (cfg : Cfg) (pins : List String) (devs : List Dev) (m x y : Nat)
    (hin : cfg.input = none) (hlen : devs.length = 1 ∨ devs.length = 2)
    (hu : (devs.map (·.name)).Nodup) (hmos : ∀ d ∈ devs, Mosfet d) (hm : 0 < m)
    (ts : List Term) (box : R) (h : draw T cfg pins devs m x y = some (ts, box)) :
    ∃ r c unit, ∃ d1 ∈ devs, (∀ d ∈ devs, d1.name ≤ d.name) ∧
      Drawn T cfg devs m ts box r c unit ((d1.pins.lookup "B").getD "B") := by
  unfold draw at h
  dsimp only at h
  rw [Option.bind_eq_some_iff] at h
  obtain ⟨conns, hc, h⟩ := h
  split at h
  swap
  · cases h
  rw [Option.bind_eq_some_iff] at h
  obtain ⟨n1, hn1, h⟩ := h
  split at h
  swap
  · cases h
  rw [Option.bind_eq_some_iff] at h
  obtain ⟨⟨r, c⟩, hv, h⟩ := h
  dsimp only at h
  by_cases hrc : r * c ≠ if (pattern cfg.input devs.length x).1 > 0 then 2 * m else m
  · rw [if_pos hrc] at h
    cases h
  rw [if_neg hrc] at h
  have hrc : r * c = if (pattern cfg.input devs.length x).1 > 0 then 2 * m else m := not_not.1 hrc
  have hp := elementNames_perm hc hu hmos
  rcases hlen with hl | hl
  · obtain ⟨d, rfl⟩ := List.length_eq_one_iff.1 hl
    have hnames : elementNames conns = [d.name] := List.perm_singleton.1 hp
    rw [hnames] at hn1 h
    simp only [List.getElem?_cons_zero, Option.some.injEq] at hn1
    subst hn1
    have hpat : ¬ (pattern cfg.input [d].length x).1 > 0 := by
      simp [pattern, hin]
    rw [if_neg hpat] at hrc
    have hnone : ([d.name][1]? : Option String) = none := rfl
    rw [hnone] at h
    simp only [Option.bind_none] at h
    obtain ⟨unit, hD⟩ := mosArray_drawn (e1 := d) (e2 := none) (devs := [d])
      (get_ports hc hu (List.mem_singleton.2 rfl) (hmos d (List.mem_singleton.2 rfl)).1) rfl
      (by simp) hm (by simp) (by simp) (by simp) (by simpa using hrc) h
    exact ⟨r, c, unit, d, List.mem_singleton.2 rfl, by simp, hD⟩
  · obtain ⟨da, db, rfl⟩ := List.length_eq_two.1 hl
    have hne : da.name ≠ db.name := by simpa using hu
    have hsorted : (elementNames conns).Pairwise (fun a b => a ≤ b) := by
      have := pySort_pairwise (le := fun a b : String => decide (a ≤ b))
        (fun a b c => by simpa using String.le_trans) (fun a b => by simpa using String.le_total a b)
        ((conns.flatMap fun c => c.2.map (·.1)).eraseDups)
      unfold elementNames
      simpa using this
    obtain ⟨e1, e2, hnames, hmem, hee⟩ : ∃ e1 e2 : Dev, elementNames conns = [e1.name, e2.name] ∧
        (∀ d, d ∈ [da, db] ↔ d = e1 ∨ d = e2) ∧ e1.name ≠ e2.name := by
      rcases perm_pair_of hp with h | h
      · exact ⟨da, db, h, by simp, hne⟩
      · exact ⟨db, da, h, by simp [or_comm], hne.symm⟩
    have he1 : e1 ∈ [da, db] := (hmem e1).2 (Or.inl rfl)
    have he2 : e2 ∈ [da, db] := (hmem e2).2 (Or.inr rfl)
    rw [hnames] at hn1 h hsorted
    simp only [List.getElem?_cons_zero, Option.some.injEq] at hn1
    subst hn1
    have hlen2 : ((findPorts conns e2.name).map (·.1)).eraseDups.length > 1 := by
      obtain ⟨_, hD, hG, _⟩ := hmos e2 he2
      have mk : ∀ k, k ∈ e2.pins.map (·.1) →
          k ∈ ((findPorts conns e2.name).map (·.1)).eraseDups := by
        intro k hk
        obtain ⟨⟨f, net⟩, hp, rfl⟩ := List.mem_map.1 hk
        rw [List.mem_eraseDups]
        exact List.mem_map.2 ⟨_, (mem_ports hc hu he2 f net).2 hp, rfl⟩
      have h1 := mk _ hD
      have h2 := mk _ hG
      by_contra hlt
      generalize ((findPorts conns e2.name).map (·.1)).eraseDups = l at h1 h2 hlt
      match l, hlt with
      | [], _ => cases h1
      | [z], _ =>
        rw [List.mem_singleton] at h1 h2
        rw [← h1] at h2
        exact absurd h2 (by decide)
      | _ :: _ :: _, hlt => simp at hlt
    have hget1 : ([e1.name, e2.name][1]? : Option String) = some e2.name := rfl
    rw [hget1] at h
    simp only [Option.bind_some, if_pos hlen2] at h
    have hpat : (pattern cfg.input [da, db].length x).1 > 0 := by
      simp only [pattern, hin, List.length_cons, List.length_nil]
      norm_num
      split <;> simp
    rw [if_pos hpat] at hrc
    obtain ⟨unit, hD⟩ := mosArray_drawn (e1 := e1) (e2 := some e2) (devs := [da, db])
      (get_ports hc hu he1 (hmos e1 he1).1) rfl
      (by
        intro p hp e he
        cases hp
        cases he
        exact get_ports hc hu he2 (hmos e2 he2).1) hm
      (by intro d; rw [hmem]; simp [eq_comm]) (by
        intro h
        cases h
        exact hee rfl) (by simp) (by simpa [Nat.mul_comm] using hrc) h
    refine ⟨r, c, unit, e1, he1, fun d hd => ?_, hD⟩
    rcases (hmem d).1 hd with rfl | rfl
    · exact String.le_refl _
    · simpa using hsorted

/-- Cells as in `BoundaryShape` do not overlap, and are in the box. -/
theorem cells_apart (T : Tech) (hp : 0 < T.poly) (hh : 0 < T.m2) (c i j i' j' n : Nat) (t t' : Term)
    (h : BoundaryShape T c i j t) (h' : BoundaryShape T c i' j' t') (hj : j < c + 2) (hj' : j' < c + 2)
    (hi : i < n) (hne : (i, j) ≠ (i', j')) :
    (t.rect.urx ≤ t'.rect.llx ∨ t'.rect.urx ≤ t.rect.llx ∨ t.rect.ury ≤ t'.rect.lly ∨
      t'.rect.ury ≤ t.rect.lly) ∧
    0 ≤ t.rect.llx ∧ t.rect.llx < t.rect.urx ∧ t.rect.urx ≤ 2 * T.poly + c * (T.poly * (2 + T.nf)) ∧
    0 ≤ t.rect.lly ∧ t.rect.lly < t.rect.ury ∧ t.rect.ury ≤ n * (7 * T.m2) := by
  have hw : 0 < T.poly * (2 + (T.nf : Int)) := by positivity
  obtain ⟨_, _, _, hr⟩ := h
  obtain ⟨_, _, _, hr'⟩ := h'
  generalize T.poly * (2 + (T.nf : Int)) = w at hw hr hr' ⊢
  -- left and right ends in the row
  have ends : ∀ k k' : Nat, k < k' → k' < c + 2 →
      (if k = 0 then T.poly else if k = c + 1 then 2 * T.poly + c * w else T.poly + k * w) ≤
      (if k' = 0 then 0 else T.poly + ((k' : Int) - 1) * w) := by
    intro k k' hk hk'
    have h1 : k' ≠ 0 := by omega
    have h2 : k ≠ c + 1 := by omega
    have h3 : (k : Int) ≤ (k' : Int) - 1 := by omega
    have h4 : (k : Int) * w ≤ ((k' : Int) - 1) * w := mul_le_mul_of_nonneg_right h3 hw.le
    rw [if_neg h1, if_neg h2]
    split
    · subst_vars
      simp at h4
      linarith
    · linarith
  have rowsep : ∀ a b : Nat, a < b → ((a : Int) + 1) * (7 * T.m2) ≤ b * (7 * T.m2) := by
    intro a b hab
    exact mul_le_mul_of_nonneg_right (by omega) (by positivity)
  refine ⟨?_, ?_, ?_, ?_, ?_, ?_, ?_⟩
  · rw [hr, hr']
    dsimp only
    rcases Nat.lt_trichotomy i i' with hlt | heq | hgt
    · exact Or.inr (Or.inr (Or.inl (rowsep _ _ hlt)))
    · rcases Nat.lt_trichotomy j j' with hl | he | hg
      · exact Or.inl (ends _ _ hl hj')
      · exact absurd (Prod.ext heq he) hne
      · exact Or.inr (Or.inl (ends _ _ hg hj))
    · exact Or.inr (Or.inr (Or.inr (rowsep _ _ hgt)))
  · rw [hr]
    dsimp only
    split
    · exact le_refl _
    · have : (0 : Int) ≤ ((j : Int) - 1) * w := mul_nonneg (by omega) hw.le
      linarith
  · rw [hr]
    dsimp only
    by_cases h0 : j = 0
    · simp [h0, hp]
    · rw [if_neg h0, if_neg h0]
      split
      · subst_vars
        push_cast
        linarith
      · linarith
  · rw [hr]
    dsimp only
    have hc : (0 : Int) ≤ (c : Int) * w := mul_nonneg (by omega) hw.le
    split
    · linarith
    · split
      · exact le_refl _
      · have : (j : Int) * w ≤ c * w := mul_le_mul_of_nonneg_right (by omega) hw.le
        linarith
  · rw [hr]
    dsimp only
    positivity
  · rw [hr]
    dsimp only
    linarith
  · rw [hr]
    exact rowsep _ _ hi

/-- C95: the outlines of the cells are drawn, in rows of equal length; they do not overlap and are in the
bounding box. -/
theorem C95_cells_partial (T : Tech) (hp : 0 < T.poly) (hh : 0 < T.m2) (cfg : Cfg) (pins : List String)
    (devs : List Dev) (m x y : Nat) (hin : cfg.input = none) (hlen : devs.length = 1 ∨ devs.length = 2)
    (hu : (devs.map (·.name)).Nodup) (hmos : ∀ d ∈ devs, Mosfet d) (hm : 0 < m)
    (ts : List Term) (box : R) (h : draw T cfg pins devs m x y = some (ts, box)) :
    ∃ (r c : Nat) (cell : Nat → Nat → R), r * c = m * devs.length ∧
      let n := r + (if cfg.addTap then 1 else 0)
      (∀ i < n, ∀ j < c + 2, ⟨"Boundary", none, "drawing", cell i j⟩ ∈ ts ∧
        box.llx ≤ (cell i j).llx ∧ (cell i j).llx < (cell i j).urx ∧ (cell i j).urx ≤ box.urx ∧
        box.lly ≤ (cell i j).lly ∧ (cell i j).lly < (cell i j).ury ∧ (cell i j).ury ≤ box.ury) ∧
      ∀ i < n, ∀ j < c + 2, ∀ i' < n, ∀ j' < c + 2, (i, j) ≠ (i', j') →
        (cell i j).urx ≤ (cell i' j').llx ∨ (cell i' j').urx ≤ (cell i j).llx ∨
        (cell i j).ury ≤ (cell i' j').lly ∨ (cell i' j').ury ≤ (cell i j).lly := by
  obtain ⟨r, c, unit, d1, _, _, hD⟩ :=
    C95_draws_partial T cfg pins devs m x y hin hlen hu hmos hm ts box h
  let cell : Nat → Nat → R := fun i j =>
    ⟨if j = 0 then 0 else T.poly + ((j : Int) - 1) * (T.poly * (2 + T.nf)), i * (7 * T.m2),
      if j = 0 then T.poly else if j = c + 1 then 2 * T.poly + c * (T.poly * (2 + T.nf))
        else T.poly + j * (T.poly * (2 + T.nf)), (i + 1) * (7 * T.m2)⟩
  have hb : ∀ i j, BoundaryShape T c i j ⟨"Boundary", none, "drawing", cell i j⟩ :=
    fun i j => ⟨rfl, rfl, rfl, rfl⟩
  refine ⟨r, c, cell, hD.size, ?_, ?_⟩
  · intro i hi j hj
    refine ⟨(hD.shapes _).2 (Or.inr (Or.inr ⟨i, hi, j, hj, hb i j⟩)), ?_⟩
    obtain ⟨_, h1, h2, h3, h4, h5, h6⟩ := cells_apart T hp hh c i j (i + 1) j _ _ _ (hb i j)
      (hb (i + 1) j) hj hj hi (by simp)
    rw [hD.bbox]
    exact ⟨h1, h2, h3, h4, h5, h6⟩
  · intro i hi j hj i' _ j' hj' hne
    exact (cells_apart T hp hh c i j i' j' _ _ _ (hb i j) (hb i' j') hj hj' hi hne).1

/-- C95 does not hold for three or more transistors: only the first two are drawn.  Every net drawn is
a net of one of the two transistors whose names come first, or the body net. -/
theorem C95_violated_three :
    let dev : String → String → Dev := fun n d => ⟨n, [("D", d), ("G", "G"), ("S", "S")]⟩
    let T : Tech := ⟨80, 84, 2, [], [⟨"M1", some "D", "drawing", ⟨80, 100, 112, 300⟩⟩],
      [⟨"M1", some "D", "drawing", ⟨80, 100, 112, 300⟩⟩]⟩
    ∃ ts box, draw T ⟨none, none, true⟩ ["DA", "DB", "DC", "G", "S"]
        [dev "M1" "DA", dev "M2" "DB", dev "M3" "DC"] 1 1 1 = some (ts, box) ∧
      (∃ t ∈ ts, t.net = some "DA") ∧ (∃ t ∈ ts, t.net = some "DB") ∧ ∀ t ∈ ts, t.net ≠ some "DC" := by
  intro dev T
  have h : (draw T ⟨none, none, true⟩ ["DA", "DB", "DC", "G", "S"]
      [dev "M1" "DA", dev "M2" "DB", dev "M3" "DC"] 1 1 1).map (fun r =>
        decide ((∃ t ∈ r.1, t.net = some "DA") ∧ (∃ t ∈ r.1, t.net = some "DB") ∧
          ∀ t ∈ r.1, t.net ≠ some "DC")) = some true := by
    decide +kernel
  obtain ⟨⟨ts, box⟩, h1, h2⟩ := Option.map_eq_some_iff.1 h
  exact ⟨ts, box, h1, of_decide_eq_true h2⟩

/-! ## Tracks of M2 -/

/-- The nets of the three terminals of a device that are routed on M2. -/
structure Ports where
  g : String
  s : String
  d : String
  deriving DecidableEq, Repr

/-- Tracks of the terminals. -/
structure Tracks where
  g : Nat
  s : Nat
  d : Nat
  deriving DecidableEq, Repr

/-- `track_pattern_1` (197). -/
def tracks1 : Tracks := ⟨6, 4, 2⟩

/-- `track_pattern_2` (198, 200-205): a terminal of the second device on a net of the first device goes
on its track. -/
def tracks2 (p q : Ports) : Tracks :=
  { g := if q.g = p.g then tracks1.g else if q.g = p.s then tracks1.s else 5
    s := if q.s = p.s then tracks1.s else if q.s = p.d then tracks1.d else 3
    d := if q.d = p.d then tracks1.d else 1 }

/-- The tracks of device `i` in row `y` (261-268). -/
def tracksOf (p q : Ports) (second : Bool) (y : Nat) : Tracks :=
  if second then (if y % 2 = 0 then tracks2 p q else tracks1)
  else (if y % 2 = 0 then tracks1 else tracks2 p q)

/-- The wires of a device: track and net. -/
def wires (t : Tracks) (p : Ports) : List (Nat × String) := [(t.g, p.g), (t.s, p.s), (t.d, p.d)]

/-- The wires on M2 in row `y` of an array of two devices. -/
def rowWires (p q : Ports) (y : Nat) : List (Nat × String) :=
  wires (tracksOf p q false y) p ++ wires (tracksOf p q true y) q

/-- One net per track. -/
def OneNet (ws : List (Nat × String)) : Prop :=
  ∀ a ∈ ws, ∀ b ∈ ws, a.1 = b.1 → a.2 = b.2

/-- C96: in the first, third, fifth ... row each track of M2 has one net. -/
theorem C96_even_partial (p q : Ports) (y : Nat) (hy : y % 2 = 0) : OneNet (rowWires p q y) := by
  obtain ⟨pg, ps, pd⟩ := p
  obtain ⟨qg, qs, qd⟩ := q
  unfold OneNet rowWires tracksOf
  simp only [hy, if_true, Bool.false_eq_true, if_false, wires, tracks2, tracks1]
  split_ifs <;> simp_all

/-- C96: in the other rows this holds exactly if there is no net from the gate of the second device to
the source of the first one only, nor from the source of the second one to the drain of the first one
only. -/
theorem C96_odd_partial (p q : Ports) (y : Nat) (hy : y % 2 = 1) : OneNet (rowWires p q y) ↔
    (q.g ≠ p.g → q.g = p.s → p.g = q.s) ∧ (q.s ≠ p.s → q.s = p.d → p.s = q.d) := by
  obtain ⟨pg, ps, pd⟩ := p
  obtain ⟨qg, qs, qd⟩ := q
  unfold OneNet rowWires tracksOf
  simp only [hy, if_true, Bool.false_eq_true, if_false, wires, tracks2, tracks1, one_ne_zero]
  split_ifs <;> simp_all <;> grind

/-- C96 does not hold for stacked transistors: if the source of the second one is the drain of the first
one, then in the second row the drain of the second one and the source of the first one are on one
track. -/
theorem C96_violated_stack : ∃ p q : Ports, p.d = q.s ∧ ¬ OneNet (rowWires p q 1) ∧
    (2, "OUT") ∈ rowWires p q 1 ∧ (2, "IN") ∈ rowWires p q 1 :=
  ⟨⟨"VB", "OUT", "X"⟩, ⟨"VC", "X", "IN"⟩, rfl, by
    rw [C96_odd_partial _ _ 1 rfl]
    decide, by decide, by decide⟩

example : OneNet (rowWires ⟨"GA", "S", "DA"⟩ ⟨"GB", "S", "DB"⟩ 1) :=
  (C96_odd_partial _ _ 1 rfl).2 (by decide)

/-! ## Examples -/

def exDevs : List Dev :=
  [⟨"M2", [("D", "DB"), ("G", "GB"), ("S", "S"), ("B", "B")]⟩,
   ⟨"M1", [("D", "DA"), ("G", "GA"), ("S", "S"), ("B", "B")]⟩]

def exTech : Tech := ⟨80, 84, 2, [⟨"M1", some "B", "drawing", ⟨80, 100, 112, 300⟩⟩],
  [⟨"M1", some "D", "drawing", ⟨80, 100, 112, 300⟩⟩], [⟨"M1", some "D", "drawing", ⟨80, 100, 112, 300⟩⟩]⟩

example : (exDevs.map (·.name)).Nodup ∧ (∀ d ∈ exDevs, Mosfet d) ∧
    (draw exTech ⟨none, none, true⟩ ["DA", "DB", "GA", "GB", "S", "B"] exDevs 4 2 2).isSome = true := by
  refine ⟨by decide, ?_, by decide +kernel⟩
  unfold Mosfet
  decide

end Verif.Cells.Mos

import Verif.Cons.Floor
import Verif.Overlap.Model
import Verif.Pnr.Subset
import Verif.Pnr.Route
import Verif.Hier.HpwlProps
import Verif.Geometry.Props
import Verif.GridCons.Props
import Verif.Gds.Translate

/-!
# The check of a placement against the constraints: `align/pnr/checker.py:9-80`

`check_placement` gives the boxes of a placement, divided by the scale factor, to the constraint
checker, one `AssignBboxVariables` after the other.  The fields of this constraint are integers, so
pydantic (version 1, `setup.py:90`) cuts the fractional part off.

The solver is assumed to be complete: `solve` raises exactly if there is no assignment of integers
to the variables.  Division of database coordinates by the scale factor is exact below 2^53.
-/

namespace Verif.PlaceCheck

open Verif.Geometry (Rect Transformation)
open Verif.Hier (Inst)
open Verif.Cons

/-- An entry of `placement_verilog_d['modules']`.  `cache` are the boxes which the constraint
database has been given before (`types.py:127`, `constraint.py:1516-1524`); the entries of the cache
for other constraints are of no effect here. -/
structure CMod where
  name : String
  bbox : Rect
  insts : List Inst
  cons : List Cons
  cache : List (String × Box Int)

/-- `placement_verilog_d`. -/
structure CPlace where
  mods : List CMod
  leaves : List (String × Rect)

/-- The part of the constraint database and of its solver that changes during the check. -/
structure DB where
  assigned : List (String × Box Int)
  cache : List (String × Box Int)

/-- The names of the instances (`checker.py:28`). -/
def CMod.names (m : CMod) : List String := m.insts.map (·.name)

/-- The constructor `AssignBboxVariables(llx=bbox.llx/scale_factor, ...)` (`checker.py:35-43,
60-68`) with its validators (`constraint.py:358-373`): the quotients become integers by dropping
their fractional part. -/
def toBox (s : Int) (r : Rect) : Option (Box Int) :=
  let llx := r.llx.tdiv s
  let lly := r.lly.tdiv s
  let urx := r.urx.tdiv s
  let ury := r.ury.tdiv s
  if urx > llx then if ury > lly then some ⟨llx, lly, urx, ury⟩ else none else none

/-- The formulas of the module and of its constraints (`hacks.py:75-101`) under an assignment of
the variables.  The box of the module has the variables of the name `subcircuit`. -/
def Formulas (m : CMod) (β : String → Box Int) : Prop :=
  (∀ f ∈ elementFormulas m.names β (β "subcircuit"), f = true) ∧
  ∀ c ∈ m.cons, ∃ fs, translate m.names β (β "subcircuit") c = some fs ∧ ∀ f ∈ fs, f = true

/-- `solve` does not raise (`schema/checker.py:180-188`): there is an assignment for all the
formulas, those of `AssignBboxVariables.translate` (`constraint.py:375-380`) included. -/
def Solvable (m : CMod) (db : DB) : Prop :=
  ∃ β : String → Box Int, Formulas m β ∧ ∀ e ∈ db.assigned, β e.1 = e.2

/-- `constraints.append` of a box (`constraint.py:1515-1524`), without the verification. -/
def appendBox (s : Int) (db : DB) (x : String × Rect) : Option DB :=
  match toBox s x.2 with
  | none => none
  | some b =>
    if (x.1, b) ∈ db.cache then some db
    else some ⟨db.assigned ++ [(x.1, b)], db.cache ++ [(x.1, b)]⟩

/-- All the boxes are appended; after each the verification succeeds.  (If the box was in the
cache there is none, but the formulas are then those of before.) -/
def Appends (s : Int) (m : CMod) : DB → List (String × Rect) → Prop
  | db, [] => Solvable m db
  | db, x :: xs => Solvable m db ∧ ∃ db', appendBox s db x = some db' ∧ Appends s m db' xs

/-- The box of a template (`checker.py:10-14, 51-55`); of several entries of one name the last one
is in the dictionary. -/
def bboxOf (P : CPlace) (ctn : String) : Option Rect :=
  match (P.mods.map (fun m => (m.name, m.bbox))).reverse.lookup ctn with
  | some r => some r
  | none => P.leaves.reverse.lookup ctn

/-- The box of an instance (`checker.py:49-57`). -/
def instBox (P : CPlace) (i : Inst) : Option (String × Rect) :=
  (bboxOf P i.template).map (fun r => (i.name, (i.tr.hitRect r).canonical))

/-- The instances of the `DoNotIdentify` among the expanded constraints (`checker.py:23-27`). -/
def notIdentified (cs : List Cons) : List String :=
  cs.flatMap (fun c => match c with
    | .doNotIdentify is => is
    | _ => [])

/-- The body of the loop of `check_placement` (`checker.py:16-79`) ends without an exception. -/
def checkModule (P : CPlace) (s : Int) (m : CMod) : Prop :=
  (∃ cs, expand m.cons = some cs ∧ ∀ i ∈ notIdentified cs, i ∈ m.names) ∧
  ∃ boxes, m.insts.mapM (instBox P) = some boxes ∧
    Appends s m ⟨[], m.cache⟩ (("subcircuit", m.bbox) :: boxes)

/-- `check_placement` (`checker.py:9-80`) ends without an exception. -/
def checkPlacement (P : CPlace) (s : Int) : Prop := ∀ m ∈ P.mods, checkModule P s m

/-- The module after the check: `revert` takes the boxes out of the list and out of the solver, but
not out of the cache (`types.py:192-197`, `constraint.py:1556-1559`). -/
def afterCheck (P : CPlace) (s : Int) (m : CMod) : Option CMod := do
  let boxes ← m.insts.mapM (instBox P)
  let db ← (("subcircuit", m.bbox) :: boxes).foldlM (appendBox s) ⟨[], m.cache⟩
  some { m with cache := db.cache }

/-! ## Specification -/

/-- The box of a template: that of the module of this name, otherwise that of the leaf. -/
def TemplateBox (P : CPlace) (ctn : String) (r : Rect) : Prop :=
  (∃ m ∈ P.mods, m.name = ctn ∧ m.bbox = r) ∨
    ((∀ m ∈ P.mods, m.name ≠ ctn) ∧ (ctn, r) ∈ P.leaves)

/-- The box that an instance covers: that of its template, mirrored and moved. -/
def placedBox (t : Transformation) (r : Rect) : Rect :=
  ⟨min (t.sX * r.llx + t.oX) (t.sX * r.urx + t.oX), min (t.sY * r.lly + t.oY) (t.sY * r.ury + t.oY),
    max (t.sX * r.llx + t.oX) (t.sX * r.urx + t.oX), max (t.sY * r.lly + t.oY) (t.sY * r.ury + t.oY)⟩

/-- `r` is the box of the name `n` in the module: of the module itself or of an instance. -/
def BoxOf (P : CPlace) (m : CMod) (n : String) (r : Rect) : Prop :=
  (n = "subcircuit" ∧ r = m.bbox) ∨
    ∃ i ∈ m.insts, i.name = n ∧ ∃ q, TemplateBox P i.template q ∧ r = placedBox i.tr q

/-- `b` is the rectangle `r` in units of `s`. -/
def InUnits (s : Int) (b : Box Int) (r : Rect) : Prop :=
  b.llx * s = r.llx ∧ b.lly * s = r.lly ∧ b.urx * s = r.urx ∧ b.ury * s = r.ury

/-- The sides of `b`, in units of `s`, are those of `r` to less than one unit. -/
def Within (s : Int) (b : Box Int) (r : Rect) : Prop :=
  |b.llx * s - r.llx| < s ∧ |b.lly * s - r.lly| < s ∧ |b.urx * s - r.urx| < s ∧
    |b.ury * s - r.ury| < s

/-- All sides of the rectangle are at whole units. -/
def Whole (s : Int) (r : Rect) : Prop := s ∣ r.llx ∧ s ∣ r.lly ∧ s ∣ r.urx ∧ s ∣ r.ury

/-- The constraints of the module hold for the boxes `β`, all of positive size and inside that of
the module.  What the formulas of the single constraints mean is C38. -/
def Holds (m : CMod) (β : String → Box Int) : Prop :=
  Solid (β "subcircuit") ∧
  (∀ i ∈ m.insts, Solid (β i.name) ∧
    (β "subcircuit").llx ≤ (β i.name).llx ∧ (β "subcircuit").lly ≤ (β i.name).lly ∧
    (β i.name).urx ≤ (β "subcircuit").urx ∧ (β i.name).ury ≤ (β "subcircuit").ury) ∧
  ∀ c ∈ m.cons, Satisfied m.names β (β "subcircuit") c

/-- The constraints speak about instances of the module. -/
def NamesKnown (m : CMod) : Prop :=
  ∃ cs, expand m.cons = some cs ∧ ∀ is, Cons.doNotIdentify is ∈ cs → ∀ n ∈ is, ∃ i ∈ m.insts, i.name = n

/-- Every template is defined, once. -/
structure Defined (P : CPlace) : Prop where
  mods : (P.mods.map (·.name)).Nodup
  leaves : (P.leaves.map (·.1)).Nodup
  templates : ∀ m ∈ P.mods, ∀ i ∈ m.insts, ∃ r, TemplateBox P i.template r

/-! ## Proofs -/

theorem lookup_rev {β : Type} (l : List (String × β)) (k : String) (v : β)
    (hn : (l.map (·.1)).Nodup) : l.reverse.lookup k = some v ↔ (k, v) ∈ l := by
  rw [Hier.lookup_iff_mem (by rw [List.map_reverse]; exact List.nodup_reverse.2 hn),
    List.mem_reverse]

theorem bboxOf_iff (P : CPlace) (h : Defined P) (ctn : String) (r : Rect) :
    bboxOf P ctn = some r ↔ TemplateBox P ctn r := by
  have hn : ((P.mods.map (fun m => (m.name, m.bbox))).map (·.1)).Nodup := by
    rw [List.map_map]
    exact h.mods
  unfold bboxOf TemplateBox
  cases hc : (P.mods.map (fun m => (m.name, m.bbox))).reverse.lookup ctn with
  | some q =>
    have hq := (lookup_rev _ _ _ hn).1 hc
    obtain ⟨m, hm, he⟩ := List.mem_map.1 hq
    simp only [Prod.mk.injEq] at he
    simp only [Option.some.injEq]
    constructor
    · rintro rfl
      exact Or.inl ⟨m, hm, he⟩
    · rintro (⟨m', hm', h1, h2⟩ | ⟨h1, _⟩)
      · have := (lookup_rev (P.mods.map (fun m => (m.name, m.bbox))) ctn r hn).2
          (List.mem_map.2 ⟨m', hm', by rw [h1, h2]⟩)
        rw [hc] at this
        exact Option.some.inj this
      · exact absurd he.1 (h1 m hm)
  | none =>
    have hno : ∀ m ∈ P.mods, m.name ≠ ctn := by
      intro m hm he
      have := (lookup_rev (P.mods.map (fun m => (m.name, m.bbox))) ctn m.bbox hn).2
          (List.mem_map.2 ⟨m, hm, by rw [he]⟩)
      rw [hc] at this
      exact absurd this (by simp)
    simp only
    rw [lookup_rev _ _ _ h.leaves]
    constructor
    · exact fun hl => Or.inr ⟨hno, hl⟩
    · rintro (⟨m, hm, h1, _⟩ | ⟨_, hl⟩)
      · exact absurd h1 (hno m hm)
      · exact hl

theorem placed_eq (t : Transformation) (r : Rect) : (t.hitRect r).canonical = placedBox t r := by
  rw [Geometry.canonical_eq]
  rfl

/-- The boxes that the loop appends. -/
theorem boxes_mem (P : CPlace) (h : Defined P) (m : CMod) (hm : m ∈ P.mods) :
    ∃ boxes, m.insts.mapM (instBox P) = some boxes ∧
      ∀ n r, (n, r) ∈ (("subcircuit", m.bbox) :: boxes) ↔ BoxOf P m n r := by
  have hi : ∀ i ∈ m.insts, ∃ r, TemplateBox P i.template r ∧
      instBox P i = some (i.name, placedBox i.tr r) := by
    intro i hi
    obtain ⟨r, hr⟩ := h.templates m hm i hi
    refine ⟨r, hr, ?_⟩
    simp only [instBox, (bboxOf_iff P h _ _).2 hr, Option.map_some, placed_eq]
  cases hb : m.insts.mapM (instBox P) with
  | none =>
    exfalso
    have := Pnr.mapM_isSome (f := instBox P) (l := m.insts) (fun i hi' => by
      obtain ⟨r, _, hr⟩ := hi i hi'
      rw [hr]; rfl)
    rw [hb] at this
    exact absurd this (by simp)
  | some boxes =>
    refine ⟨boxes, rfl, ?_⟩
    intro n r
    have hf := Hier.mapM_forall₂ hb
    rw [List.mem_cons, Prod.mk.injEq]
    unfold BoxOf
    constructor
    · rintro (h1 | h1)
      · exact Or.inl h1
      · obtain ⟨i, hi', he⟩ := Gds.exists_left hf h1
        obtain ⟨q, hq, hr⟩ := hi i hi'
        rw [hr] at he
        simp only [Option.some.injEq, Prod.mk.injEq] at he
        exact Or.inr ⟨i, hi', he.1, q, hq, he.2.symm⟩
    · rintro (h1 | ⟨i, hi', hn, q, hq, hr⟩)
      · exact Or.inl h1
      · right
        obtain ⟨b, hb', he⟩ := Route.forall₂_left hf i hi'
        have h2 : instBox P i = some (i.name, placedBox i.tr q) := by
          simp only [instBox, (bboxOf_iff P h _ _).2 hq, Option.map_some, placed_eq]
        rw [h2] at he
        simp only [Option.some.injEq] at he
        rw [← hn, hr, he]
        exact hb'

theorem appends_iff (s : Int) (m : CMod) (xs : List (String × Rect)) :
    ∀ db : DB, db.cache = db.assigned →
      (Appends s m db xs ↔ ∃ β, Formulas m β ∧ (∀ e ∈ db.assigned, β e.1 = e.2) ∧
        ∀ x ∈ xs, toBox s x.2 = some (β x.1)) := by
  induction xs with
  | nil =>
    intro db _
    simp [Appends, Solvable]
  | cons x xs ih =>
    intro db hc
    constructor
    · rintro ⟨_, db', h1, h2⟩
      unfold appendBox at h1
      cases hb : toBox s x.2 with
      | none => rw [hb] at h1; cases h1
      | some b =>
        rw [hb] at h1
        simp only at h1
        by_cases hm : (x.1, b) ∈ db.cache
        · rw [if_pos hm] at h1
          cases h1
          obtain ⟨β, h3, h4, h5⟩ := (ih db hc).1 h2
          refine ⟨β, h3, h4, ?_⟩
          intro y hy
          rcases List.mem_cons.1 hy with rfl | hy
          · rw [hb, h4 (y.1, b) (hc ▸ hm)]
          · exact h5 y hy
        · rw [if_neg hm] at h1
          cases h1
          obtain ⟨β, h3, h4, h5⟩ := (ih _ (by simp only [hc])).1 h2
          refine ⟨β, h3, fun e he => h4 e (List.mem_append_left _ he), ?_⟩
          intro y hy
          rcases List.mem_cons.1 hy with rfl | hy
          · rw [hb, h4 (y.1, b) (List.mem_append_right _ (List.mem_singleton.2 rfl))]
          · exact h5 y hy
    · rintro ⟨β, h1, h2, h3⟩
      have hb := h3 x (List.mem_cons_self ..)
      refine ⟨⟨β, h1, h2⟩, ?_⟩
      unfold appendBox
      rw [hb]
      simp only
      by_cases hm : (x.1, β x.1) ∈ db.cache
      · rw [if_pos hm]
        exact ⟨db, rfl, (ih db hc).2 ⟨β, h1, h2, fun y hy => h3 y (List.mem_cons_of_mem _ hy)⟩⟩
      · rw [if_neg hm]
        refine ⟨_, rfl, (ih _ (by simp only [hc])).2 ⟨β, h1, ?_,
          fun y hy => h3 y (List.mem_cons_of_mem _ hy)⟩⟩
        intro e he
        rcases List.mem_append.1 he with he | he
        · exact h2 e he
        · rw [List.mem_singleton.1 he]

theorem formulas_iff (m : CMod) (β : String → Box Int) : Formulas m β ↔ Holds m β := by
  unfold Formulas Holds
  rw [(C39_elements_partial m.names β (β "subcircuit")).1]
  unfold CMod.names
  simp only [List.mem_map, forall_exists_index, and_imp, forall_apply_eq_imp_iff₂, and_assoc]
  rfl

theorem toBox_some (s : Int) (r : Rect) (b : Box Int) (h : toBox s r = some b) :
    b = ⟨r.llx.tdiv s, r.lly.tdiv s, r.urx.tdiv s, r.ury.tdiv s⟩ := by
  unfold toBox at h
  simp only at h
  split at h
  · split at h
    · exact (Option.some.inj h).symm
    · cases h
  · cases h

theorem toBox_of (s : Int) (hs : 0 < s) (r : Rect) (b : Box Int) (hb : Solid b)
    (h : InUnits s b r) : toBox s r = some b := by
  obtain ⟨h1, h2, h3, h4⟩ := h
  unfold toBox
  rw [← h1, ← h2, ← h3, ← h4]
  simp only [Int.mul_tdiv_cancel _ (ne_of_gt hs)]
  rw [if_pos hb.1, if_pos hb.2]

theorem tdiv_units (s x : Int) (h : s ∣ x) : x.tdiv s * s = x := Int.tdiv_mul_cancel h

theorem tdiv_within (s x : Int) (hs : 0 < s) : |x.tdiv s * s - x| < s := by
  have h1 := Int.mul_tdiv_add_tmod x s
  have h2 := Int.tmod_lt_of_pos x hs
  have h3 := Int.lt_tmod_of_pos x hs
  rw [mul_comm] at h1
  rw [abs_lt]
  constructor <;> linarith

theorem check_iff (P : CPlace) (s : Int) (h : Defined P) (m : CMod) (hm : m ∈ P.mods)
    (hc : m.cache = []) : checkModule P s m ↔ NamesKnown m ∧
      ∃ β, Holds m β ∧ ∀ n r, BoxOf P m n r → toBox s r = some (β n) := by
  obtain ⟨boxes, h1, h2⟩ := boxes_mem P h m hm
  have hk : (∃ cs, expand m.cons = some cs ∧ ∀ i ∈ notIdentified cs, i ∈ m.names) ↔
      NamesKnown m := by
    unfold NamesKnown
    refine exists_congr fun cs => and_congr_right fun _ => ?_
    unfold notIdentified CMod.names
    constructor
    · intro h is his n hn
      exact List.mem_map.1 (h n (List.mem_flatMap.2 ⟨_, his, hn⟩))
    · intro h n hn
      obtain ⟨c, hc', hn'⟩ := List.mem_flatMap.1 hn
      cases c <;> simp only [List.not_mem_nil] at hn'
      exact List.mem_map.2 (h _ hc' n hn')
  unfold checkModule
  rw [hk]
  refine and_congr_right fun _ => ?_
  rw [hc]
  constructor
  · rintro ⟨bs, hbs, ha⟩
    rw [h1] at hbs
    cases hbs
    obtain ⟨β, h3, _, h5⟩ := (appends_iff s m _ _ rfl).1 ha
    exact ⟨β, (formulas_iff m β).1 h3, fun n r hr => h5 (n, r) ((h2 n r).2 hr)⟩
  · rintro ⟨β, h3, h4⟩
    exact ⟨boxes, h1, (appends_iff s m _ _ rfl).2 ⟨β, (formulas_iff m β).2 h3, by simp,
      fun x hx => h4 x.1 x.2 ((h2 x.1 x.2).1 hx)⟩⟩

/-- If all the boxes are at whole units, the check succeeds exactly for the placements that satisfy
the constraints.  Missing: boxes at fractions of a unit, see `C89_violated_accepted` and
`C89_violated_rejected`. -/
theorem C89_exact_partial (P : CPlace) (s : Int) (hs : 0 < s) (h : Defined P)
    (hc : ∀ m ∈ P.mods, m.cache = [])
    (hw : ∀ m ∈ P.mods, ∀ n r, BoxOf P m n r → Whole s r) :
    checkPlacement P s ↔ ∀ m ∈ P.mods, NamesKnown m ∧
      ∃ β : String → Box Int, Holds m β ∧ ∀ n r, BoxOf P m n r → InUnits s (β n) r := by
  unfold checkPlacement
  refine forall₂_congr fun m hm => ?_
  rw [check_iff P s h m hm (hc m hm)]
  refine and_congr_right fun _ => exists_congr fun β => and_congr_right fun hβ =>
    forall₂_congr fun n r => ?_
  constructor
  · intro h1 hr
    have := toBox_some _ _ _ (h1 hr)
    obtain ⟨w1, w2, w3, w4⟩ := hw m hm n r hr
    rw [this]
    exact ⟨tdiv_units _ _ w1, tdiv_units _ _ w2, tdiv_units _ _ w3, tdiv_units _ _ w4⟩
  · intro h1 hr
    refine toBox_of s hs r (β n) ?_ (h1 hr)
    rcases hr with ⟨rfl, _⟩ | ⟨i, hi, rfl, _⟩
    · exact hβ.1
    · exact (hβ.2.1 i hi).1

/-- Whatever the boxes are, an accepted placement satisfies the constraints after moving each side
of a box by less than one unit. -/
theorem C89_within_partial (P : CPlace) (s : Int) (hs : 0 < s) (h : Defined P)
    (hc : ∀ m ∈ P.mods, m.cache = []) (ha : checkPlacement P s) :
    ∀ m ∈ P.mods, NamesKnown m ∧
      ∃ β : String → Box Int, Holds m β ∧ ∀ n r, BoxOf P m n r → Within s (β n) r := by
  intro m hm
  obtain ⟨h1, β, h2, h3⟩ := (check_iff P s h m hm (hc m hm)).1 (ha m hm)
  refine ⟨h1, β, h2, fun n r hr => ?_⟩
  rw [toBox_some _ _ _ (h3 n r hr)]
  exact ⟨tdiv_within _ _ hs, tdiv_within _ _ hs, tdiv_within _ _ hs, tdiv_within _ _ hs⟩

/-! ## In database units -/

/-- A rectangle as a box. -/
def rectBox (r : Rect) : Box Int := ⟨r.llx, r.lly, r.urx, r.ury⟩

theorem scale_map (s : Int) (β : String → Box Int) (at' : String → Rect) (is : List String)
    (h : ∀ n ∈ is, InUnits s (β n) (at' n)) :
    is.map (fun n => rectBox (at' n)) =
      (is.map β).map (fun b => (⟨b.llx * s, b.lly * s, b.urx * s, b.ury * s⟩ : Box Int)) := by
  rw [List.map_map]
  apply List.map_congr_left
  intro n hn
  obtain ⟨h1, h2, h3, h4⟩ := h n hn
  simp only [rectBox, Function.comp_apply, h1, h2, h3, h4]

theorem leftToRight_scale (s : Int) (hs : 0 < s) (bs : List (Box Int)) (h : LeftToRight bs) :
    LeftToRight (bs.map (fun b => (⟨b.llx * s, b.lly * s, b.urx * s, b.ury * s⟩ : Box Int))) := by
  unfold LeftToRight at *
  rw [List.pairwise_map]
  exact h.imp (fun hab => mul_le_mul_of_nonneg_right hab hs.le)

theorem bottomToTop_scale (s : Int) (hs : 0 < s) (bs : List (Box Int)) (h : BottomToTop bs) :
    BottomToTop (bs.map (fun b => (⟨b.llx * s, b.lly * s, b.urx * s, b.ury * s⟩ : Box Int))) := by
  unfold BottomToTop at *
  rw [List.pairwise_map]
  exact h.imp (fun hab => mul_le_mul_of_nonneg_right hab hs.le)

theorem ordered_scale (s : Int) (hs : 0 < s) (bs : List (Box Int)) (d : Dir) (hd : Directed d)
    (h : Ordered bs (some d)) :
    Ordered (bs.map (fun b => (⟨b.llx * s, b.lly * s, b.urx * s, b.ury * s⟩ : Box Int)))
      (some d) := by
  cases d with
  | horizontal => exact hd.elim
  | vertical => exact hd.elim
  | leftToRight => exact leftToRight_scale s hs _ h
  | rightToLeft =>
    simp only [Ordered, ← List.map_reverse]
    exact leftToRight_scale s hs _ h
  | topToBottom =>
    simp only [Ordered, ← List.map_reverse]
    exact bottomToTop_scale s hs _ h
  | bottomToTop => exact bottomToTop_scale s hs _ h

theorem touching_scale (s : Int) (bs : List (Box Int)) (d : Dir) (hd : Directed d)
    (h : Touching bs d) :
    Touching (bs.map (fun b => (⟨b.llx * s, b.lly * s, b.urx * s, b.ury * s⟩ : Box Int))) d := by
  cases d <;> first
    | exact hd.elim
    | (simp only [Touching, List.isChain_map] at *
       exact h.imp (fun a b hab => by rw [hab]))

theorem aligned_scale (s : Int) (bs : List (Box Int)) (l : Line) (hl : IsSide l)
    (h : AlignedSide bs l) :
    AlignedSide (bs.map (fun b => (⟨b.llx * s, b.lly * s, b.urx * s, b.ury * s⟩ : Box Int))) l := by
  cases l <;> first
    | exact hl.elim
    | (obtain ⟨c, hc⟩ := h
       refine ⟨c * s, ?_⟩
       intro b hb
       obtain ⟨a, ha, rfl⟩ := List.mem_map.1 hb
       simp only [hc a ha])

theorem expand_mem (c : Cons) (ys : List Cons) (hy : yieldConstraints c = some ys) :
    ∀ (cs ex : List Cons), expand cs = some ex → c ∈ cs → ∀ y ∈ ys, y ∈ ex := by
  intro cs
  induction cs with
  | nil => intro ex _ hc; simp at hc
  | cons a cs ih =>
    intro ex he hc y hyy
    unfold expand at he
    simp only [Option.bind_eq_bind, Option.bind_eq_some_iff] at he
    obtain ⟨ya, h1, rest, h2, h3⟩ := he
    simp only [Option.some.injEq] at h3
    subst h3
    rcases List.mem_cons.1 hc with rfl | hc
    · rw [hy] at h1
      cases h1
      simp [hyy]
    · exact List.mem_append_right _ (ih rest h2 hc y hyy)

/-- In an accepted placement with boxes at whole units, the instances of a directed `Order` stand
in this order, in database units, and touch if they are to abut. -/
theorem C89_order_partial (P : CPlace) (s : Int) (hs : 0 < s) (h : Defined P)
    (hc : ∀ m ∈ P.mods, m.cache = [])
    (hw : ∀ m ∈ P.mods, ∀ n r, BoxOf P m n r → Whole s r) (ha : checkPlacement P s)
    (m : CMod) (hm : m ∈ P.mods) (is : List String) (d : Dir) (hd : Directed d) (abut : Bool)
    (ho : Cons.order is (some d) abut ∈ m.cons) (pos : String → Rect)
    (hpos : ∀ i ∈ m.insts, BoxOf P m i.name (pos i.name)) :
    Ordered (is.map (fun n => rectBox (pos n))) (some d) ∧
      (abut = true → Touching (is.map (fun n => rectBox (pos n))) d) := by
  obtain ⟨⟨ex, hex, hk⟩, β, ⟨_, hb, hsat⟩, hu⟩ :=
    (C89_exact_partial P s hs h hc hw).1 ha m hm
  have hin : ∀ n ∈ is, ∃ i ∈ m.insts, i.name = n :=
    hk is (expand_mem _ _ rfl _ _ hex ho _ (List.mem_singleton.2 rfl))
  have hsc := scale_map s β pos is (by
    intro n hn
    obtain ⟨i, hi, rfl⟩ := hin n hn
    exact hu _ _ (hpos i hi))
  have := (C38_order_directed m.names β _ is d abut hd (by
    intro n hn
    obtain ⟨i, hi, rfl⟩ := hin n hn
    exact ⟨(hb i hi).1.1.le, (hb i hi).1.2.le⟩)).1 (hsat _ ho)
  rw [hsc]
  exact ⟨ordered_scale s hs _ d hd this.1, fun h => touching_scale s _ d hd (this.2 h)⟩

/-- In an accepted placement with boxes at whole units, the instances of an `Align` on a side have
this side at the same coordinate. -/
theorem C89_align_partial (P : CPlace) (s : Int) (hs : 0 < s) (h : Defined P)
    (hc : ∀ m ∈ P.mods, m.cache = [])
    (hw : ∀ m ∈ P.mods, ∀ n r, BoxOf P m n r → Whole s r) (ha : checkPlacement P s)
    (m : CMod) (hm : m ∈ P.mods) (is : List String) (l : Line) (hl : IsSide l)
    (ho : Cons.align is (some l) ∈ m.cons) (pos : String → Rect)
    (hpos : ∀ i ∈ m.insts, BoxOf P m i.name (pos i.name)) :
    AlignedSide (is.map (fun n => rectBox (pos n))) l := by
  obtain ⟨⟨ex, hex, hk⟩, β, ⟨_, hb, hsat⟩, hu⟩ :=
    (C89_exact_partial P s hs h hc hw).1 ha m hm
  have hin : ∀ n ∈ is, ∃ i ∈ m.insts, i.name = n :=
    hk is (expand_mem _ _ rfl _ _ hex ho _ (List.mem_singleton.2 rfl))
  rw [scale_map s β pos is (by
    intro n hn
    obtain ⟨i, hi, rfl⟩ := hin n hn
    exact hu _ _ (hpos i hi))]
  exact aligned_scale s _ l hl ((C38_align_side m.names β _ is l hl).1 (hsat _ ho))

/-! ## Concrete placements -/

/-- Two instances, `A` of the leaf `ca` and `B` of the leaf `cb`. -/
def two (ra rb : Rect) (ta tb : Transformation) (cs : List Cons)
    (cache : List (String × Box Int)) : CPlace :=
  { mods := [⟨"top_0", ⟨0, 0, 300, 400⟩, [⟨"A", "ca", ta, []⟩, ⟨"B", "cb", tb, []⟩], cs, cache⟩]
    leaves := [("ca", ra), ("cb", rb)] }

theorem two_defined (ra rb : Rect) (ta tb : Transformation) (cs : List Cons)
    (cache : List (String × Box Int)) : Defined (two ra rb ta tb cs cache) := by
  refine ⟨by simp [two], by simp [two], ?_⟩
  intro m hm i hi
  simp only [two, List.mem_singleton] at hm
  subst hm
  simp only [List.mem_cons, List.not_mem_nil, or_false] at hi
  rcases hi with rfl | rfl
  · exact ⟨ra, Or.inr ⟨by simp [two], by simp [two]⟩⟩
  · exact ⟨rb, Or.inr ⟨by simp [two], by simp [two]⟩⟩

theorem two_boxes (ra rb : Rect) (ta tb : Transformation) (cs : List Cons)
    (cache : List (String × Box Int)) (m : CMod) (hm : m ∈ (two ra rb ta tb cs cache).mods)
    (n : String) (r : Rect) : BoxOf (two ra rb ta tb cs cache) m n r ↔
      (n = "subcircuit" ∧ r = ⟨0, 0, 300, 400⟩) ∨ (n = "A" ∧ r = placedBox ta ra) ∨
        (n = "B" ∧ r = placedBox tb rb) := by
  have hb : ∀ q c, TemplateBox (two ra rb ta tb cs cache) c q ↔ (c = "top_0" ∧ q = ⟨0, 0, 300, 400⟩) ∨
      (c ≠ "top_0" ∧ ((c = "ca" ∧ q = ra) ∨ (c = "cb" ∧ q = rb))) := by
    intro q c
    simp [TemplateBox, two, eq_comm]
  simp only [two, List.mem_singleton] at hm
  subst hm
  simp [BoxOf, hb, eq_comm]

/-- Three boxes by name. -/
def boxes3 (s a b : Box Int) (n : String) : Box Int :=
  if n = "A" then a else if n = "B" then b else s

theorem two_accepted (ra rb : Rect) (ta tb : Transformation) (cs : List Cons) (s : Int)
    (a b : Box Int)
    (hk : ∃ ex, expand cs = some ex ∧ ∀ n ∈ notIdentified ex, n ∈ ["A", "B"])
    (h0 : toBox s ⟨0, 0, 300, 400⟩ = some ⟨0, 0, 30, 40⟩) (ha : toBox s (placedBox ta ra) = some a)
    (hb : toBox s (placedBox tb rb) = some b)
    (he : ∀ f ∈ elementFormulas ["A", "B"] (boxes3 ⟨0, 0, 30, 40⟩ a b) ⟨0, 0, 30, 40⟩, f = true)
    (hc : ∀ c ∈ cs, Satisfied ["A", "B"] (boxes3 ⟨0, 0, 30, 40⟩ a b) ⟨0, 0, 30, 40⟩ c) :
    checkPlacement (two ra rb ta tb cs []) s := by
  intro m hm
  have hbx := two_boxes ra rb ta tb cs [] m hm
  have hd := two_defined ra rb ta tb cs []
  have hm' := hm
  simp only [two, List.mem_singleton] at hm'
  rw [check_iff _ s hd m hm (by rw [hm'])]
  refine ⟨?_, boxes3 ⟨0, 0, 30, 40⟩ a b, ?_, ?_⟩
  · obtain ⟨ex, h1, h2⟩ := hk
    refine ⟨ex, by rw [hm']; exact h1, ?_⟩
    intro is his n hn
    have := h2 n (List.mem_flatMap.2 ⟨_, his, hn⟩)
    rw [hm']
    simpa [eq_comm] using this
  · rw [← formulas_iff]
    subst hm'
    exact ⟨he, hc⟩
  · intro n r hr
    rcases (hbx n r).1 hr with ⟨rfl, rfl⟩ | ⟨rfl, rfl⟩ | ⟨rfl, rfl⟩
    · exact h0
    · exact ha
    · exact hb

/-- `B` stands half a unit higher than `A`. -/
def misaligned : CPlace :=
  two ⟨0, 0, 100, 100⟩ ⟨0, 0, 100, 100⟩ {} { oX := 200, oY := 5 }
    [.align ["A", "B"] (some .hBottom)] []

/-- A placement is accepted although two instances that are to be aligned at the bottom are not. -/
theorem C89_violated_accepted : Defined misaligned ∧ checkPlacement misaligned 10 ∧
    ∃ m ∈ misaligned.mods, Cons.align ["A", "B"] (some .hBottom) ∈ m.cons ∧
      BoxOf misaligned m "A" ⟨0, 0, 100, 100⟩ ∧ BoxOf misaligned m "B" ⟨200, 5, 300, 105⟩ := by
  refine ⟨two_defined .., ?_, ?_⟩
  · refine two_accepted _ _ _ _ _ 10 ⟨0, 0, 10, 10⟩ ⟨20, 0, 30, 10⟩ ⟨_, rfl, by decide⟩ (by decide)
      (by decide) (by decide) (by decide) ?_
    intro c hc
    rw [List.mem_singleton.1 hc]
    exact ⟨_, rfl, by decide⟩
  · refine ⟨_, List.mem_singleton.2 rfl, List.mem_singleton.2 rfl, ?_, ?_⟩
    · exact (two_boxes _ _ _ _ _ _ _ (List.mem_singleton.2 rfl) _ _).2 (Or.inr (Or.inl ⟨rfl, by decide⟩))
    · exact (two_boxes _ _ _ _ _ _ _ (List.mem_singleton.2 rfl) _ _).2 (Or.inr (Or.inr ⟨rfl, by decide⟩))

/-- `A` stands above `B`, both centered at 50. -/
def centered : CPlace :=
  two ⟨0, 0, 90, 100⟩ ⟨0, 0, 100, 100⟩ { oX := 5, oY := 200 } {}
    [.symmetricBlocks [["A"], ["B"]] .x] []

/-- A placement is rejected although its two instances have the same center line, as they should,
and all the boxes are inside that of the module. -/
theorem C89_violated_rejected : Defined centered ∧ ¬ checkPlacement centered 10 ∧
    ∃ m ∈ centered.mods, m.cons = [.symmetricBlocks [["A"], ["B"]] .x] ∧
      ∃ ra rb : Rect, BoxOf centered m "A" ra ∧ BoxOf centered m "B" rb ∧
        SymmetricDoc [[(rectBox ra).toQ], [(rectBox rb).toQ]] .x ∧
        GoodPlacement [(rectBox ra).toQ, (rectBox rb).toQ] (rectBox m.bbox).toQ := by
  refine ⟨two_defined .., ?_, ?_⟩
  · intro h
    have hm : (⟨"top_0", ⟨0, 0, 300, 400⟩, [⟨"A", "ca", { oX := 5, oY := 200 }, []⟩,
        ⟨"B", "cb", {}, []⟩], [.symmetricBlocks [["A"], ["B"]] .x], []⟩ : CMod) ∈ centered.mods :=
      List.mem_singleton.2 rfl
    obtain ⟨_, β, ⟨_, _, h1⟩, h2⟩ := (check_iff centered 10 (two_defined ..) _ hm rfl).1 (h _ hm)
    have ha := h2 "A" ⟨5, 200, 95, 300⟩
      ((two_boxes _ _ _ _ _ _ _ hm _ _).2 (Or.inr (Or.inl ⟨rfl, by decide⟩)))
    have hb := h2 "B" ⟨0, 0, 100, 100⟩
      ((two_boxes _ _ _ _ _ _ _ hm _ _).2 (Or.inr (Or.inr ⟨rfl, by decide⟩)))
    have ha' : β "A" = ⟨0, 20, 9, 30⟩ := toBox_some _ _ _ ha
    have hb' : β "B" = ⟨0, 0, 10, 10⟩ := toBox_some _ _ _ hb
    have hs := (C38_symmetric_blocks _ β _ _ .x (by
      intro p hp
      simp only [List.mem_cons, List.not_mem_nil, or_false] at hp
      rcases hp with rfl | rfl
      · exact Or.inl ⟨_, rfl⟩
      · exact Or.inl ⟨_, rfl⟩)).1 (h1 _ (List.mem_singleton.2 rfl))
    obtain ⟨line, hl⟩ := hs
    simp only [List.map_cons, List.map_nil, ha', hb', List.mem_cons, List.not_mem_nil, or_false,
      forall_eq_or_imp, forall_eq] at hl
    obtain ⟨l1, l2⟩ := hl
    rcases l1 with ⟨b, e1, c1⟩ | ⟨_, _, e1, _⟩ <;> [skip; simp at e1]
    rcases l2 with ⟨b', e2, c2⟩ | ⟨_, _, e2, _⟩ <;> [skip; simp at e2]
    simp only [List.cons.injEq, and_true] at e1 e2
    subst e1
    subst e2
    rw [← c2] at c1
    norm_num [center, Box.toQ, Box.ll, Box.ur] at c1
  · refine ⟨_, List.mem_singleton.2 rfl, rfl, ⟨5, 200, 95, 300⟩, ⟨0, 0, 100, 100⟩, ?_, ?_, ?_, ?_⟩
    · exact (two_boxes _ _ _ _ _ _ _ (List.mem_singleton.2 rfl) _ _).2 (Or.inr (Or.inl ⟨rfl, by decide⟩))
    · exact (two_boxes _ _ _ _ _ _ _ (List.mem_singleton.2 rfl) _ _).2 (Or.inr (Or.inr ⟨rfl, by decide⟩))
    · refine ⟨50, ?_⟩
      intro p hp
      simp only [List.mem_cons, List.not_mem_nil, or_false] at hp
      rcases hp with rfl | rfl
      · exact Or.inl ⟨_, rfl, by norm_num [center, Box.toQ, Box.ll, Box.ur, rectBox]⟩
      · exact Or.inl ⟨_, rfl, by norm_num [center, Box.toQ, Box.ll, Box.ur, rectBox]⟩
    · refine ⟨by norm_num [Box.toQ, rectBox], ?_, ?_⟩
      · intro b hb
        simp only [List.mem_cons, List.not_mem_nil, or_false] at hb
        rcases hb with rfl | rfl <;> norm_num [Box.toQ, rectBox]
      · simp only [List.pairwise_cons, List.mem_cons, List.not_mem_nil, or_false, forall_eq,
          List.Pairwise.nil, and_true, false_imp_iff, implies_true]
        rintro ⟨x, y, h1, h2, h3, h4, h5, h6, h7, h8⟩
        simp only [Box.toQ, rectBox] at *
        norm_num at *
        linarith

/-- The placement that is checked first, and the one checked with the same constraints after it. -/
def first : CPlace :=
  two ⟨0, 0, 100, 100⟩ ⟨0, 0, 100, 100⟩ {} { oX := 200, oY := 0 }
    [.align ["A", "B"] (some .hBottom)] []

/-- `first` after its check, with `B` moved up. -/
def second (cache : List (String × Box Int)) : CPlace :=
  two ⟨0, 0, 100, 100⟩ ⟨0, 0, 100, 100⟩ {} { oX := 200, oY := 100 }
    [.align ["A", "B"] (some .hBottom)] cache

/-- A second check with the same constraint database does not see the boxes that are where they
were in the first: a placement at whole units which is not aligned is accepted. -/
theorem C89_violated_again : checkPlacement first 10 ∧
    ∃ m ∈ first.mods, ∃ m', afterCheck first 10 m = some m' ∧
      checkPlacement (second m'.cache) 10 ∧
      ∃ m2 ∈ (second m'.cache).mods, Cons.align ["A", "B"] (some .hBottom) ∈ m2.cons ∧
        BoxOf (second m'.cache) m2 "A" ⟨0, 0, 100, 100⟩ ∧
        BoxOf (second m'.cache) m2 "B" ⟨200, 100, 300, 200⟩ := by
  refine ⟨?_, _, List.mem_singleton.2 rfl, _, rfl, ?_, ?_⟩
  · refine two_accepted _ _ _ _ _ 10 ⟨0, 0, 10, 10⟩ ⟨20, 0, 30, 10⟩ ⟨_, rfl, by decide⟩ (by decide)
      (by decide) (by decide) (by decide) ?_
    intro c hc
    rw [List.mem_singleton.1 hc]
    exact ⟨_, rfl, by decide⟩
  · intro m hm
    rw [List.mem_singleton.1 hm]
    refine ⟨⟨_, rfl, by decide⟩, _, rfl, ?_⟩
    have hF : Formulas ⟨"top_0", ⟨0, 0, 300, 400⟩, [⟨"A", "ca", {}, []⟩,
        ⟨"B", "cb", { oX := 200, oY := 100 }, []⟩], [.align ["A", "B"] (some .hBottom)],
          [("subcircuit", ⟨0, 0, 30, 40⟩), ("A", ⟨0, 0, 10, 10⟩), ("B", ⟨20, 0, 30, 10⟩)]⟩
        (boxes3 ⟨0, 0, 30, 40⟩ ⟨0, 10, 10, 20⟩ ⟨20, 10, 30, 20⟩) := by
      refine ⟨by decide, ?_⟩
      intro c hc
      rw [List.mem_singleton.1 hc]
      exact ⟨_, rfl, by decide⟩
    refine ⟨⟨_, hF, by simp⟩, _, rfl, ⟨_, hF, by simp⟩, _, rfl, ⟨_, hF, by simp⟩, _, rfl, _, hF, ?_⟩
    intro e he
    rw [List.mem_singleton.1 he]
    rfl
  · refine ⟨_, List.mem_singleton.2 rfl, List.mem_singleton.2 rfl, ?_, ?_⟩
    · exact (two_boxes _ _ _ _ _ _ _ (List.mem_singleton.2 rfl) _ _).2 (Or.inr (Or.inl ⟨rfl, by decide⟩))
    · exact (two_boxes _ _ _ _ _ _ _ (List.mem_singleton.2 rfl) _ _).2 (Or.inr (Or.inr ⟨rfl, by decide⟩))

/-- The hypotheses of the theorems above are met by `first`. -/
example : Defined first ∧ (∀ m ∈ first.mods, m.cache = []) ∧
    (∀ m ∈ first.mods, ∀ n r, BoxOf first m n r → Whole 10 r) ∧ checkPlacement first 10 := by
  refine ⟨two_defined .., ?_, ?_, C89_violated_again.1⟩
  · intro m hm
    rw [List.mem_singleton.1 hm]
  · intro m hm n r hr
    rcases (two_boxes _ _ _ _ _ _ m hm n r).1 hr with ⟨_, rfl⟩ | ⟨_, rfl⟩ | ⟨_, rfl⟩
    · exact ⟨by decide, by decide, by decide, by decide⟩
    · exact ⟨by decide, by decide, by decide, by decide⟩
    · exact ⟨by decide, by decide, by decide, by decide⟩

end Verif.PlaceCheck

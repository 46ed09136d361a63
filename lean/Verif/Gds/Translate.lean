import Verif.Gds.RoundTrip
import Verif.Hier.HpwlProps
import Mathlib.Tactic.Tauto

/-!
# C65: the GDS view of a cell

Model of `translate_data` (`align/cell_fabric/gen_gds_json.py`, 9-125), which turns terminals into GDS boundaries,
texts and references.

Simplifications: coordinates are integers (`scale`, 54-63, is the identity on integers); a pin that is
labelled has a net name; the pattern for excluded nets is a predicate on names; the units are given.
-/

namespace Verif.Gds

structure Rect where
  x0 : Int
  y0 : Int
  x1 : Int
  y1 : Int
deriving DecidableEq, Repr

/-- A layer of the PDK: its GDS number, and its data types (`GdsDatatype`). -/
structure GdsLayer where
  name : String
  no : Int
  types : List (String × Int)

/-- A terminal: layer, net, `netType == 'pin'`, colour, rectangle. -/
structure Term where
  layer : String
  net : Option Str
  isPin : Bool
  color : Option String
  rect : Rect

/-- Settings of a call; `guard` has `viaArray`, `v0WidthX` and `v0SpaceX`; `v0Width` is `WidthX` of `V0`. -/
structure Cfg where
  layers : List GdsLayer
  excluded : Str → Bool
  pinSwitch : Bool
  labelOnce : Bool
  reqLabels : Option (List Str)
  v0Width : Int
  guard : Nat × Int × Int
  /-- `via_gen_tbl` (name of a via, name of its structure, its boxes) -/
  vias : List (String × Str × List (String × Rect))

section
variable {R : Type}

/-- `j[k]` -/
def findLayer (c : Cfg) (k : String) : Option GdsLayer := c.layers.find? fun l => l.name == k

/-- `flat_rect_to_boundary` (13-15). -/
def outline (r : Rect) : List Int := [r.x0, r.y0, r.x0, r.y1, r.x1, r.y1, r.x1, r.y0, r.x0, r.y0]

/-- A boundary on layer `k` with the data type named `ty`. -/
def boundary (c : Cfg) (k ty : String) (r : Rect) : Option (Elem R) :=
  (findLayer c k).bind fun l => (l.types.lookup ty).map fun dt =>
    .boundary (some l.no) (some dt) (some (outline r)) none none

/-- Lines 38-46: the structure of a via. -/
def viaCell (c : Cfg) (time : List Int) (v : String × Str × List (String × Rect)) : Option (Cell R) :=
  (v.2.2.mapM fun b => boundary c b.1 "Draw" b.2).map fun es => ⟨time, v.2.1, some es⟩

/-- `exclude_based_on_name` (70-71). -/
def skip (c : Cfg) (t : Term) : Bool :=
  match t.net with
  | none => false
  | some n => c.excluded n

def isViaLayer (c : Cfg) (k : String) : Bool := (c.vias.map Prod.fst).contains k

/-- Wide via of a guard ring (81). -/
def wideV0 (c : Cfg) (t : Term) : Bool := t.layer == "V0" && decide (t.rect.x1 - t.rect.x0 > 10 * c.v0Width)

/-- Lines 82-87. -/
def guardRects (c : Cfg) (r : Rect) : List Rect :=
  (List.range c.guard.1).map fun (i : Nat) =>
    ⟨r.x0 + i * (c.guard.2.1 + c.guard.2.2), r.y0,
     r.x0 + i * (c.guard.2.1 + c.guard.2.2) + c.guard.2.1, r.y1⟩

/-- `int(s / 2)` (96): towards zero.  (Exact in floating point as long as the sum is less than 2^53.) -/
def half (s : Int) : Int := if s < 0 then -(-s / 2) else s / 2

/-- `None == reqLabels or name in reqLabels` (93). -/
def reqOk (c : Cfg) (n : Str) : Bool :=
  match c.reqLabels with
  | none => true
  | some ls => ls.contains n

/-- Lines 92-100: the label of a pin.  `seen` are the labels that were written. -/
def label (c : Cfg) (l : GdsLayer) (t : Term) (seen : List Str) : Option (List (Elem R) × List Str) :=
  match l.types.lookup "Label" with
  | none => some ([], seen)
  | some ty =>
    match t.net with
    | none => none
    | some n =>
      if reqOk c n && (!c.labelOnce || !seen.contains n) then
        some ([.text (some l.no) (some ty) none none none none
          (some [half (t.rect.x0 + t.rect.x1), half (t.rect.y0 + t.rect.y1)]) (some n)], n :: seen)
      else some ([], seen)

/-- Lines 81-104: the main drawing of a terminal. -/
def draw (c : Cfg) (t : Term) (seen : List Str) : Option (List (Elem R) × List Str) :=
  if wideV0 c t then ((guardRects c t.rect).mapM (boundary c t.layer "Draw")).map fun es => (es, seen)
  else if c.pinSwitch && t.isPin then
    (boundary c t.layer "Pin" t.rect).bind fun b => (findLayer c t.layer).bind fun l =>
      (label c l t seen).map fun p => (b :: p.1, p.2)
  else (boundary c t.layer "Draw" t.rect).map fun b => ([b], seen)

/-- Lines 105-108. -/
def colorOf (c : Cfg) (t : Term) : Option (List (Elem R)) :=
  match t.color with
  | none => some []
  | some ty => (boundary c t.layer ty t.rect).map fun b => [b]

/-- The loop over terminals that are no vias (73-108). -/
def shapes (c : Cfg) : List Term → List Str → Option (List (Elem R))
  | [], _ => some []
  | t :: ts, seen =>
    if isViaLayer c t.layer || skip c t then shapes c ts seen
    else (draw c t seen).bind fun p => (colorOf c t).bind fun col =>
      (shapes c ts p.2).map fun rest => p.1 ++ col ++ rest

/-- The loop over vias (110-120). -/
def refs (c : Cfg) (ts : List Term) : List (Elem R) :=
  ts.filterMap fun t =>
    match c.vias.lookup t.layer with
    | none => none
    | some v =>
      if skip c t then none
      else some (.sref (some v.1) none none none (some [(t.rect.x0 + t.rect.x1) / 2, (t.rect.y0 + t.rect.y1) / 2]))

/-- `translate_data` (9-125). -/
def translate (c : Cfg) (time : List Int) (units : List R) (name : Str) (ts : List Term) (bbox : Rect) :
    Option (Data R) :=
  (c.vias.mapM (viaCell c time)).bind fun vcells => (shapes c ts []).bind fun sh =>
    (boundary c "Bbox" "Draw" bbox).map fun bb =>
      ⟨600, [⟨time, "pcell".toList, units, vcells ++ [⟨time, name, some (sh ++ refs c ts ++ [bb])⟩]⟩]⟩

/-! ## Specification -/

/-- Points of a flat list of coordinates. -/
def points : List Int → List (Int × Int)
  | x :: y :: rest => (x, y) :: points rest
  | _ => []

/-- A closed path around the rectangle: it starts and ends at the same corner, follows the sides, and visits all
corners. -/
structure Around (ps : List (Int × Int)) (r : Rect) : Prop where
  closed : ps.head? = ps.getLast?
  sides : ps.IsChain fun p q => (p.1 = q.1 ∧ p.2 ≠ q.2 → p.1 = r.x0 ∨ p.1 = r.x1) ∧
    (p.2 = q.2 ∧ p.1 ≠ q.1 → p.2 = r.y0 ∨ p.2 = r.y1) ∧ (p.1 = q.1 ∨ p.2 = q.2)
  corners : ∀ p, p ∈ ps ↔ (p.1 = r.x0 ∨ p.1 = r.x1) ∧ (p.2 = r.y0 ∨ p.2 = r.y1)
  five : ps.length = 5

/-- `l` is the first layer named `k`. -/
def LayerNamed (c : Cfg) (k : String) (l : GdsLayer) : Prop :=
  ∃ pre post, c.layers = pre ++ l :: post ∧ l.name = k ∧ ∀ x ∈ pre, x.name ≠ k

/-- The net of the terminal is not excluded. -/
def kept (c : Cfg) (t : Term) : Bool := t.net.all fun n => !c.excluded n

/-- A via of the lowest layer that is more than ten times wider than the rule. -/
def Wide (c : Cfg) (t : Term) : Prop := t.layer = "V0" ∧ 10 * c.v0Width < t.rect.x1 - t.rect.x0

/-- The element draws rectangle `r` on layer `k` with the data type named `ty`. -/
def Draws (c : Cfg) (k ty : String) (r : Rect) (e : Elem R) : Prop :=
  ∃ l dt xy, LayerNamed c k l ∧ l.types.lookup ty = some dt ∧
    e = .boundary (some l.no) (some dt) (some xy) none none ∧ Around (points xy) r

/-- The element is a label with the name of the net, on the layer, inside of the rectangle. -/
def Labels (c : Cfg) (t : Term) (e : Elem R) : Prop :=
  ∃ l ty n x y, LayerNamed c t.layer l ∧ l.types.lookup "Label" = some ty ∧ t.net = some n ∧
    e = .text (some l.no) (some ty) none none none none (some [x, y]) (some n) ∧
    (t.rect.x0 ≤ t.rect.x1 → t.rect.x0 ≤ x ∧ x ≤ t.rect.x1) ∧ (t.rect.y0 ≤ t.rect.y1 → t.rect.y0 ≤ y ∧ y ≤ t.rect.y1)

/-- The name on a text element. -/
def textOf : Elem R → Option Str
  | .text _ _ _ _ _ _ _ s => s
  | _ => none

/-- The terminal is drawn as itself (no via with a structure, not excluded). -/
def Drawn (c : Cfg) (t : Term) : Prop := t.layer ∉ c.vias.map Prod.fst ∧ kept c t = true

/-- Data type of a terminal. -/
def kind (c : Cfg) (t : Term) : String := if c.pinSwitch = true ∧ t.isPin = true then "Pin" else "Draw"

/-- What the elements of one terminal are: its rectangle (or the vias of a guard ring), perhaps a label, and the
colour. -/
inductive OfTerm (c : Cfg) (t : Term) : List (Elem R) → Prop
  | plain (b : Elem R) (lab col : List (Elem R)) : ¬ Wide c t → Draws c t.layer (kind c t) t.rect b →
      (lab = [] ∨ ∃ e, lab = [e] ∧ c.pinSwitch = true ∧ t.isPin = true ∧ Labels c t e) →
      (t.color = none ∧ col = [] ∨ ∃ ty e, t.color = some ty ∧ col = [e] ∧ Draws c t.layer ty t.rect e) →
      OfTerm c t ([b] ++ lab ++ col)
  | guard (es col : List (Elem R)) : Wide c t →
      List.Forall₂ (fun (i : Nat) e => ∃ r : Rect, Draws c t.layer "Draw" r e ∧ r.y0 = t.rect.y0 ∧ r.y1 = t.rect.y1 ∧
        r.x0 = t.rect.x0 + i * (c.guard.2.1 + c.guard.2.2) ∧ r.x1 - r.x0 = c.guard.2.1) (List.range c.guard.1) es →
      (t.color = none ∧ col = [] ∨ ∃ ty e, t.color = some ty ∧ col = [e] ∧ Draws c t.layer ty t.rect e) →
      OfTerm c t (es ++ col)

/-! ## Proofs -/

theorem around_outline (r : Rect) : Around (points (outline r)) r := by
  refine ⟨rfl, ?_, ?_, rfl⟩
  · simp only [points, outline, List.isChain_cons_cons, List.IsChain.singleton, and_true]
    simp
  · intro p
    obtain ⟨x, y⟩ := p
    simp only [points, outline, List.mem_cons, Prod.mk.injEq, List.not_mem_nil, or_false]
    tauto

theorem layer_iff {c : Cfg} {k : String} {l : GdsLayer} : findLayer c k = some l ↔ LayerNamed c k l := by
  unfold findLayer LayerNamed
  rw [List.find?_eq_some_iff_append]
  constructor
  · rintro ⟨h1, pre, post, h2, h3⟩
    exact ⟨pre, post, h2, by simpa using h1, fun x hx => by simpa using h3 x hx⟩
  · rintro ⟨pre, post, h2, h1, h3⟩
    exact ⟨by simpa using h1, pre, post, h2, fun x hx => by simpa using h3 x hx⟩

theorem skip_eq {c : Cfg} {t : Term} : skip c t = !kept c t := by
  unfold skip kept
  cases t.net <;> simp

theorem wide_iff {c : Cfg} {t : Term} : wideV0 c t = true ↔ Wide c t := by
  unfold wideV0 Wide
  rw [Bool.and_eq_true, beq_iff_eq, decide_eq_true_eq]

theorem via_iff {c : Cfg} {k : String} : isViaLayer c k = true ↔ k ∈ c.vias.map Prod.fst := by
  unfold isViaLayer
  simp

theorem boundary_draws {c : Cfg} {k ty : String} {r : Rect} {e : Elem R} (h : boundary c k ty r = some e) :
    Draws c k ty r e := by
  unfold boundary at h
  rw [Option.bind_eq_some_iff] at h
  obtain ⟨l, hl, h⟩ := h
  rw [Option.map_eq_some_iff] at h
  obtain ⟨dt, hdt, rfl⟩ := h
  exact ⟨l, dt, outline r, layer_iff.mp hl, hdt, rfl, around_outline r⟩

theorem half_between {a b : Int} (h : a ≤ b) : a ≤ half (a + b) ∧ half (a + b) ≤ b := by
  unfold half
  split <;> omega

/-- Whether the name is requested as a label. -/
def Requested (c : Cfg) (n : Str) : Prop := ∀ ls, c.reqLabels = some ls → n ∈ ls

theorem req_iff {c : Cfg} {n : Str} : reqOk c n = true ↔ Requested c n := by
  unfold Requested reqOk
  cases c.reqLabels <;> simp

theorem label_spec {c : Cfg} {l : GdsLayer} {t : Term} {seen : List Str} {p : List (Elem R) × List Str}
    (hl : findLayer c t.layer = some l) (h : label c l t seen = some p) :
    (p.1 = [] ∧ p.2 = seen ∧ (∀ n, t.net = some n → (l.types.lookup "Label").isSome → Requested c n →
        c.labelOnce = true ∧ n ∈ seen)) ∨
    (∃ e n, p.1 = [e] ∧ t.net = some n ∧ p.2 = n :: seen ∧ textOf e = some n ∧ Requested c n ∧
      (c.labelOnce = true → n ∉ seen) ∧ Labels c t e) := by
  unfold label at h
  split at h
  · rename_i hn
    simp only [Option.some.injEq] at h
    subst h
    exact Or.inl ⟨rfl, rfl, fun n _ hs => by simp [hn] at hs⟩
  · rename_i ty hty
    split at h
    · cases h
    · rename_i n hn
      split at h
      · rename_i hc
        rw [Bool.and_eq_true] at hc
        simp only [Option.some.injEq] at h
        subst h
        refine Or.inr ⟨_, n, rfl, hn, rfl, rfl, req_iff.mp hc.1, ?_, ?_⟩
        · intro ho
          simpa [ho] using hc.2
        · exact ⟨l, ty, n, _, _, layer_iff.mp hl, hty, hn, rfl, half_between, half_between⟩
      · rename_i hc
        simp only [Option.some.injEq] at h
        subst h
        refine Or.inl ⟨rfl, rfl, ?_⟩
        intro m hm _ hr
        rw [hn] at hm
        cases hm
        rw [Bool.and_eq_true, not_and] at hc
        have := hc (req_iff.mpr hr)
        simpa using this

theorem color_spec {c : Cfg} {t : Term} {col : List (Elem R)} (h : colorOf c t = some col) :
    (t.color = none ∧ col = [] ∨ ∃ ty e, t.color = some ty ∧ col = [e] ∧ Draws c t.layer ty t.rect e) := by
  unfold colorOf at h
  split at h
  · rename_i hn
    simp only [Option.some.injEq] at h
    exact Or.inl ⟨hn, h.symm⟩
  · rename_i ty hty
    rw [Option.map_eq_some_iff] at h
    obtain ⟨b, hb, rfl⟩ := h
    exact Or.inr ⟨ty, b, hty, rfl, boundary_draws hb⟩

theorem draw_ofTerm {c : Cfg} {t : Term} {seen : List Str} {p : List (Elem R) × List Str} {col : List (Elem R)}
    (h : draw c t seen = some p) (hcol : colorOf c t = some col) : OfTerm c t (p.1 ++ col) := by
  unfold draw at h
  split at h
  · rename_i hw
    rw [Option.map_eq_some_iff] at h
    obtain ⟨es, hes, rfl⟩ := h
    refine .guard es col (wide_iff.mp hw) ?_ (color_spec hcol)
    have hf := Verif.Hier.mapM_forall₂ hes
    unfold guardRects at hf
    rw [List.forall₂_map_left_iff] at hf
    refine hf.imp ?_
    intro i e hb
    exact ⟨_, boundary_draws hb, rfl, rfl, rfl, by simp only; omega⟩
  · rename_i hw
    have hw' : ¬ Wide c t := fun h => hw (wide_iff.mpr h)
    split at h
    · rename_i hp
      rw [Bool.and_eq_true] at hp
      rw [Option.bind_eq_some_iff] at h
      obtain ⟨b, hb, h⟩ := h
      rw [Option.bind_eq_some_iff] at h
      obtain ⟨l, hl, h⟩ := h
      rw [Option.map_eq_some_iff] at h
      obtain ⟨q, hq, rfl⟩ := h
      have hd : Draws c t.layer (kind c t) t.rect b := by
        unfold kind; rw [if_pos hp]; exact boundary_draws hb
      have := OfTerm.plain b q.1 col hw' hd (by
        rcases label_spec hl hq with h | ⟨e, n, h1, _, _, _, _, _, h2⟩
        · exact Or.inl h.1
        · exact Or.inr ⟨e, h1, hp.1, hp.2, h2⟩) (color_spec hcol)
      simpa using this
    · rename_i hp
      rw [Option.map_eq_some_iff] at h
      obtain ⟨b, hb, rfl⟩ := h
      have hd : Draws c t.layer (kind c t) t.rect b := by
        unfold kind; rw [if_neg (by simpa using hp)]; exact boundary_draws hb
      have := OfTerm.plain b [] col hw' hd (Or.inl rfl) (color_spec hcol)
      simpa using this

/-- Elements of the terminals that are drawn, one after the other. -/
theorem shapes_spec {c : Cfg} {ts : List Term} {seen : List Str} {out : List (Elem R)}
    (h : shapes c ts seen = some out) :
    ∃ parts : List (List (Elem R)), out = parts.flatten ∧
      List.Forall₂ (OfTerm c) (ts.filter fun t => !(isViaLayer c t.layer || skip c t)) parts := by
  induction ts generalizing seen out with
  | nil =>
    simp only [shapes, Option.some.injEq] at h
    exact ⟨[], by simp [← h], .nil⟩
  | cons t ts ih =>
    rw [shapes] at h
    split at h
    · rename_i hs
      obtain ⟨parts, h1, h2⟩ := ih h
      exact ⟨parts, h1, by rw [List.filter_cons_of_neg (by simp [hs])]; exact h2⟩
    · rename_i hs
      rw [Option.bind_eq_some_iff] at h
      obtain ⟨p, hp, h⟩ := h
      rw [Option.bind_eq_some_iff] at h
      obtain ⟨col, hcol, h⟩ := h
      rw [Option.map_eq_some_iff] at h
      obtain ⟨rest, hr, rfl⟩ := h
      obtain ⟨parts, h1, h2⟩ := ih hr
      refine ⟨(p.1 ++ col) :: parts, by simp [h1], ?_⟩
      rw [List.filter_cons_of_pos (by simpa using hs)]
      exact .cons (draw_ofTerm hp hcol) h2

/-- The reference of a via: at the center, rounded down. -/
def RefOf (c : Cfg) (t : Term) (e : Elem R) : Prop :=
  ∃ v x y, c.vias.lookup t.layer = some v ∧ e = .sref (some v.1) none none none (some [x, y]) ∧
    (2 * x = t.rect.x0 + t.rect.x1 ∨ 2 * x = t.rect.x0 + t.rect.x1 - 1) ∧
    (2 * y = t.rect.y0 + t.rect.y1 ∨ 2 * y = t.rect.y0 + t.rect.y1 - 1)

theorem lookup_contains {l : List (String × Str × List (String × Rect))} {k : String} :
    (l.map Prod.fst).contains k = (l.lookup k).isSome := by
  induction l with
  | nil => rfl
  | cons a l ih =>
    rw [List.map_cons, List.contains_cons, List.lookup_cons, ih]
    cases h : k == a.1 <;> simp

theorem refs_spec {c : Cfg} {ts : List Term} :
    List.Forall₂ (RefOf c) (ts.filter fun t => isViaLayer c t.layer && !skip c t) (refs (R := R) c ts) := by
  unfold refs
  induction ts with
  | nil => exact .nil
  | cons t ts ih =>
    have hc : isViaLayer c t.layer = (c.vias.lookup t.layer).isSome := lookup_contains
    rw [List.filter_cons, List.filterMap_cons, hc]
    cases hl : c.vias.lookup t.layer with
    | none => simpa using ih
    | some v =>
      cases hs : skip c t with
      | true => simpa using ih
      | false =>
        simp only [Option.isSome_some, Bool.not_false, Bool.and_self, if_true]
        refine .cons ⟨v, _, _, hl, rfl, ?_, ?_⟩ ih <;> omega

/-- **C65, shapes (partial).**  The structure of the cell consists of the drawings of its terminals, in order: each one that is
no via with a structure and not excluded has its rectangle (as a pin or as a drawing), perhaps a label inside of
it, and its colour; then each via as a reference at its center, and the bounding box.  Missing: a wide `V0` is drawn as a row of vias
which need not fit in its rectangle, see `C65_violated_guard`. -/
theorem C65_shapes_partial {c : Cfg} {time : List Int} {units : List R} {name : Str} {ts : List Term} {bbox : Rect} {d : Data R}
    (h : translate c time units name ts bbox = some d) :
    ∃ vcells parts srefs bb, d = ⟨600, [⟨time, "pcell".toList, units, vcells ++
        [⟨time, name, some (parts.flatten ++ srefs ++ [bb])⟩]⟩]⟩ ∧
      List.Forall₂ (OfTerm c) (ts.filter fun t => decide (t.layer ∉ c.vias.map Prod.fst) && kept c t) parts ∧
      List.Forall₂ (RefOf c) (ts.filter fun t => decide (t.layer ∈ c.vias.map Prod.fst) && kept c t) srefs ∧
      Draws c "Bbox" "Draw" bbox bb ∧
      List.Forall₂ (fun v (cell : Cell R) => cell.time = time ∧ cell.strname = v.2.1 ∧ ∃ es, cell.elements = some es ∧
        List.Forall₂ (fun b e => Draws c b.1 "Draw" b.2 e) v.2.2 es) c.vias vcells := by
  unfold translate at h
  rw [Option.bind_eq_some_iff] at h
  obtain ⟨vcells, hv, h⟩ := h
  rw [Option.bind_eq_some_iff] at h
  obtain ⟨sh, hsh, h⟩ := h
  rw [Option.map_eq_some_iff] at h
  obtain ⟨bb, hbb, rfl⟩ := h
  obtain ⟨parts, rfl, hparts⟩ := shapes_spec hsh
  have hv1 : ∀ t : Term, decide (t.layer ∈ c.vias.map Prod.fst) = isViaLayer c t.layer := by
    intro t
    rw [Bool.eq_iff_iff, decide_eq_true_eq, via_iff]
  have e1 : (fun t : Term => decide (t.layer ∉ c.vias.map Prod.fst) && kept c t) = fun t => !(isViaLayer c t.layer || skip c t) := by
    funext t
    rw [decide_not, hv1, skip_eq, Bool.not_or, Bool.not_not]
  have e2 : (fun t : Term => decide (t.layer ∈ c.vias.map Prod.fst) && kept c t) = fun t => isViaLayer c t.layer && !skip c t := by
    funext t
    rw [hv1, skip_eq, Bool.not_not]
  refine ⟨vcells, parts, _, bb, rfl, e1 ▸ hparts, e2 ▸ refs_spec, boundary_draws hbb, ?_⟩
  have hf := Verif.Hier.mapM_forall₂ hv
  refine hf.imp ?_
  intro v cell hc
  unfold viaCell at hc
  rw [Option.map_eq_some_iff] at hc
  obtain ⟨es, hes, rfl⟩ := hc
  exact ⟨rfl, rfl, es, rfl, (Verif.Hier.mapM_forall₂ hes).imp fun _ _ hb => boundary_draws hb⟩

/-! ## Labels -/

theorem exists_left {α β : Type} {P : α → β → Prop} {l : List α} {bs : List β} (h : List.Forall₂ P l bs) {b : β}
    (hb : b ∈ bs) : ∃ a ∈ l, P a b := by
  induction h with
  | nil => simp at hb
  | cons hp _ ih =>
    rcases List.mem_cons.mp hb with rfl | hb
    · exact ⟨_, List.mem_cons_self, hp⟩
    · obtain ⟨a, ha, hp'⟩ := ih hb
      exact ⟨a, List.mem_cons_of_mem _ ha, hp'⟩


/-- The terminal is a pin to be labelled with `n`. -/
def Wanted (c : Cfg) (t : Term) (n : Str) : Prop :=
  Drawn c t ∧ ¬ Wide c t ∧ c.pinSwitch = true ∧ t.isPin = true ∧ t.net = some n ∧ Requested c n ∧
    ∃ l ty, LayerNamed c t.layer l ∧ l.types.lookup "Label" = some ty

theorem boundary_text {c : Cfg} {k ty : String} {r : Rect} {e : Elem R} (h : boundary c k ty r = some e) :
    textOf e = none := by
  obtain ⟨l, dt, xy, _, _, rfl, _⟩ := boundary_draws h
  rfl

theorem color_text {c : Cfg} {t : Term} {col : List (Elem R)} (h : colorOf c t = some col) :
    col.filterMap textOf = [] := by
  unfold colorOf at h
  split at h
  · simp only [Option.some.injEq] at h; subst h; rfl
  · rw [Option.map_eq_some_iff] at h
    obtain ⟨b, hb, rfl⟩ := h
    simp [boundary_text hb]

/-- What labels a terminal adds. -/
theorem draw_text {c : Cfg} {t : Term} {seen : List Str} {p : List (Elem R) × List Str} (hdr : Drawn c t)
    (h : draw c t seen = some p) :
    (p.1.filterMap textOf = [] ∧ p.2 = seen ∧ ∀ n, Wanted c t n → c.labelOnce = true ∧ n ∈ seen) ∨
    ∃ n, p.1.filterMap textOf = [n] ∧ p.2 = n :: seen ∧ Wanted c t n ∧ (c.labelOnce = true → n ∉ seen) := by
  unfold draw at h
  split at h
  · rename_i hw
    rw [Option.map_eq_some_iff] at h
    obtain ⟨es, hes, rfl⟩ := h
    refine Or.inl ⟨?_, rfl, ?_⟩
    · rw [List.filterMap_eq_nil_iff]
      intro e he
      have hf := Verif.Hier.mapM_forall₂ hes
      obtain ⟨r, _, hr⟩ := exists_left hf he
      exact boundary_text hr
    · intro n hwant
      exact absurd (wide_iff.mp hw) hwant.2.1
  · rename_i hw
    have hw' : ¬ Wide c t := fun h => hw (wide_iff.mpr h)
    split at h
    · rename_i hp
      rw [Bool.and_eq_true] at hp
      rw [Option.bind_eq_some_iff] at h
      obtain ⟨b, hb, h⟩ := h
      rw [Option.bind_eq_some_iff] at h
      obtain ⟨l, hl, h⟩ := h
      rw [Option.map_eq_some_iff] at h
      obtain ⟨q, hq, rfl⟩ := h
      rcases label_spec hl hq with ⟨h1, h2, h3⟩ | ⟨e, n, h1, hn, h2, h3, h4, h5, h6⟩
      · refine Or.inl ⟨by simp [h1, boundary_text hb], h2, ?_⟩
        rintro n ⟨_, _, _, _, hn, hr, l', ty, hl', hty⟩
        rw [← layer_iff, hl] at hl'
        cases hl'
        exact h3 n hn (by simp [hty]) hr
      · refine Or.inr ⟨n, by simp [h1, boundary_text hb, h3], h2, ?_, h5⟩
        obtain ⟨l', ty, _, _, _, hl', hty, _⟩ := h6
        exact ⟨hdr, hw', hp.1, hp.2, hn, h4, l', ty, hl', hty⟩
    · rename_i hp
      rw [Option.map_eq_some_iff] at h
      obtain ⟨b, hb, rfl⟩ := h
      refine Or.inl ⟨by simp [boundary_text hb], rfl, ?_⟩
      rintro n ⟨_, _, h1, h2, _⟩
      simp [h1, h2] at hp

theorem shapes_text {c : Cfg} {ts : List Term} {seen : List Str} {out : List (Elem R)}
    (h : shapes c ts seen = some out) :
    (∀ n, n ∈ out.filterMap textOf → ∃ t ∈ ts, Wanted c t n) ∧
    (∀ t ∈ ts, ∀ n, Wanted c t n → n ∈ out.filterMap textOf ∨ c.labelOnce = true ∧ n ∈ seen) ∧
    (c.labelOnce = true → (out.filterMap textOf).Nodup ∧ ∀ n ∈ out.filterMap textOf, n ∉ seen) := by
  induction ts generalizing seen out with
  | nil =>
    simp only [shapes, Option.some.injEq] at h
    subst h
    simp
  | cons t ts ih =>
    rw [shapes] at h
    split at h
    · rename_i hs
      obtain ⟨h1, h2, h3⟩ := ih h
      refine ⟨fun n hn => ?_, ?_, h3⟩
      · obtain ⟨x, hx, hw⟩ := h1 n hn
        exact ⟨x, List.mem_cons_of_mem _ hx, hw⟩
      · intro x hx n hw
        rcases List.mem_cons.mp hx with rfl | hx
        · obtain ⟨⟨d1, d2⟩, _⟩ := hw
          rw [← via_iff] at d1
          simp [d1, d2, skip_eq] at hs
        · exact h2 x hx n hw
    · rename_i hs
      have hdr : Drawn c t := by
        rw [Bool.or_eq_true, not_or] at hs
        exact ⟨fun h => hs.1 (via_iff.mpr h), by simpa [skip_eq] using hs.2⟩
      rw [Option.bind_eq_some_iff] at h
      obtain ⟨p, hp, h⟩ := h
      rw [Option.bind_eq_some_iff] at h
      obtain ⟨col, hcol, h⟩ := h
      rw [Option.map_eq_some_iff] at h
      obtain ⟨rest, hr, rfl⟩ := h
      obtain ⟨h1, h2, h3⟩ := ih hr
      have hcol' := color_text hcol
      have hnames : (p.1 ++ col ++ rest).filterMap textOf = p.1.filterMap textOf ++ rest.filterMap textOf := by
        rw [List.filterMap_append, List.filterMap_append, hcol', List.append_nil]
      rw [hnames]
      rcases draw_text hdr hp with ⟨g1, g2, g3⟩ | ⟨m, g1, g2, g3, g4⟩
      · rw [g1, List.nil_append]
        rw [g2] at h2 h3
        refine ⟨fun n hn => ?_, ?_, h3⟩
        · obtain ⟨x, hx, hw⟩ := h1 n hn
          exact ⟨x, List.mem_cons_of_mem _ hx, hw⟩
        · intro x hx n hw
          rcases List.mem_cons.mp hx with rfl | hx
          · exact Or.inr (g3 n hw)
          · exact h2 x hx n hw
      · rw [g1]
        rw [g2] at h2 h3
        refine ⟨fun n hn => ?_, ?_, ?_⟩
        · rcases List.mem_cons.mp hn with rfl | hn
          · exact ⟨t, List.mem_cons_self, g3⟩
          · obtain ⟨x, hx, hw⟩ := h1 n hn
            exact ⟨x, List.mem_cons_of_mem _ hx, hw⟩
        · intro x hx n hw
          rcases List.mem_cons.mp hx with rfl | hx
          · have e1 := hw.2.2.2.2.1
            have e2 := g3.2.2.2.2.1
            rw [e1] at e2
            cases e2
            exact Or.inl List.mem_cons_self
          · rcases h2 x hx n hw with hm | ⟨ho, hm⟩
            · exact Or.inl (List.mem_cons_of_mem _ hm)
            · rcases List.mem_cons.mp hm with rfl | hm
              · exact Or.inl List.mem_cons_self
              · exact Or.inr ⟨ho, hm⟩
        · intro ho
          obtain ⟨k1, k2⟩ := h3 ho
          refine ⟨List.nodup_cons.mpr ⟨fun hm => k2 m hm List.mem_cons_self, k1⟩, ?_⟩
          intro n hn
          rcases List.mem_cons.mp hn with rfl | hn
          · exact g4 ho
          · exact fun hm => k2 n hn (List.mem_cons_of_mem _ hm)

theorem refs_text {c : Cfg} {ts : List Term} : (refs (R := R) c ts).filterMap textOf = [] := by
  rw [List.filterMap_eq_nil_iff]
  intro e he
  obtain ⟨t, _, v, x, y, _, rfl, _⟩ := exists_left refs_spec he
  rfl

/-- The elements of the structure of the cell. -/
def topElems (d : Data R) : List (Elem R) :=
  ((d.bgnlib.flatMap Lib.bgnstr).getLast?.bind Cell.elements).getD []

/-- **C65, labels.**  The labels of the cell are the names of the requested pins: every one is written, nothing
else is, and with `labelOnce` none is written twice. -/
theorem C65_labels {c : Cfg} {time : List Int} {units : List R} {name : Str} {ts : List Term} {bbox : Rect} {d : Data R}
    (h : translate c time units name ts bbox = some d) :
    (∀ n, n ∈ (topElems d).filterMap textOf ↔ ∃ t ∈ ts, Wanted c t n) ∧
    (c.labelOnce = true → ((topElems d).filterMap textOf).Nodup) := by
  unfold translate at h
  rw [Option.bind_eq_some_iff] at h
  obtain ⟨vcells, hv, h⟩ := h
  rw [Option.bind_eq_some_iff] at h
  obtain ⟨sh, hsh, h⟩ := h
  rw [Option.map_eq_some_iff] at h
  obtain ⟨bb, hbb, rfl⟩ := h
  have e : (topElems (R := R) ⟨600, [⟨time, "pcell".toList, units, vcells ++
      [⟨time, name, some (sh ++ refs c ts ++ [bb])⟩]⟩]⟩).filterMap textOf = sh.filterMap textOf := by
    simp [topElems, refs_text, boundary_text hbb]
  rw [e]
  obtain ⟨h1, h2, h3⟩ := shapes_text hsh
  refine ⟨fun n => ⟨h1 n, ?_⟩, fun ho => (h3 ho).1⟩
  rintro ⟨t, ht, hw⟩
  rcases h2 t ht n hw with hm | ⟨_, hm⟩
  · exact hm
  · simp at hm

/-! ## Text -/

theorem draws_wf {c : Cfg} {k ty : String} {r : Rect} {e : Elem R} (h : Draws c k ty r e) : e.WF := by
  obtain ⟨l, dt, xy, _, _, rfl, ha⟩ := h
  refine ⟨fun l hl => ?_, fun s hs => by cases hs⟩
  cases hl
  have := ha.five
  unfold Many
  match xy, this with
  | [], h => simp [points] at h
  | [_], h => simp [points] at h
  | _ :: _ :: _, _ => simp

theorem ofTerm_wf {c : Cfg} {t : Term} {es : List (Elem R)} (h : OfTerm c t es)
    (hn : ∀ n, t.net = some n → OneLine n) : ∀ e ∈ es, e.WF := by
  have hcol : ∀ col : List (Elem R), (t.color = none ∧ col = [] ∨
      ∃ ty e, t.color = some ty ∧ col = [e] ∧ Draws c t.layer ty t.rect e) → ∀ e ∈ col, e.WF := by
    intro col hc e he
    rcases hc with ⟨_, rfl⟩ | ⟨ty, e', _, rfl, hd⟩
    · simp at he
    · simp only [List.mem_singleton] at he
      subst he; exact draws_wf hd
  intro e he
  cases h with
  | plain b lab col hw hd hl hc =>
    rcases List.mem_append.mp he with he | he
    · rcases List.mem_append.mp he with he | he
      · simp only [List.mem_singleton] at he
        subst he; exact draws_wf hd
      · rcases hl with rfl | ⟨x, rfl, _, _, l, ty, n, a, b', _, _, hnet, rfl, _⟩
        · simp at he
        · simp only [List.mem_singleton] at he
          subst he
          exact ⟨fun l hl => by cases hl; simp [Many], fun s hs => by cases hs; exact hn n hnet⟩
    · exact hcol col hc e he
  | guard es col hw hf hc =>
    rcases List.mem_append.mp he with he | he
    · obtain ⟨i, _, r, hd, _⟩ := exists_left hf he
      exact draws_wf hd
    · exact hcol col hc e he

/-- **C65, text.**  The GDS data of a cell survives writing it as text and reading it again, if its names have no
line breaks and every via has boxes. -/
theorem C65_text {io : RealIO R} (hio : io.Exact) {c : Cfg} {time : List Int} {units : List R} {name : Str}
    {ts : List Term} {bbox : Rect} {d : Data R} (h : translate c time units name ts bbox = some d)
    (htime : Many time) (hunits : Many units) (hname : OneLine name)
    (hnets : ∀ t ∈ ts, ∀ n, t.net = some n → OneLine n)
    (hvias : ∀ v ∈ c.vias, OneLine v.2.1 ∧ v.2.2 ≠ []) :
    parse io (toFile (printData io d)) = some d.toJ := by
  apply C52_round_trip_partial hio
  obtain ⟨vcells, parts, srefs, bb, rfl, hparts, hrefs, hbb, hv⟩ := C65_shapes_partial h
  refine ⟨by simp, ?_⟩
  intro l hl
  simp only [List.mem_singleton] at hl
  subst hl
  have hlib : OneLine "pcell".toList := by unfold OneLine; decide
  refine ⟨htime, hlib, hunits, by simp, ?_⟩
  intro cell hc
  rcases List.mem_append.mp hc with hc | hc
  · obtain ⟨v, hvm, h1, h2, es, h3, h4⟩ := exists_left hv hc
    obtain ⟨g1, g2⟩ := hvias v hvm
    refine ⟨h1 ▸ htime, h2 ▸ g1, ?_⟩
    intro l hl
    rw [h3] at hl
    cases hl
    refine ⟨?_, ?_⟩
    · rintro rfl
      cases h5 : v.2.2 with
      | nil => exact g2 h5
      | cons a b => rw [h5] at h4; cases h4
    · intro e he
      obtain ⟨b, _, hd⟩ := exists_left h4 he
      exact draws_wf hd
  · simp only [List.mem_singleton] at hc
    subst hc
    refine ⟨htime, hname, ?_⟩
    intro l hl
    cases hl
    refine ⟨by simp, ?_⟩
    intro e he
    rcases List.mem_append.mp he with he | he
    · rcases List.mem_append.mp he with he | he
      · obtain ⟨es, hes, he⟩ := List.mem_flatten.mp he
        obtain ⟨t, ht, ho⟩ := exists_left hparts hes
        exact ofTerm_wf ho (hnets t (List.mem_filter.mp ht).1) e he
      · obtain ⟨t, ht, v, x, y, hl, rfl, _⟩ := exists_left hrefs he
        refine ⟨fun l hl => by cases hl; simp [Many], fun s hs => ?_, rfl⟩
        cases hs
        have : (t.layer, v) ∈ c.vias := Verif.Hier.lookup_mem hl
        exact (hvias _ this).1
    · simp only [List.mem_singleton] at he
      subst he; exact draws_wf hbb

end

/-! ### A non-trivial case, and a violation -/

def cfg : Cfg :=
  ⟨[⟨"M1", 15, [("Draw", 0), ("Pin", 251), ("Label", 237), ("c1", 1)]⟩, ⟨"V1", 21, [("Draw", 0)]⟩,
    ⟨"V0", 18, [("Draw", 0)]⟩, ⟨"Bbox", 50, [("Draw", 0)]⟩], fun n => n == "skip".toList, true, true, none, 32, (3, 32, 40),
   [("V1", "v1cell".toList, [("V1", ⟨-16, -16, 16, 16⟩)])]⟩

def terms : List Term :=
  [⟨"M1", some "a".toList, true, some "c1", ⟨0, 0, 32, 201⟩⟩, ⟨"M1", some "a".toList, true, none, ⟨80, 0, 112, 200⟩⟩,
   ⟨"M1", none, false, none, ⟨160, 0, 192, 200⟩⟩, ⟨"V1", some "a".toList, false, none, ⟨0, 80, 33, 112⟩⟩,
   ⟨"M1", some "skip".toList, false, none, ⟨160, 0, 192, 200⟩⟩]

example : ((translate cfg [1, 2] [1, 2] "top".toList terms ⟨0, 0, 200, 200⟩).map fun d => (topElems d).filterMap textOf) =
    some ["a".toList] := by decide +kernel

example : ((translate cfg [1, 2] [1, 2] "top".toList terms ⟨0, 0, 200, 200⟩).map fun d => (topElems d).length) =
    some 7 := by decide +kernel

/-- The boundaries of an element. -/
def xyOf : Elem Int → Option (List Int)
  | .boundary _ _ xy _ _ => xy
  | _ => none

/-- **C65 is violated by wide vias of guard rings**: a `V0` that is 321 wide is drawn as three vias, the last of which
ends at 176; with 10 vias in `viaArray`, they would reach beyond it, up to 680. -/
theorem C65_violated_guard :
    ((translate { cfg with guard := (10, 32, 40) } [1, 2] [1, 2] "top".toList [⟨"V0", none, false, none, ⟨0, 0, 321, 32⟩⟩]
      ⟨0, 0, 400, 200⟩).map fun d => ((topElems d).filterMap xyOf).map fun l => (l.getD 0 0, l.getD 4 0)) =
    some [(0, 32), (72, 104), (144, 176), (216, 248), (288, 320), (360, 392), (432, 464), (504, 536), (576, 608),
      (648, 680), (0, 400)] := by decide +kernel

end Verif.Gds

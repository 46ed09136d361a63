import Verif.Geometry.Model
import Mathlib.Tactic.Ring
import Mathlib.Tactic.Linarith

/-! # Properties C01-C05 and C53 -/

namespace Verif.Geometry

/-! ## Specification -/

/-- A point lies in a (closed) rectangle. -/
def Rect.Contains (r : Rect) (p : Int × Int) : Prop :=
  r.llx ≤ p.1 ∧ p.1 ≤ r.urx ∧ r.lly ≤ p.2 ∧ p.2 ≤ r.ury

/-- Lower left corner below and left of the upper right corner. -/
def Rect.Ordered (r : Rect) : Prop := r.llx ≤ r.urx ∧ r.lly ≤ r.ury

/-- The transformations the tool uses: mirror factors are 1 or -1. -/
def Transformation.Rigid (t : Transformation) : Prop :=
  (t.sX = 1 ∨ t.sX = -1) ∧ (t.sY = 1 ∨ t.sY = -1)

/-- Successive placement: apply the transformations of a nesting, listed from the outermost to the innermost,
to a point of the innermost cell, one after the other. -/
def placeThrough : List Transformation → Int × Int → Int × Int
  | [], p => p
  | t :: ts, p => t.hit (placeThrough ts p)

/-! ## C01 -/

theorem C01_mult_is_sequential (A B : Transformation) (p : Int × Int) :
    (Transformation.mult A B).hit p = A.hit (B.hit p) := by
  simp only [Transformation.mult, Transformation.hit, Prod.mk.injEq]
  constructor <;> ring

theorem C01_preMult (self A : Transformation) (p : Int × Int) :
    (self.preMult A).hit p = A.hit (self.hit p) := C01_mult_is_sequential A self p

theorem C01_postMult (self A : Transformation) (p : Int × Int) :
    (self.postMult A).hit p = self.hit (A.hit p) := C01_mult_is_sequential self A p

theorem C01_mult_assoc (A B C : Transformation) :
    Transformation.mult (Transformation.mult A B) C
      = Transformation.mult A (Transformation.mult B C) := by
  simp only [Transformation.mult, Transformation.mk.injEq]
  refine ⟨?_, ?_, ?_, ?_⟩ <;> ring

theorem C01_unit (A : Transformation) :
    Transformation.mult A {} = A ∧ Transformation.mult {} A = A := by
  cases A; simp [Transformation.mult]

/-- Chains of any length: folding `mult` over a nesting places points like placing level by level. -/
theorem C01_chain (ts : List Transformation) (p : Int × Int) :
    (ts.foldl Transformation.mult {}).hit p = placeThrough ts p := by
  have key : ∀ (ts : List Transformation) (A : Transformation),
      (ts.foldl Transformation.mult A).hit p = A.hit (placeThrough ts p) := by
    intro ts
    induction ts with
    | nil => intro A; rfl
    | cons t ts ih =>
      intro A
      simp only [List.foldl_cons, ih, placeThrough, C01_mult_is_sequential]
  rw [key]
  simp [Transformation.hit]

/-- The action on points determines the transformation, so `mult` is the only result satisfying C01. -/
theorem C01_hit_faithful (A B : Transformation) (h : ∀ p, A.hit p = B.hit p) : A = B := by
  have h0 := h (0, 0)
  have h1 := h (1, 1)
  cases A; cases B
  simp only [Transformation.hit, Prod.mk.injEq, mul_zero, mul_one, zero_add] at h0 h1
  simp only [Transformation.mk.injEq]
  omega

/-! ## C02 -/

theorem C02_inv_left (A : Transformation) (hA : A.Rigid) (p : Int × Int) :
    A.inv.hit (A.hit p) = p := by
  obtain ⟨x, y⟩ := p
  rcases A with ⟨oX, oY, sX, sY⟩
  rcases hA with ⟨hx | hx, hy | hy⟩ <;> simp only at hx hy <;> subst hx <;> subst hy <;>
    simp only [Transformation.inv, Transformation.hit, Prod.mk.injEq] <;> constructor <;> ring

theorem C02_inv_right (A : Transformation) (hA : A.Rigid) (p : Int × Int) :
    A.hit (A.inv.hit p) = p := by
  obtain ⟨x, y⟩ := p
  rcases A with ⟨oX, oY, sX, sY⟩
  rcases hA with ⟨hx | hx, hy | hy⟩ <;> simp only at hx hy <;> subst hx <;> subst hy <;>
    simp only [Transformation.inv, Transformation.hit, Prod.mk.injEq] <;> constructor <;> ring

theorem C02_inv_mult (A : Transformation) (hA : A.Rigid) :
    Transformation.mult A A.inv = {} ∧ Transformation.mult A.inv A = {} := by
  constructor <;> apply C01_hit_faithful <;> intro p <;> rw [C01_mult_is_sequential]
  · rw [C02_inv_right A hA]; simp [Transformation.hit]
  · rw [C02_inv_left A hA]; simp [Transformation.hit]

theorem C02_inv_inv (A : Transformation) (hA : A.Rigid) : A.inv.inv = A := by
  apply C01_hit_faithful
  intro p
  have hI : A.inv.Rigid := hA
  have h4 := C02_inv_right A.inv hI p
  calc A.inv.inv.hit p = A.hit (A.inv.hit (A.inv.inv.hit p)) := (C02_inv_right A hA _).symm
    _ = A.hit p := by rw [h4]

example : (⟨30, -7, -1, 1⟩ : Transformation).Rigid := by simp [Transformation.Rigid]

/-! ## C04 -/

theorem canonical_eq (r : Rect) :
    r.canonical = ⟨min r.llx r.urx, min r.lly r.ury, max r.llx r.urx, max r.lly r.ury⟩ := by
  unfold Rect.canonical
  by_cases h1 : r.llx > r.urx <;> by_cases h2 : r.lly > r.ury <;>
    simp only [h1, h2, if_true, if_false, Rect.mk.injEq] <;> omega

theorem C04_canonical_ordered (r : Rect) : r.canonical.Ordered := by
  simp only [canonical_eq, Rect.Ordered]
  omega

theorem C04_canonical_of_ordered (r : Rect) (h : r.Ordered) : r.canonical = r := by
  obtain ⟨h1, h2⟩ := h
  obtain ⟨a, b, c, d⟩ := r
  simp only [canonical_eq, Rect.mk.injEq] at *
  omega

theorem C04_image (t : Transformation) (ht : t.Rigid) (r : Rect) (hr : r.Ordered) (q : Int × Int) :
    (t.hitRect r).canonical.Contains q ↔ ∃ p, r.Contains p ∧ t.hit p = q := by
  have back : ∀ p, t.hit p = q ↔ p = t.inv.hit q := by
    intro p
    constructor
    · rintro rfl; exact (C02_inv_left t ht p).symm
    · rintro rfl; exact C02_inv_right t ht q
  simp only [back, exists_eq_right]
  rcases t with ⟨oX, oY, sX, sY⟩
  obtain ⟨h1, h2⟩ := hr
  rcases ht with ⟨hx | hx, hy | hy⟩ <;> simp only at hx hy <;> subst hx <;> subst hy <;>
    simp only [Rect.Contains, canonical_eq, Transformation.hitRect, Transformation.hit,
      Transformation.inv] <;> omega

theorem C04_same_size (t : Transformation) (ht : t.Rigid) (r : Rect) (hr : r.Ordered) :
    (t.hitRect r).canonical.Ordered ∧
    (t.hitRect r).canonical.urx - (t.hitRect r).canonical.llx = r.urx - r.llx ∧
    (t.hitRect r).canonical.ury - (t.hitRect r).canonical.lly = r.ury - r.lly := by
  refine ⟨C04_canonical_ordered _, ?_⟩
  rcases t with ⟨oX, oY, sX, sY⟩
  obtain ⟨h1, h2⟩ := hr
  rcases ht with ⟨hx | hx, hy | hy⟩ <;> simp only at hx hy <;> subst hx <;> subst hy <;>
    simp only [canonical_eq, Transformation.hitRect, Transformation.hit] <;> omega

example : (⟨2, 3, 10, 20⟩ : Rect).Ordered := by simp [Rect.Ordered]

/-! ## C03 -/

/-- What the DEF orientation tags mean, as a reflection of the unit directions. -/
inductive Orients : String → Int → Int → Prop
  | N : Orients "N" 1 1
  | FN : Orients "FN" (-1) 1
  | FS : Orients "FS" 1 (-1)
  | S : Orients "S" (-1) (-1)

theorem C03_tags (tag : String) (w h : Int) :
    (∃ t, Transformation.genTr tag w h = some t) ↔ ∃ sx sy, Orients tag sx sy := by
  constructor
  · rintro ⟨t, ht⟩
    by_cases h1 : tag = "FN"
    · subst h1; exact ⟨_, _, .FN⟩
    · by_cases h2 : tag = "FS"
      · subst h2; exact ⟨_, _, .FS⟩
      · by_cases h3 : tag = "N"
        · subst h3; exact ⟨_, _, .N⟩
        · by_cases h4 : tag = "S"
          · subst h4; exact ⟨_, _, .S⟩
          · simp [Transformation.genTr, h1, h2, h3, h4] at ht
  · rintro ⟨_, _, h⟩
    cases h <;> exact ⟨_, rfl⟩

/-- The transformation moves steps in x and y in the direction of the tag, keeps the footprint, and is its own
inverse. -/
theorem C03_genTr (tag : String) (w h : Int) (hw : 0 ≤ w) (hh : 0 ≤ h) (t : Transformation)
    (sx sy : Int) (ho : Orients tag sx sy) (ht : Transformation.genTr tag w h = some t) :
    (∀ x y dx dy, t.hit (x + dx, y + dy)
        = ((t.hit (x, y)).1 + sx * dx, (t.hit (x, y)).2 + sy * dy)) ∧
    (t.hitRect ⟨0, 0, w, h⟩).canonical = ⟨0, 0, w, h⟩ ∧
    (∀ p, t.hit (t.hit p) = p) := by
  cases ho <;> simp [Transformation.genTr] at ht <;> subst ht <;>
    refine ⟨?_, ?_, ?_⟩ <;>
    simp only [Transformation.hit, Transformation.hitRect, canonical_eq, Prod.mk.injEq,
      Rect.mk.injEq] <;>
    first
      | omega
      | (rintro ⟨x, y⟩; simp only [Prod.mk.injEq]; constructor <;> ring)

theorem C03_footprint_points (tag : String) (w h : Int)
    (t : Transformation) (ht : Transformation.genTr tag w h = some t) (p : Int × Int) :
    (⟨0, 0, w, h⟩ : Rect).Contains p ↔ (⟨0, 0, w, h⟩ : Rect).Contains (t.hit p) := by
  obtain ⟨sx, sy, ho⟩ := (C03_tags tag w h).mp ⟨t, ht⟩
  cases ho <;> simp [Transformation.genTr] at ht <;> subst ht <;>
    simp only [Transformation.hit, Rect.Contains] <;> omega

example : Transformation.genTr "FN" 7 5 = some ⟨7, 0, -1, 1⟩ := by decide

/-! ## C05 -/

/-- A well-nested client program: shapes, in-place changes of the current frame, and blocks. -/
inductive Prog
  | add (r : Rect)
  | hitTop (t : Transformation)
  | block (t : Transformation) (body : List Prog)

mutual
/-- The sequence of canvas calls a program makes: a block is `push`, the body, `pop`. -/
def Prog.calls : Prog → List Call
  | .add r => [.add r]
  | .hitTop t => [.hitTop t]
  | .block t body => .push t :: (Prog.callsList body ++ [.pop])
def Prog.callsList : List Prog → List Call
  | [] => []
  | p :: ps => Prog.calls p ++ Prog.callsList ps
end

/-- The rectangle with a given image of the two corners, ordered. -/
def spanned (p q : Int × Int) : Rect := ⟨min p.1 q.1, min p.2 q.2, max p.1 q.1, max p.2 q.2⟩

mutual
/-- Intended meaning: in a frame given by the list of enclosing transformations (outermost first), the
transformations applied in place so far being part of that list; returns the new frame and the drawn shapes. -/
def Prog.draw : Prog → List Transformation → List Transformation × List Rect
  | .add r, fr =>
      (fr, [spanned (placeThrough fr (r.llx, r.lly)) (placeThrough fr (r.urx, r.ury))])
  | .hitTop t, fr => (fr ++ [t], [])
  | .block t body, fr => (fr, (Prog.drawList body (fr ++ [t])).2)
def Prog.drawList : List Prog → List Transformation → List Transformation × List Rect
  | [], fr => (fr, [])
  | p :: ps, fr =>
      let (fr1, rs1) := Prog.draw p fr
      let (fr2, rs2) := Prog.drawList ps fr1
      (fr2, rs1 ++ rs2)
end

theorem run_append (c : Canvas) (as bs : List Call) :
    c.run (as ++ bs) = (c.run as).bind fun c' => c'.run bs := by
  induction as generalizing c with
  | nil => rfl
  | cons a as ih =>
    simp only [List.cons_append, Canvas.run]
    cases c.exec a with
    | none => rfl
    | some c' => simp [ih]

theorem placeThrough_append (as bs : List Transformation) (p : Int × Int) :
    placeThrough (as ++ bs) p = placeThrough as (placeThrough bs p) := by
  induction as with
  | nil => rfl
  | cons a as ih => simp [placeThrough, ih]

theorem hitRect_canonical_spanned (t : Transformation) (r : Rect) :
    (t.hitRect r).canonical = spanned (t.hit (r.llx, r.lly)) (t.hit (r.urx, r.ury)) := by
  simp only [canonical_eq, Transformation.hitRect, spanned, Transformation.hit]

mutual
theorem draw_run (p : Prog) (fr : List Transformation) (top : Transformation)
    (rest : List Transformation) (ts : List Rect) (h : ∀ q, top.hit q = placeThrough fr q) :
    ∃ top', (∀ q, top'.hit q = placeThrough (p.draw fr).1 q) ∧
      Canvas.run ⟨top :: rest, ts⟩ p.calls = some ⟨top' :: rest, ts ++ (p.draw fr).2⟩ := by
  cases p with
  | add r =>
    refine ⟨top, by simpa [Prog.draw] using h, ?_⟩
    simp [Prog.calls, Canvas.run, Canvas.exec, Canvas.transformAndAdd, Prog.draw,
      hitRect_canonical_spanned, h]
  | hitTop t =>
    refine ⟨top.postMult t, ?_, ?_⟩
    · intro q
      simp [Prog.draw, C01_postMult, h, placeThrough_append, placeThrough]
    · simp [Prog.calls, Canvas.run, Canvas.exec, Canvas.hitTopTr, Prog.draw]
  | block t body =>
    have hb : ∀ q, (top.postMult t).hit q = placeThrough (fr ++ [t]) q := by
      intro q
      simp [C01_postMult, h, placeThrough_append, placeThrough]
    obtain ⟨top', _, hrun⟩ := drawList_run body (fr ++ [t]) (top.postMult t) (top :: rest) ts hb
    refine ⟨top, by simpa [Prog.draw] using h, ?_⟩
    simp only [Prog.calls, Canvas.run, Canvas.exec, Canvas.pushTr, Option.bind_some, run_append, hrun,
      Canvas.popTr, Prog.draw]
    simp
theorem drawList_run (ps : List Prog) (fr : List Transformation) (top : Transformation)
    (rest : List Transformation) (ts : List Rect) (h : ∀ q, top.hit q = placeThrough fr q) :
    ∃ top', (∀ q, top'.hit q = placeThrough (Prog.drawList ps fr).1 q) ∧
      Canvas.run ⟨top :: rest, ts⟩ (Prog.callsList ps)
        = some ⟨top' :: rest, ts ++ (Prog.drawList ps fr).2⟩ := by
  cases ps with
  | nil => exact ⟨top, by simpa [Prog.drawList] using h, by simp [Prog.callsList, Canvas.run, Prog.drawList]⟩
  | cons p ps =>
    obtain ⟨t1, h1, r1⟩ := draw_run p fr top rest ts h
    obtain ⟨t2, h2, r2⟩ := drawList_run ps (p.draw fr).1 t1 rest (ts ++ (p.draw fr).2) h1
    refine ⟨t2, by simpa [Prog.drawList] using h2, ?_⟩
    simp [Prog.callsList, run_append, r1, r2, Prog.drawList]
end

/-- Well-nested programs never raise, restore everything but the in-place changes of the current frame, and draw
each shape where the enclosing transformations put it. -/
theorem C05_scoped (ps : List Prog) :
    ∃ top', (∀ q, top'.hit q = placeThrough (Prog.drawList ps []).1 q) ∧
      Canvas.init.run (Prog.callsList ps) = some ⟨[top'], (Prog.drawList ps []).2⟩ := by
  have := drawList_run ps [] {} [] [] (by intro q; simp [placeThrough, Transformation.hit])
  simpa [Canvas.init] using this

/-- A block leaves the active transformation and everything below it unchanged, whatever the canvas state. -/
theorem C05_block_restores (t : Transformation) (body : List Prog) (c : Canvas) (hc : c.trStack ≠ []) :
    ∃ c', c.run (Prog.calls (.block t body)) = some c' ∧ c'.trStack = c.trStack := by
  obtain ⟨st, ts⟩ := c
  cases st with
  | nil => simp at hc
  | cons top rest =>
    obtain ⟨top', _, hrun⟩ :=
      drawList_run body [top, t] (top.postMult t) (top :: rest) ts
        (by intro q; simp [C01_postMult, placeThrough])
    refine ⟨⟨top :: rest, ts ++ (Prog.drawList body [top, t]).2⟩, ?_, rfl⟩
    simp only [Prog.calls, Canvas.run, Canvas.exec, Canvas.pushTr, Option.bind_some, run_append, hrun,
      Canvas.popTr]
    simp

/-- Popping the initial entry is an error, whatever was drawn. -/
theorem C05_pop_initial (ts : List Rect) (t : Transformation) :
    Canvas.popTr ⟨[t], ts⟩ = none := by
  simp [Canvas.popTr]

/-- Any successful run leaves at least one entry on the stack. -/
theorem C05_never_empty (ks : List Call) (c c' : Canvas) (hc : c.trStack ≠ [])
    (h : c.run ks = some c') : c'.trStack ≠ [] := by
  induction ks generalizing c with
  | nil => simp only [Canvas.run, Option.some.injEq] at h; subst h; exact hc
  | cons k ks ih =>
    simp only [Canvas.run] at h
    cases hk : c.exec k with
    | none => simp [hk] at h
    | some c1 =>
      simp only [hk, Option.bind_some] at h
      refine ih c1 ?_ h
      obtain ⟨st, ts⟩ := c
      cases st with
      | nil => simp at hc
      | cons top rest =>
        cases k with
        | push t => simp [Canvas.exec, Canvas.pushTr] at hk; subst hk; simp
        | hitTop t => simp [Canvas.exec, Canvas.hitTopTr] at hk; subst hk; simp
        | pop =>
          simp only [Canvas.exec, Canvas.popTr] at hk
          split at hk
          · simp at hk
          · simp at hk; subst hk; assumption
        | add r => simp [Canvas.exec, Canvas.transformAndAdd] at hk; subst hk; simp

/-! ## C53 -/

/-- After shifting, the box starts at the origin, has its old size, and every shape is the old one moved by one
common vector; so containment in the box is unchanged. -/
theorem C53_jsonPos (bbox : Rect) (terms : List Rect) :
    let out := jsonPos bbox terms
    out.1.llx = 0 ∧ out.1.lly = 0 ∧
    ∃ dx dy : Int,
      (∀ p : Int × Int, out.1.Contains (p.1 + dx, p.2 + dy) ↔ bbox.Contains p) ∧
      out.2.length = terms.length ∧
      (∀ i (h : i < terms.length) (h' : i < out.2.length) (p : Int × Int),
        out.2[i].Contains (p.1 + dx, p.2 + dy) ↔ terms[i].Contains p) := by
  refine ⟨rfl, rfl, -bbox.llx, -bbox.lly, ?_, ?_, ?_⟩
  · intro p; simp only [jsonPos, Rect.Contains]; omega
  · simp [jsonPos]
  · intro i h h' p
    simp only [jsonPos, List.getElem_map, Rect.Contains]
    omega

/-- Hence a layout inside its bounding box ends up in the positive quadrant. -/
theorem C53_nonnegative (bbox : Rect) (terms : List Rect)
    (hin : ∀ r ∈ terms, bbox.llx ≤ r.llx ∧ bbox.lly ≤ r.lly) :
    ∀ r ∈ (jsonPos bbox terms).2, 0 ≤ r.llx ∧ 0 ≤ r.lly := by
  intro r hr
  simp only [jsonPos, List.mem_map] at hr
  obtain ⟨r0, h0, rfl⟩ := hr
  have := hin r0 h0
  simp only
  omega

example : ∀ r ∈ [(⟨-3, -4, 5, 6⟩ : Rect)], (⟨-5, -5, 9, 9⟩ : Rect).llx ≤ r.llx ∧
    (⟨-5, -5, 9, 9⟩ : Rect).lly ≤ r.lly := by decide

end Verif.Geometry

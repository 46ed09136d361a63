import Verif.Grid.Props

/-!
# C56: rectangles to grid indices

Model of `rect_to_grid` (`align/pnr/pythonic_router.py` 112-133).
-/

namespace Verif.Canvas

open Verif.Grid

/-- `check_bound` (121-123). -/
def checkBound (p : Option ((Int × Int) × (Int × Int))) : Option (Int × Int) :=
  p.bind fun p => if p.1 = p.2 then some p.1 else none

/-- `rect_to_grid` (112-133): indices of the center line and of the two ends.  `clg` and `spg` are the grids of
the generator of the layer; `r` is `[llx, lly, urx, ury]`. -/
def rectToGrid {α β : Type} (clg : Grid α) (spg : Grid β) (horizontal : Bool) (r : Int × Int × Int × Int) :
    Option ((Int × Int) × (Int × Int) × (Int × Int)) :=
  let lo := if horizontal then r.2.1 else r.1
  let hi := if horizontal then r.2.2.2 else r.2.2.1
  let bgn := if horizontal then r.1 else r.2.1
  let fin := if horizontal then r.2.2.1 else r.2.2.2
  (checkBound (clg.inverseBounds ((lo + hi).fdiv 2))).bind fun c =>
    (checkBound (spg.inverseBounds bgn)).bind fun b =>
      (checkBound (spg.inverseBounds fin)).map fun e => (c, b, e)

/-! ## Specification -/

/-- Across a wire: the lower and the upper coordinate. -/
def across (horizontal : Bool) (r : Int × Int × Int × Int) : Int × Int :=
  if horizontal then (r.2.1, r.2.2.2) else (r.1, r.2.2.1)

/-- Along a wire: the first and the last coordinate. -/
def along (horizontal : Bool) (r : Int × Int × Int × Int) : Int × Int :=
  if horizontal then (r.1, r.2.2.1) else (r.2.1, r.2.2.2)

/-- Line number `idx` of the grid has coordinate `x`. -/
def At {α : Type} (g : Grid α) (idx : Int × Int) (x : Int) : Prop := ∃ a, g.value idx false = some (x, a)

/-! ## Proofs -/

theorem checkBound_spec {α : Type} (g : Grid α) {f l : Int} (h : Bounded g f l) (x : Int) :
    ((checkBound (g.inverseBounds x)).isSome = true ↔ IsLine g.coords f l x) ∧
    ∀ i, checkBound (g.inverseBounds x) = some i → At g i x ∧ 0 ≤ i.2 ∧ i.2 < g.grid.length := by
  obtain ⟨lo, hi, cl, ch, al, ah, h1, h2, h3, h4, h5, _, _, _, h6, h7⟩ := C07_inverseBounds g f l h x
  rw [h1, checkBound, Option.bind_some, ← h6]
  constructor
  · split <;> rename_i he
    · simpa using he
    · simpa using he
  · intro i hi
    split at hi
    · rename_i he
      simp only at he
      subst he
      simp only [Option.some.injEq] at hi
      subst hi
      rw [h2] at h3
      simp only [Option.some.injEq, Prod.mk.injEq] at h3
      have : cl = x := by omega
      exact ⟨⟨al, by rw [h2, this]⟩, h7.1, h7.2.1⟩
    · cases hi

theorem rectToGrid_eq {α β : Type} (clg : Grid α) (spg : Grid β) (horizontal : Bool) (r : Int × Int × Int × Int) :
    rectToGrid clg spg horizontal r =
      (checkBound (clg.inverseBounds (((across horizontal r).1 + (across horizontal r).2) / 2))).bind fun c =>
      (checkBound (spg.inverseBounds (along horizontal r).1)).bind fun b =>
      (checkBound (spg.inverseBounds (along horizontal r).2)).map fun e => (c, b, e) := by
  have h : ∀ x : Int, x.fdiv 2 = x / 2 := fun x => Int.fdiv_eq_ediv_of_nonneg x (by omega)
  unfold rectToGrid across along
  simp only [h]
  cases horizontal <;> rfl

/-- **C56, what is reported.**  The mapping returns exactly when center and ends are on the grids.  The index of
the track is that of the center of the rectangle (rounded down to an integer), which is on the rectangle, and the
indices of the ends are exactly those of its ends. -/
theorem C56_exact_partial {α β : Type} (clg : Grid α) (spg : Grid β) {f l f' l' : Int} (hc : Bounded clg f l)
    (hs : Bounded spg f' l') (horizontal : Bool) (r : Int × Int × Int × Int) :
    ((rectToGrid clg spg horizontal r).isSome = true ↔
      IsLine clg.coords f l (((across horizontal r).1 + (across horizontal r).2) / 2) ∧
      IsLine spg.coords f' l' (along horizontal r).1 ∧ IsLine spg.coords f' l' (along horizontal r).2) ∧
    ∀ c b e, rectToGrid clg spg horizontal r = some (c, b, e) →
      (∃ x, At clg c x ∧ x = ((across horizontal r).1 + (across horizontal r).2) / 2 ∧
        ((across horizontal r).1 ≤ (across horizontal r).2 →
          (across horizontal r).1 ≤ x ∧ x ≤ (across horizontal r).2)) ∧
      At spg b (along horizontal r).1 ∧ At spg e (along horizontal r).2 := by
  have hr := rectToGrid_eq clg spg horizontal r
  obtain ⟨c1, c2⟩ := checkBound_spec clg hc (((across horizontal r).1 + (across horizontal r).2) / 2)
  obtain ⟨b1, b2⟩ := checkBound_spec spg hs (along horizontal r).1
  obtain ⟨e1, e2⟩ := checkBound_spec spg hs (along horizontal r).2
  constructor
  · rw [hr, ← c1, ← b1, ← e1]
    cases checkBound (clg.inverseBounds (((across horizontal r).1 + (across horizontal r).2) / 2)) <;>
    cases checkBound (spg.inverseBounds (along horizontal r).1) <;>
    cases checkBound (spg.inverseBounds (along horizontal r).2) <;> simp
  · intro c b e h
    rw [hr] at h
    simp only [Option.bind_eq_some_iff, Option.map_eq_some_iff, Prod.mk.injEq] at h
    obtain ⟨c', hc', b', hb', e', he', rfl, rfl, rfl⟩ := h
    exact ⟨⟨_, (c2 _ hc').1, rfl, fun _ => by omega⟩, (b2 _ hb').1, (e2 _ he').1⟩

/-- **C56, no track is missed on narrow rectangles.**  If tracks are at least `p` apart and the rectangle is
narrower than `2 * p - 1`, the reported track is the only one on the rectangle. -/
theorem C56_narrow_partial {α β : Type} (clg : Grid α) (spg : Grid β) {f l : Int} (hc : Bounded clg f l)
    (horizontal : Bool) (r : Int × Int × Int × Int) {p : Int}
    (hp : ∀ x y, IsLine clg.coords f l x → IsLine clg.coords f l y → x < y → x + p ≤ y)
    (hw : (across horizontal r).2 - (across horizontal r).1 < 2 * p - 1)
    {c b e : Int × Int} (h : rectToGrid clg spg horizontal r = some (c, b, e)) :
    ∃ x, At clg c x ∧ ∀ y, IsLine clg.coords f l y → (across horizontal r).1 ≤ y →
      y ≤ (across horizontal r).2 → y = x := by
  have hr : ∃ c', checkBound (clg.inverseBounds (((across horizontal r).1 + (across horizontal r).2) / 2)) = some c'
      ∧ c' = c := by
    rw [rectToGrid_eq] at h
    simp only [Option.bind_eq_some_iff, Option.map_eq_some_iff, Prod.mk.injEq] at h
    obtain ⟨c', hc', b', hb', e', he', rfl, rfl, rfl⟩ := h
    exact ⟨c', hc', rfl⟩
  obtain ⟨c', hc', rfl⟩ := hr
  obtain ⟨c1, c2⟩ := checkBound_spec clg hc (((across horizontal r).1 + (across horizontal r).2) / 2)
  have hline := c1.mp (by rw [hc']; rfl)
  refine ⟨_, (c2 _ hc').1, ?_⟩
  intro y hy h1 h2
  rcases lt_trichotomy y (((across horizontal r).1 + (across horizontal r).2) / 2) with hlt | he | hlt
  · have := hp _ _ hy hline hlt; omega
  · exact he
  · have := hp _ _ hline hy hlt; omega

/-- Tracks every 10 and stop points every 5. -/
def tracks10 : Grid Unit := ⟨[(0, ()), (10, ())], [0, 1]⟩
def stops5 : Grid Unit := ⟨[(0, ()), (5, ())], [0, 1]⟩

theorem tracks10_bounded : Bounded tracks10 0 10 := ⟨by decide, by decide, by decide, by decide, by decide⟩
theorem stops5_bounded : Bounded stops5 0 5 := ⟨by decide, by decide, by decide, by decide, by decide⟩

theorem tracks10_lines {x : Int} (h : IsLine tracks10.coords 0 10 x) : ∃ q, x = 10 * q := by
  obtain ⟨c, hc, q, rfl⟩ := h
  simp only [tracks10, Grid.coords, List.map_cons, List.map_nil, List.mem_cons, List.not_mem_nil, or_false] at hc
  rcases hc with rfl | rfl
  · exact ⟨q, by omega⟩
  · exact ⟨q + 1, by omega⟩

example : rectToGrid tracks10 stops5 true (5, 28, 40, 32) = some ((3, 0), (1, 0), (8, 0)) ∧
    rectToGrid tracks10 stops5 false (28, 5, 32, 40) = some ((3, 0), (1, 0), (8, 0)) ∧
    rectToGrid tracks10 stops5 true (5, 27, 40, 31) = none := by decide

example : ∀ x y, IsLine tracks10.coords 0 10 x → IsLine tracks10.coords 0 10 y → x < y → x + 10 ≤ y := by
  intro x y hx hy h
  obtain ⟨a, rfl⟩ := tracks10_lines hx
  obtain ⟨b, rfl⟩ := tracks10_lines hy
  omega

/-- **C56 is violated by wide rectangles.**  A rectangle over the tracks at 20, 30 and 40 is reported on the track
at 30 only. -/
theorem C56_violated_wide :
    rectToGrid tracks10 stops5 true (5, 18, 40, 42) = some ((3, 0), (1, 0), (8, 0)) ∧
    IsLine tracks10.coords 0 10 20 ∧ IsLine tracks10.coords 0 10 40 :=
  ⟨by decide, ⟨0, by decide, 2, by omega⟩, ⟨0, by decide, 4, by omega⟩⟩

/-- **C56 is violated by rectangles of odd width.**  A rectangle whose center is half a unit beside the track is
accepted as being on it. -/
theorem C56_violated_off_center :
    rectToGrid tracks10 stops5 true (5, 28, 40, 33) = some ((3, 0), (1, 0), (8, 0)) := by decide

end Verif.Canvas

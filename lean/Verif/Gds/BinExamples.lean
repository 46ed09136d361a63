import Verif.Gds.BinProps

/-! # C82: what the round trip loses, and a case that meets the hypotheses -/

namespace Verif.GdsBin

variable {R : Type}

/-- A layout with one library, with one cell, with one element. -/
def one (r : R) (e : Elem R) : Gds R := ⟨600, [⟨[2026, 1], "lib", [r, r], [⟨[2026, 2], "cell", some [e]⟩]⟩]⟩

/-- The value at a key of the first element of the first cell of the first library. -/
def peek (d : Dict R) (k : String) : Option (Js R) := do
  let l ← (arrAt d "bgnlib").bind List.head?
  let c ← (arrAt l "bgnstr").bind List.head?
  let e ← (arrAt c "elements").bind List.head?
  e.lookup k

theorem peek_same {r : R} {e : Elem R} {g' : Gds R} (h : (one r e).Same g') {k : String} (hk : k ≠ "type") :
    peek g'.js k = (e.fields.lookup k).map Js.leaf := by
  obtain ⟨_, h⟩ := h
  obtain ⟨L, _, ⟨_, _, _, hc⟩, hl, e1⟩ := List.forall₂_cons_left_iff.1 h
  obtain ⟨C, _, ⟨_, _, he⟩, hl', e2⟩ := List.forall₂_cons_left_iff.1 hc
  obtain ⟨e', rest, he, hl'', e3⟩ := List.forall₂_cons_left_iff.1 he
  have e4 : C.elems = some (e' :: rest) := by
    cases hC : C.elems with
    | none => rw [hC] at e3; simp at e3
    | some es => rw [hC] at e3; simpa using e3
  have : peek g'.js k = e'.js.lookup k := by
    simp [peek, arrAt, Gds.js, Lib.js, Cell.js, List.lookup, e1, e2, e4]
  rw [this, he.2 k, ← lookup_js]
  unfold Elem.js
  rw [List.lookup_cons, beq_eq_false_iff_ne.2 hk]

theorem lost {r : R} {e : Elem R} {k : String} (hk : k ≠ "type") (hl : (e.fields.lookup k).isSome)
    (hp : (((write (one r e).js).bind read).map fun d => (peek d k).isSome) = some false) :
    ¬ ∃ rs, write (one r e).js = some rs ∧ ∃ g' : Gds R, read rs = some g'.js ∧ (one r e).Same g' := by
  rintro ⟨rs', h1, g', h2, h3⟩
  rw [h1, Option.bind_some, h2, Option.map_some, peek_same h3 hk, Option.isSome_map, hl] at hp
  simp at hp

theorem one_ok {r : R} {e : Elem R} {fs : String → List String} (h : e.Ok fs) : (one r e).Ok fs := by
  intro l hl
  simp only [one, List.mem_singleton] at hl
  subst hl
  refine ⟨by simp, by simp, ?_⟩
  intro c hc
  simp only [List.mem_singleton] at hc
  subst hc
  refine ⟨by simp, ?_⟩
  intro es he
  simp only [Option.some.injEq] at he
  subst he
  intro e' he'
  rw [List.mem_singleton] at he'
  exact he' ▸ h

def path : Elem R := ⟨"path", [("layer", .int 1), ("bgnextn", .int 5), ("xy", .ints [0, 0, 10, 0])]⟩

def magnified (r : R) : Elem R := ⟨"sref", [("sname", .str "A"), ("mag", .real r), ("xy", .ints [0, 0])]⟩

def aref : Elem R := ⟨"aref", [("sname", .str "A"), ("colrow", .ints [2, 3]), ("xy", .ints [0, 0, 10, 0, 0, 10])]⟩

/-- **C82 is violated (a).**  The record `BGNEXTN` of a path is taken for the beginning of an object: the fields after it are not in the
path. -/
theorem C82_violated_path : ∃ g : Gds Int, g.Ok format ∧
    ¬ ∃ rs, write g.js = some rs ∧ ∃ g' : Gds Int, read rs = some g'.js ∧ g.Same g' := by
  refine ⟨one 1 path, one_ok ⟨by decide +kernel, by decide +kernel, ?_⟩, lost (k := "xy") (by decide) (by decide +kernel) (by decide +kernel)⟩
  intro k v h
  simp only [path, List.mem_cons, Prod.mk.injEq, List.not_mem_nil, or_false] at h
  rcases h with ⟨rfl, rfl⟩ | ⟨rfl, rfl⟩ | ⟨rfl, rfl⟩
  · exact ⟨by decide +kernel, .inl ⟨by decide, _, rfl⟩⟩
  · exact ⟨by decide +kernel, .inl ⟨by decide, _, rfl⟩⟩
  · exact ⟨by decide +kernel, .inr (.inl ⟨by decide, _, by decide, rfl⟩)⟩

/-- **C82 is violated (b).**  The magnification of a reference is not written. -/
theorem C82_violated_mag : ∃ g : Gds Int, g.Ok format ∧
    ¬ ∃ rs, write g.js = some rs ∧ ∃ g' : Gds Int, read rs = some g'.js ∧ g.Same g' := by
  refine ⟨one 1 (magnified 1), one_ok ⟨?_, ?_, ?_⟩, lost (k := "mag") (by decide) (by decide +kernel) (by decide +kernel)⟩
  · simp [magnified, format]
  · simp [magnified]
  intro k v h
  simp only [magnified, List.mem_cons, Prod.mk.injEq, List.not_mem_nil, or_false] at h
  rcases h with ⟨rfl, rfl⟩ | ⟨rfl, rfl⟩ | ⟨rfl, rfl⟩
  · exact ⟨by simp [magnified, format], .inr (.inr (.inr ⟨by decide, _, rfl⟩))⟩
  · exact ⟨by simp [magnified, format], .inr (.inr (.inl ⟨by decide, _, rfl⟩))⟩
  · exact ⟨by simp [magnified, format], .inr (.inl ⟨by decide, _, by decide, rfl⟩)⟩

/-- **C82 is violated (c).**  Of an array of references only the end is written: the array is lost, and the objects around it end too
early. -/
theorem C82_violated_aref : ∃ g : Gds Int, g.Ok format ∧
    ¬ ∃ rs, write g.js = some rs ∧ ∃ g' : Gds Int, read rs = some g'.js ∧ g.Same g' := by
  refine ⟨one 1 aref, one_ok ⟨by decide +kernel, by decide +kernel, ?_⟩, lost (k := "xy") (by decide) (by decide +kernel) (by decide +kernel)⟩
  intro k v h
  simp only [aref, List.mem_cons, Prod.mk.injEq, List.not_mem_nil, or_false] at h
  rcases h with ⟨rfl, rfl⟩ | ⟨rfl, rfl⟩ | ⟨rfl, rfl⟩
  · exact ⟨by decide +kernel, .inr (.inr (.inr ⟨by decide, _, rfl⟩))⟩
  · exact ⟨by decide +kernel, .inr (.inl ⟨by decide, _, by decide, rfl⟩)⟩
  · exact ⟨by decide +kernel, .inr (.inl ⟨by decide, _, by decide, rfl⟩)⟩

/-- **C82 is violated (d).**  A library without cells reads back without its list of cells, and cannot be written again. -/
theorem C82_violated_empty : ∃ g : Gds Int, g.Ok format ∧ (((write g.js).bind read).isSome ∧ ((write g.js).bind read).bind write = none) ∧
    ¬ ∃ rs, write g.js = some rs ∧ ∃ g' : Gds Int, read rs = some g'.js ∧ g.Same g' := by
  refine ⟨⟨600, [⟨[2026, 1], "lib", [1, 1], []⟩]⟩, ?_, ⟨by decide +kernel, ?_⟩, ?_⟩
  · intro l hl
    simp only [List.mem_singleton] at hl
    subst hl
    exact ⟨by simp, by simp, by simp⟩
  · rw [← Option.not_isSome_iff_eq_none]
    decide +kernel
  · rintro ⟨rs, h1, g', h2, _, h3⟩
    have e : (((write (⟨600, [⟨[2026, 1], "lib", [1, 1], []⟩]⟩ : Gds Int).js).bind read).map fun d =>
      (arrAt d "bgnlib").map fun l => l.map List.length) = some (some [3]) := by decide +kernel
    rw [h1, Option.bind_some, h2, Option.map_some] at e
    have f : ((arrAt g'.js "bgnlib").map fun l => l.map List.length) = some (g'.libs.map fun _ => 4) := by
      simp [arrAt, Gds.js, List.lookup, Lib.js, Function.comp_def]
    rw [f, Option.some.injEq, Option.some.injEq] at e
    cases hl : g'.libs with
    | nil => rw [hl] at e; simp at e
    | cons a l => rw [hl] at e; simp at e

/-- **C82 is violated**: not all layouts survive. -/
theorem C82_violated : ¬ C82_statement Int format := fun h => by
  obtain ⟨g, h1, h2⟩ := C82_violated_path
  exact h2 (h g h1)

/-- A layout that meets the hypotheses of `C82_round_trip_partial`. -/
example (r : R) : let g : Gds R := one r ⟨"text", [("string", .str "VDD"), ("layer", .int 3), ("mag", .real r), ("xy", .ints [5, 5])]⟩
    g.Ok kept ∧ g.libs ≠ [] ∧ ∀ l ∈ g.libs, l.cells ≠ [] := by
  refine ⟨one_ok ⟨by simp [kept], by simp, ?_⟩, by simp [one], by simp [one]⟩
  intro k v h
  simp only [List.mem_cons, Prod.mk.injEq, List.not_mem_nil, or_false] at h
  rcases h with ⟨rfl, rfl⟩ | ⟨rfl, rfl⟩ | ⟨rfl, rfl⟩ | ⟨rfl, rfl⟩
  · exact ⟨by simp [kept], .inr (.inr (.inr ⟨by decide, _, rfl⟩))⟩
  · exact ⟨by simp [kept], .inl ⟨by decide, _, rfl⟩⟩
  · exact ⟨by simp [kept], .inr (.inr (.inl ⟨by decide, _, rfl⟩))⟩
  · exact ⟨by simp [kept], .inr (.inl ⟨by decide, _, by decide, rfl⟩)⟩

end Verif.GdsBin

import Verif.SeqPair.Variants

/-!
# C51: merging `SameTemplate` constraints for the placer

Model of `align/pnr/write_constraint.py`: `merge_sametemplate_const` (22-41).
-/

namespace Verif.Pnr

open Verif.Cons Verif.SeqPair

/-- The inner loop (30-35): the first group with a common instance is extended and the flag cleared.
Sets are lists of their elements. -/
def mergeLoop (s : List String) : Bool → List (List String) → Bool × List (List String)
  | flag, [] => (flag, [])
  | flag, g :: gs =>
    if flag && s.any (fun x => g.contains x) then
      ((mergeLoop s false gs).1, (g ++ s) :: (mergeLoop s false gs).2)
    else ((mergeLoop s flag gs).1, g :: (mergeLoop s flag gs).2)

/-- One constraint (29-36). -/
def mergeOne (gs : List (List String)) (s : List String) : List (List String) :=
  if (mergeLoop s true gs).1 then (mergeLoop s true gs).2 ++ [s] else (mergeLoop s true gs).2

/-- `merge_sametemplate_const` (22-41): the groups appended to the constraints for the placer, for
constraints which have been expanded (24). -/
def mergeSameTemplate (cs : List Cons) : Option (List (List String)) :=
  (expand cs).map fun ex => (sameTemplates ex).foldl mergeOne []

theorem mergeLoop_false (s : List String) : ∀ gs, mergeLoop s false gs = (false, gs)
  | [] => rfl
  | g :: gs => by simp [mergeLoop, mergeLoop_false s gs]

theorem mergeLoop_true (s : List String) : ∀ gs : List (List String),
    (if (mergeLoop s true gs).1 then (mergeLoop s true gs).2 ++ [s] else (mergeLoop s true gs).2) =
      addGroup s gs
  | [] => rfl
  | g :: gs => by
    have ih := mergeLoop_true s gs
    simp only [mergeLoop, Bool.true_and, addGroup, mergeLoop_false]
    split
    · simp
    · simp only
      rw [← ih]
      split <;> simp

theorem mergeOne_eq (gs : List (List String)) (s : List String) : mergeOne gs s = addGroup s gs :=
  mergeLoop_true s gs

theorem merged_eq {cs : List Cons} {gs : List (List String)} (h : mergeSameTemplate cs = some gs) :
    ∃ ex, expand cs = some ex ∧ gs = (sameTemplates ex).foldl (fun gs s => addGroup s gs) [] := by
  simp only [mergeSameTemplate, Option.map_eq_some_iff] at h
  obtain ⟨ex, hex, rfl⟩ := h
  refine ⟨ex, hex, ?_⟩
  congr 1
  funext gs s
  exact mergeOne_eq gs s

/-- **C51, soundness.**  Two instances of one written group are linked by a chain of `SameTemplate`
constraints, and every constraint is contained in one written group. -/
theorem C51_sound_partial {cs ex : List Cons} {gs : List (List String)}
    (hex : expand cs = some ex) (h : mergeSameTemplate cs = some gs) :
    (∀ g ∈ gs, ∀ x ∈ g, ∀ y ∈ g, Linked (sameTemplates ex) x y) ∧
    (∀ s, IsSameTemplate ex s → ∃ g ∈ gs, ∀ x ∈ s, x ∈ g) := by
  obtain ⟨ex', hex', rfl⟩ := merged_eq h
  rw [hex] at hex'
  simp only [Option.some.injEq] at hex'
  subst hex'
  have hg := grouping_foldl (sameTemplates ex)
  exact ⟨hg.linked, fun s hs => hg.covers s (mem_sameTemplates.mpr hs)⟩

/-- **C51, for constraints which do not join two groups.**  If no constraint shares instances with two
different classes of the constraints before it, the written groups are disjoint, and two different
instances are in one group exactly when a chain of constraints links them. -/
theorem C51_exact_partial {cs ex : List Cons} {gs : List (List String)}
    (hex : expand cs = some ex) (h : mergeSameTemplate cs = some gs)
    (hone : OneClass (sameTemplates ex)) :
    gs.Pairwise List.Disjoint ∧
    ∀ x y, x ≠ y → ((∃ g ∈ gs, x ∈ g ∧ y ∈ g) ↔ Linked (sameTemplates ex) x y) := by
  obtain ⟨ex', hex', rfl⟩ := merged_eq h
  rw [hex] at hex'
  simp only [Option.some.injEq] at hex'
  subst hex'
  have hg := grouping_foldl (sameTemplates ex)
  have hd := disjoint_foldl hone
  refine ⟨hd, fun x y hxy => ⟨?_, ?_⟩⟩
  · rintro ⟨g, hgm, hx, hy⟩
    exact hg.linked g hgm x hx y hy
  · intro hl
    have uniq : ∀ g1 ∈ (sameTemplates ex).foldl (fun gs s => addGroup s gs) [],
        ∀ g2 ∈ (sameTemplates ex).foldl (fun gs s => addGroup s gs) [],
        ∀ z, z ∈ g1 → z ∈ g2 → g1 = g2 := by
      intro g1 h1 g2 h2 z hz1 hz2
      by_contra hne
      have : Std.Symm (List.Disjoint : List String → List String → Prop) :=
        ⟨fun _ _ h => h.symm⟩
      exact hd.forall h1 h2 hne hz1 hz2
    have key : x = y ∨ ∃ g ∈ (sameTemplates ex).foldl (fun gs s => addGroup s gs) [], x ∈ g ∧ y ∈ g := by
      clear hxy
      induction hl with
      | refl => exact Or.inl rfl
      | tail _ hst ih =>
        obtain ⟨s, hs, h1, h2⟩ := hst
        obtain ⟨g, hgm, hsub⟩ := hg.covers s hs
        rcases ih with rfl | ⟨g', hg', hx', hb'⟩
        · exact Or.inr ⟨g, hgm, hsub _ h1, hsub _ h2⟩
        · have := uniq g hgm g' hg' _ (hsub _ h1) hb'
          subst this
          exact Or.inr ⟨g, hgm, hx', hsub _ h2⟩
    exact key.resolve_left hxy

example : mergeSameTemplate [.sameTemplate ["a", "b"], .sameTemplate ["c", "d"],
    .sameTemplate ["b", "e"]] = some [["a", "b", "b", "e"], ["c", "d"]] := by decide

/-- The hypothesis of `C51_exact_partial` holds for these constraints. -/
example : OneClass [["a", "b"], ["c", "d"], ["b", "e"]] := by
  intro pre s post h x hx y hy hpx hpy
  have hcase : (pre = [] ∧ s = ["a", "b"]) ∨ (pre = [["a", "b"]] ∧ s = ["c", "d"]) ∨
      (pre = [["a", "b"], ["c", "d"]] ∧ s = ["b", "e"]) := by
    match pre, h with
    | [], h => simp at h; exact Or.inl ⟨rfl, h.1.symm⟩
    | [p], h => simp at h; exact Or.inr (Or.inl ⟨by rw [h.1], h.2.1.symm⟩)
    | [p, q], h => simp at h; exact Or.inr (Or.inr ⟨by rw [h.1, h.2.1], h.2.2.1.symm⟩)
    | p :: q :: r :: t, h => simp at h
  have hxy : x = y := by
    rcases hcase with ⟨rfl, rfl⟩ | ⟨rfl, rfl⟩ | ⟨rfl, rfl⟩
    · simp at hpx
    · simp at hx hpx; rcases hx with rfl | rfl <;> simp at hpx
    · simp at hx hy hpx hpy
      rcases hx with rfl | rfl
      · rcases hy with rfl | rfl
        · rfl
        · simp at hpy
      · simp at hpx
  rw [hxy]; exact .refl

/-- **C51 is violated.**  With {a,b}, {c,d}, {b,c} the written groups are {a,b,c} and {c,d}: they are
not disjoint, and `a` and `d` are linked but in no common group. -/
theorem C51_violated_transitive :
    let cs : List Cons := [.sameTemplate ["a", "b"], .sameTemplate ["c", "d"], .sameTemplate ["b", "c"]]
    ∃ gs, mergeSameTemplate cs = some gs ∧ expand cs = some cs ∧
      ¬ gs.Pairwise List.Disjoint ∧
      Linked (sameTemplates cs) "a" "d" ∧ ¬ ∃ g ∈ gs, "a" ∈ g ∧ "d" ∈ g := by
  refine ⟨[["a", "b", "b", "c"], ["c", "d"]], by decide, by decide, ?_, ?_, by decide⟩
  · intro h
    simp only [List.pairwise_cons] at h
    have hd := h.1 ["c", "d"] (by simp)
    exact @hd "c" (by simp) (by simp)
  · refine .tail (b := "c") (.tail (b := "b") (.tail (b := "a") .refl ?_) ?_) ?_
    · exact ⟨["a", "b"], by simp [sameTemplates], by simp, by simp⟩
    · exact ⟨["b", "c"], by simp [sameTemplates], by simp, by simp⟩
    · exact ⟨["c", "d"], by simp [sameTemplates], by simp, by simp⟩

end Verif.Pnr

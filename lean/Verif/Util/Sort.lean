/-!
# Python's `list.sort` / `sorted`

Python guarantees a stable sort. `pySort le` is a stable insertion sort (structurally recursive, so that concrete
cases can be evaluated); `le a b` means that `a` may stay before `b`.
-/

namespace Verif

/-- Insert before the first element that is not smaller; earlier equal elements of the original list are inserted
later and so end up in front. -/
def pyInsert {α : Type} (le : α → α → Bool) (a : α) : List α → List α
  | [] => [a]
  | b :: l => if le a b then a :: b :: l else b :: pyInsert le a l

/-- Stable sort. -/
def pySort {α : Type} (le : α → α → Bool) : List α → List α
  | [] => []
  | a :: l => pyInsert le a (pySort le l)

variable {α : Type} {le : α → α → Bool}

theorem pyInsert_perm (a : α) (l : List α) : (pyInsert le a l).Perm (a :: l) := by
  induction l with
  | nil => exact List.Perm.refl _
  | cons b l ih =>
    simp only [pyInsert]
    split
    · exact List.Perm.refl _
    · exact (List.Perm.cons b ih).trans (List.Perm.swap a b l)

theorem pySort_perm (l : List α) : (pySort le l).Perm l := by
  induction l with
  | nil => exact List.Perm.refl _
  | cons a l ih => exact (pyInsert_perm a _).trans (List.Perm.cons a ih)

theorem mem_pySort {a : α} {l : List α} : a ∈ pySort le l ↔ a ∈ l := (pySort_perm l).mem_iff

theorem pyInsert_pairwise (htr : ∀ a b c, le a b = true → le b c = true → le a c = true)
    (htot : ∀ a b, (le a b || le b a) = true) (a : α) (l : List α)
    (h : l.Pairwise (fun a b => le a b = true)) :
    (pyInsert le a l).Pairwise (fun a b => le a b = true) := by
  induction l with
  | nil => simp [pyInsert]
  | cons b l ih =>
    simp only [pyInsert]
    have hb := List.pairwise_cons.mp h
    split
    · rename_i hab
      refine List.pairwise_cons.mpr ⟨?_, h⟩
      intro c hc
      rcases List.mem_cons.mp hc with rfl | hc
      · exact hab
      · exact htr _ _ _ hab (hb.1 c hc)
    · rename_i hab
      refine List.pairwise_cons.mpr ⟨?_, ih hb.2⟩
      intro c hc
      rcases List.mem_cons.mp ((pyInsert_perm a l).mem_iff.mp hc) with rfl | hc
      · have := htot c b
        simp [hab] at this; exact this
      · exact hb.1 c hc

theorem pySort_pairwise (htr : ∀ a b c, le a b = true → le b c = true → le a c = true)
    (htot : ∀ a b, (le a b || le b a) = true) (l : List α) :
    (pySort le l).Pairwise (fun a b => le a b = true) := by
  induction l with
  | nil => simp [pySort]
  | cons a l ih => exact pyInsert_pairwise htr htot a _ ih

theorem pySort_of_pairwise (l : List α) (h : l.Pairwise (fun a b => le a b = true)) :
    pySort le l = l := by
  induction l with
  | nil => rfl
  | cons a l ih =>
    have hb := List.pairwise_cons.mp h
    simp only [pySort, ih hb.2]
    cases l with
    | nil => rfl
    | cons b l => simp [pyInsert, hb.1 b (by simp)]

theorem length_pySort (l : List α) : (pySort le l).length = l.length := (pySort_perm l).length_eq

end Verif

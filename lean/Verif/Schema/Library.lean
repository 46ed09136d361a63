import Mathlib.Data.List.Basic
import Mathlib.Data.List.Nodup

/-!
# C42: names in a library

Model of `align/schema/library.py`: `Library.find` (25-26), `Library.append` (28-30), and of the
validator of names `Model.name_check` (`align/schema/model.py`: 43-46).
-/

namespace Verif.Schema

/-- A library entry (model or sub-circuit): its name and everything else. -/
structure Entry (β : Type) where
  name : String
  body : β
deriving DecidableEq

/-- Constructing a `Model` or `SubCircuit` checks that the name is not empty and converts it to upper
case (model.py:43-46).  `upper` is Python's `str.upper`. -/
def mkEntry {β : Type} (upper : String → String) (name : String) (body : β) : Option (Entry β) :=
  if name = "" then none else some ⟨upper name, body⟩

/-- `Library.find` (library.py:25-26). -/
def libFind {β : Type} (upper : String → String) (lib : List (Entry β)) (name : String) :
    Option (Entry β) :=
  lib.find? fun x => x.name == upper name

/-- `Library.append` (library.py:28-30); `none` is the failed assertion, which precedes any change. -/
def libAppend {β : Type} (upper : String → String) (lib : List (Entry β)) (item : Entry β) :
    Option (List (Entry β)) :=
  if (libFind upper lib item.name).isSome then none else some (lib ++ [item])

/-- Construct an entry from the name and the rest and append it. -/
def libAdd {β : Type} (upper : String → String) (lib : List (Entry β)) (x : String × β) :
    Option (List (Entry β)) :=
  (mkEntry upper x.1 x.2).bind (libAppend upper lib)

/-- A history of additions to an empty library, in which additions that raise are followed by
others. -/
def libRun {β : Type} (upper : String → String) (xs : List (String × β)) : List (Entry β) :=
  xs.foldl (fun lib x => (libAdd upper lib x).getD lib) []

/-- The invariant: names are in upper case, and no two entries have the same name. -/
def LibOK {β : Type} (upper : String → String) (lib : List (Entry β)) : Prop :=
  (∀ e ∈ lib, upper e.name = e.name) ∧ (lib.map Entry.name).Nodup

theorem libFind_isSome {β : Type} {upper : String → String} {lib : List (Entry β)} {n : String} :
    (libFind upper lib n).isSome = true ↔ ∃ e ∈ lib, e.name = upper n := by
  simp [libFind, List.find?_isSome]

theorem libAdd_ok {β : Type} {upper : String → String} (hup : ∀ s, upper (upper s) = upper s)
    {lib lib' : List (Entry β)} (h : LibOK upper lib) {x : String × β}
    (ha : libAdd upper lib x = some lib') :
    LibOK upper lib' ∧ lib' = lib ++ [⟨upper x.1, x.2⟩] ∧ ∀ e ∈ lib, e.name ≠ upper x.1 := by
  unfold libAdd mkEntry libAppend at ha
  split at ha
  · cases ha
  · simp only [Option.bind_some] at ha
    split at ha
    · cases ha
    · rename_i hnf
      simp only [Option.some.injEq] at ha
      subst ha
      rw [libFind_isSome] at hnf
      have hne : ∀ e ∈ lib, e.name ≠ upper x.1 := by
        intro e he hn
        exact hnf ⟨e, he, by rw [hn, hup]⟩
      refine ⟨⟨?_, ?_⟩, rfl, hne⟩
      · intro e he
        rcases List.mem_append.mp he with he | he
        · exact h.1 e he
        · simp only [List.mem_singleton] at he; subst he; exact hup _
      · rw [List.map_append, List.nodup_append]
        refine ⟨h.2, by simp, ?_⟩
        intro a ha b hb
        simp only [List.map_cons, List.map_nil, List.mem_singleton] at hb
        obtain ⟨e, he, rfl⟩ := List.mem_map.mp ha
        subst hb
        exact hne e he

theorem libRun_ok {β : Type} {upper : String → String} (hup : ∀ s, upper (upper s) = upper s)
    (xs : List (String × β)) : LibOK upper (libRun upper xs) := by
  have : ∀ (xs : List (String × β)) (lib : List (Entry β)), LibOK upper lib →
      LibOK upper (xs.foldl (fun lib x => (libAdd upper lib x).getD lib) lib) := by
    intro xs
    induction xs with
    | nil => intro lib h; exact h
    | cons x xs ih =>
      intro lib h
      refine ih _ ?_
      show LibOK upper ((libAdd upper lib x).getD lib)
      cases ha : libAdd upper lib x with
      | none => exact h
      | some lib' => exact (libAdd_ok hup h ha).1
  exact this xs [] ⟨by simp, by simp⟩

/-- **C42, uniqueness.**  After any history no two entries have the same name. -/
theorem C42_unique {β : Type} {upper : String → String} (hup : ∀ s, upper (upper s) = upper s)
    (xs : List (String × β)) : (libRun upper xs).Pairwise fun a b => a.name ≠ b.name := by
  have := (libRun_ok hup xs).2
  rwa [List.Nodup, List.pairwise_map] at this

/-- **C42, look-up.**  After any history, `find(name)` returns an entry exactly when the entry is in
the library under this name, whatever the case of the letters. -/
theorem C42_find {β : Type} {upper : String → String} (hup : ∀ s, upper (upper s) = upper s)
    (xs : List (String × β)) (name : String) (e : Entry β) :
    libFind upper (libRun upper xs) name = some e ↔
      e ∈ libRun upper xs ∧ upper e.name = upper name := by
  obtain ⟨hU, hN⟩ := libRun_ok hup xs
  generalize libRun upper xs = lib at *
  constructor
  · intro h
    have hm := List.mem_of_find?_eq_some h
    have hp := List.find?_some h
    simp only [beq_iff_eq] at hp
    exact ⟨hm, by rw [hp, hup]⟩
  · rintro ⟨hm, hn⟩
    rw [hU e hm] at hn
    have hs : (libFind upper lib name).isSome = true := libFind_isSome.mpr ⟨e, hm, hn⟩
    obtain ⟨e', he'⟩ := Option.isSome_iff_exists.mp hs
    have hm' := List.mem_of_find?_eq_some he'
    have hp' := List.find?_some he'
    simp only [beq_iff_eq] at hp'
    rw [he', List.inj_on_of_nodup_map hN hm' hm (hp'.trans hn.symm)]

/-- **C42, appending.**  After any history, adding an entry with a non-empty name raises exactly when
an entry of this name (whatever the case) is in the library; the history goes on with an unchanged
library then, and otherwise with the new entry at its end. -/
theorem C42_append {β : Type} {upper : String → String} (hup : ∀ s, upper (upper s) = upper s)
    (xs : List (String × β)) (name : String) (body : β) (hne : name ≠ "") :
    (libAdd upper (libRun upper xs) (name, body) = none ↔
      ∃ e ∈ libRun upper xs, upper e.name = upper name) ∧
    libRun upper (xs ++ [(name, body)]) =
      (if (libAdd upper (libRun upper xs) (name, body)).isSome
        then libRun upper xs ++ [⟨upper name, body⟩] else libRun upper xs) := by
  have hOK := libRun_ok hup xs
  have e1 : libRun upper (xs ++ [(name, body)]) =
      (libAdd upper (libRun upper xs) (name, body)).getD (libRun upper xs) := by
    simp [libRun, List.foldl_append]
  rw [e1]
  generalize libRun upper xs = lib at *
  constructor
  · simp only [libAdd, mkEntry, if_neg hne, Option.bind_some, libAppend]
    rw [ite_eq_left_iff, imp_iff_not (by simp : ¬ some _ = none), not_not, libFind_isSome]
    constructor
    · rintro ⟨e, he, hn⟩; exact ⟨e, he, by rw [hn, hup, hup]⟩
    · rintro ⟨e, he, hn⟩
      exact ⟨e, he, by rw [hup, ← hn, hOK.1 e he]⟩
  · cases ha : libAdd upper lib (name, body) with
    | none => rfl
    | some lib' => simpa using (libAdd_ok hup hOK ha).2.1

/-- Letters `a` and `b` in upper case; enough for an example. -/
def upperAB (s : String) : String := if s = "a" then "A" else if s = "b" then "B" else s

example : (∀ s, upperAB (upperAB s) = upperAB s) ∧
    libRun upperAB [("a", 1), ("b", 2), ("A", 3), ("c", 4)] = [⟨"A", 1⟩, ⟨"B", 2⟩, ⟨"c", 4⟩] ∧
    libFind upperAB (libRun upperAB [("a", 1), ("b", 2), ("A", 3)]) "b" = some ⟨"B", 2⟩ := by
  refine ⟨?_, by decide, by decide⟩
  intro s
  unfold upperAB
  by_cases h : s = "a"
  · subst h; decide
  · by_cases h' : s = "b"
    · subst h'; decide
    · simp [h, h']

end Verif.Schema

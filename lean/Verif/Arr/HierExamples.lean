import Verif.Arr.HierProps

/-! # C79: circuits -/

namespace Verif.Arr

open Verif.Net

deriving instance DecidableEq for Verif.Net.Sub

def m2 (name a b : String) : Inst := ⟨name, "NMOS", [("D", a), ("G", b)]⟩

/-- Two branches at the net IN, and an element that is in none. -/
def hl : List Inst := [m2 "M0" "A" "IN", m2 "M1" "A" "VSS", m2 "M2" "B" "IN", m2 "M3" "B" "VSS", m2 "M4" "IN" "VSS"]

def hlNames : List String := ["M0", "M1", "M2", "M3", "M4", "A", "B", "IN", "VSS"]

theorem wellFormed_empty {l : List Inst} (h : (l.map Inst.name).Nodup) (hp : ∀ e ∈ l, (e.pins.map Prod.fst).Nodup) :
    WellFormed (fun _ => none) l := ⟨h, fun _ _ h => by simp at h, hp, fun _ _ h => by simp at h⟩

theorem tidy_empty {l : List Inst} (h : ∀ e ∈ l, e.name.toList.head? ≠ some 'X' ∧ e.model.toList.head? ≠ some 'A') :
    Tidy (fun _ => none) l where
  names := by
    intro e he t hc
    have := (h e he).1
    rw [hc] at this
    simp [String.toList_append] at this
  models := by
    intro p e hp t hc
    cases hp with
    | top he =>
      have := (h e he).2
      rw [hc] at this
      simp [String.toList_append] at this
    | step _ h => simp at h

/-- The hypotheses of `C79_connectivity`. -/
example : WellFormed (fun _ => none) hl ∧ Tidy (fun _ => none) hl ∧
    (addArrays id 10 hlNames ["IN", "VSS"] (fun _ => none) hl [("IN", [["M0", "M1"], ["M2", "M3"]])]).map
      (fun st => (st.elems.map Inst.name, st.added)) =
    some (["M4", "X_ARRAY_HIER_IN"], [("ARRAY_HIER_IN", ["X_ARRAY_TEMPLATE", "X_ARRAY_TEMPLATE1"])]) :=
  ⟨wellFormed_empty (by decide +kernel) (by decide +kernel), tidy_empty (by decide +kernel), by decide +kernel⟩

/-- The hypotheses of `C79_templates` and `C79_succeeds_partial`. -/
example : (∃ x y, x ≠ y ∧ Moves hlNames [] [["M0", "M1"], ["M2", "M3"]] x ∧ Moves hlNames [] [["M0", "M1"], ["M2", "M3"]] y) ∧
    (∀ row ∈ [["M0", "M1"], ["M2", "M3"]], ∀ x ∈ row, ∀ u, x ≠ "X_" ++ ("ARRAY_TEMPLATE" ++ u)) ∧
    (∀ row ∈ [["M0", "M1"], ["M2", "M3"]], ∃ e ∈ hl, e.name ∈ row ∧ Moves hlNames [] [["M0", "M1"], ["M2", "M3"]] e.name ∧
      "IN" ∈ e.pins.map Prod.snd) ∧ "IN" ∈ ["IN", "VSS"] := by
  refine ⟨⟨"M0", "M2", by decide, ?_, ?_⟩, ?_, ?_, by simp⟩
  · unfold Moves; decide +kernel
  · unfold Moves; decide +kernel
  · have h : ∀ row ∈ [["M0", "M1"], ["M2", "M3"]], ∀ x ∈ row, x.toList.head? = some 'M' := by decide +kernel
    intro row hr x hx u hc
    have := h row hr x hx
    rw [hc] at this
    simp [String.toList_append] at this
  · unfold Moves; decide +kernel

/-- The full statement holds for these branches. -/
theorem statement_example : C79_statement (addArrays id 10 hlNames ["IN", "VSS"] (fun _ => none) hl [("IN", [["M0", "M1"], ["M2", "M3"]])]) := by
  obtain ⟨st, hst⟩ : ∃ st, addArrays id 10 hlNames ["IN", "VSS"] (fun _ => none) hl [("IN", [["M0", "M1"], ["M2", "M3"]])] = some st :=
    Option.isSome_iff_exists.1 (by decide +kernel)
  have key : ((addArrays id 10 hlNames ["IN", "VSS"] (fun _ => none) hl [("IN", [["M0", "M1"], ["M2", "M3"]])]).map fun st =>
      (st.added, st.lib "ARRAY_HIER_IN", st.lib "ARRAY_TEMPLATE", st.lib "ARRAY_TEMPLATE1")) =
      some ([("ARRAY_HIER_IN", ["X_ARRAY_TEMPLATE", "X_ARRAY_TEMPLATE1"])],
        some ⟨[⟨"X_ARRAY_TEMPLATE", "ARRAY_TEMPLATE", [("IN", "IN"), ("VSS", "VSS")]⟩,
          ⟨"X_ARRAY_TEMPLATE1", "ARRAY_TEMPLATE1", [("IN", "IN"), ("VSS", "VSS")]⟩]⟩,
        some ⟨[m2 "M0" "A" "IN", m2 "M1" "A" "VSS"]⟩, some ⟨[m2 "M2" "B" "IN", m2 "M3" "B" "VSS"]⟩) := by decide +kernel
  rw [hst] at key
  simp only [Option.map_some, Option.some.injEq, Prod.mk.injEq] at key
  obtain ⟨k1, k2, k3, k4⟩ := key
  refine ⟨st, hst, ?_⟩
  intro h xs hh
  rw [k1] at hh
  simp only [List.mem_singleton, Prod.mk.injEq] at hh
  obtain ⟨rfl, rfl⟩ := hh
  refine ⟨_, k2, ?_⟩
  intro x hx y hy
  have all : ∀ x ∈ ["X_ARRAY_TEMPLATE", "X_ARRAY_TEMPLATE1"], ∃ e ∈ [(⟨"X_ARRAY_TEMPLATE", "ARRAY_TEMPLATE", [("IN", "IN"), ("VSS", "VSS")]⟩ : Inst),
      ⟨"X_ARRAY_TEMPLATE1", "ARRAY_TEMPLATE1", [("IN", "IN"), ("VSS", "VSS")]⟩], e.name = x ∧
      ∃ t, st.lib e.model = some t ∧ t.elems.map Inst.model = ["NMOS", "NMOS"] := by
    intro x hx
    simp only [List.mem_cons, List.not_mem_nil, or_false] at hx
    rcases hx with rfl | rfl
    · exact ⟨_, List.mem_cons_self, rfl, _, k3, rfl⟩
    · exact ⟨_, List.mem_cons_of_mem _ List.mem_cons_self, rfl, _, k4, rfl⟩
  obtain ⟨e, h1, h2, t, h3, h4⟩ := all x hx
  obtain ⟨d, g1, g2, u, g3, g4⟩ := all y hy
  exact ⟨e, h1, d, g1, h2, g2, t, u, h3, g3, fun m => by rw [h4, g4]⟩

/-! ## Violations -/

/-- **C79 is violated**: if the library has an `ARRAY_HIER_IN` already, because another circuit has an array at a net named IN, then
the hierarchy for the array is not made, and nothing is returned. -/
theorem C79_violated_name : ¬ C79_statement (addArrays id 10 hlNames ["IN", "VSS"]
    (addSub (fun _ => none) "ARRAY_HIER_IN" ⟨[m2 "Q" "A" "B"]⟩) hl [("IN", [["M0", "M1"], ["M2", "M3"]])]) := by
  rintro ⟨st, h, _⟩
  have : addArrays id 10 hlNames ["IN", "VSS"] (addSub (fun _ => none) "ARRAY_HIER_IN" ⟨[m2 "Q" "A" "B"]⟩) hl
    [("IN", [["M0", "M1"], ["M2", "M3"]])] = none :=
    Option.isNone_iff_eq_none.1 (by decide +kernel)
  rw [this] at h
  cases h

/-- Three branches between IN and VSS. -/
def hl3 : List Inst := hl ++ [m2 "M5" "C" "IN", m2 "M6" "C" "VSS", m2 "M7" "D" "IN", m2 "M8" "D" "VSS"]

def hl3Names : List String := hlNames ++ ["M5", "M6", "M7", "M8", "C", "D"]

/-- **C79 is violated**: if a row has lost all its elements to an earlier array, then a subcircuit without pins would be made for it,
and nothing is returned. -/
theorem C79_violated_empty : ¬ C79_statement (addArrays id 10 hl3Names ["IN", "VSS"] (fun _ => none) hl3
    [("IN", [["M0", "M1"], ["M2", "M3"]]), ("VSS", [["M1", "M0"], ["M6", "M5"], ["M8", "M7"]])]) := by
  rintro ⟨st, h, _⟩
  have : addArrays id 10 hl3Names ["IN", "VSS"] (fun _ => none) hl3
    [("IN", [["M0", "M1"], ["M2", "M3"]]), ("VSS", [["M1", "M0"], ["M6", "M5"], ["M8", "M7"]])] = none :=
    Option.isNone_iff_eq_none.1 (by decide +kernel)
  rw [this] at h
  cases h

/-- The instances with different templates are not as the statement has it. -/
theorem violated_of {r : Option St} {h x y n m : String} {xs : List String} {s t u : Sub} {k : String}
    (key : (r.map fun st => (st.added, st.lib h, st.lib n, st.lib m)) = some ([(h, xs)], some s, some t, some u))
    (hx : x ∈ xs) (hy : y ∈ xs) (ex : ∀ e ∈ s.elems, e.name = x → e.model = n) (ey : ∀ e ∈ s.elems, e.name = y → e.model = m)
    (hne : (t.elems.map Inst.model).count k ≠ (u.elems.map Inst.model).count k) : ¬ C79_statement r := by
  rintro ⟨st, rfl, hs⟩
  simp only [Option.map_some, Option.some.injEq, Prod.mk.injEq] at key
  obtain ⟨k1, k2, k3, k4⟩ := key
  obtain ⟨s', h1, h2⟩ := hs h xs (by rw [k1]; exact List.mem_cons_self)
  rw [k2, Option.some.injEq] at h1
  subst h1
  obtain ⟨e, he, d, hd, e1, d1, t', u', h3, h4, h5⟩ := h2 x hx y hy
  rw [ex e he e1, k3, Option.some.injEq] at h3
  rw [ey d hd d1, k4, Option.some.injEq] at h4
  subst h3 h4
  exact hne (h5 k)

/-- **C79 is violated**: two of three branches share an element.  It stays, so that the subcircuits of these two branches have one
element less than that of the third; all three are to have the same template. -/
theorem C79_violated_shared : ¬ C79_statement (addArrays id 10 hl3Names ["IN", "VSS"] (fun _ => none)
    [m2 "M0" "A" "IN", m2 "M2" "B" "IN", m2 "M1" "A" "B", m2 "M5" "C" "IN", m2 "M6" "C" "VSS"]
    [("IN", [["M0", "M1"], ["M2", "M1"], ["M5", "M6"]])]) :=
  violated_of (h := "ARRAY_HIER_IN") (x := "X_ARRAY_TEMPLATE") (y := "X_ARRAY_TEMPLATE2") (n := "ARRAY_TEMPLATE") (m := "ARRAY_TEMPLATE2")
    (xs := ["X_ARRAY_TEMPLATE", "X_ARRAY_TEMPLATE1", "X_ARRAY_TEMPLATE2"])
    (s := ⟨[⟨"X_ARRAY_TEMPLATE", "ARRAY_TEMPLATE", [("A", "A"), ("IN", "IN")]⟩, ⟨"X_ARRAY_TEMPLATE1", "ARRAY_TEMPLATE1", [("B", "B"), ("IN", "IN")]⟩,
      ⟨"X_ARRAY_TEMPLATE2", "ARRAY_TEMPLATE2", [("IN", "IN"), ("VSS", "VSS")]⟩]⟩)
    (t := ⟨[m2 "M0" "A" "IN"]⟩) (u := ⟨[m2 "M5" "C" "IN", m2 "M6" "C" "VSS"]⟩) (k := "NMOS")
    (by decide +kernel) (by decide) (by decide) (by decide +kernel) (by decide +kernel) (by decide +kernel)

/-- **C79 is violated**: an array of which one element is left makes no hierarchy, but the element counts as moved; so a row of a
later array has one element less than the others. -/
theorem C79_violated_moved : ¬ C79_statement (addArrays id 10 hl3Names ["IN", "VSS"] (fun _ => none) hl
    [("A", [["M1", "M0"], ["M2", "M0"], ["M2", "M3"], ["M3", "M0"]]), ("IN", [["M0", "M1"], ["M2", "M3"]])]) :=
  violated_of (h := "ARRAY_HIER_IN") (x := "X_ARRAY_TEMPLATE") (y := "X_ARRAY_TEMPLATE1") (n := "ARRAY_TEMPLATE") (m := "ARRAY_TEMPLATE1")
    (xs := ["X_ARRAY_TEMPLATE", "X_ARRAY_TEMPLATE1"])
    (s := ⟨[⟨"X_ARRAY_TEMPLATE", "ARRAY_TEMPLATE", [("A", "A"), ("IN", "IN")]⟩, ⟨"X_ARRAY_TEMPLATE1", "ARRAY_TEMPLATE1", [("IN", "IN"), ("VSS", "VSS")]⟩]⟩)
    (t := ⟨[m2 "M0" "A" "IN"]⟩) (u := ⟨[m2 "M2" "B" "IN", m2 "M3" "B" "VSS"]⟩) (k := "NMOS")
    (by decide +kernel) (by decide) (by decide) (by decide +kernel) (by decide +kernel) (by decide +kernel)

end Verif.Arr

import Mathlib.Data.List.Basic

/-!
# C80: constraints for instances that are to be aligned

Model of `add_align_block_const` (`align/compiler/create_array_hierarchy.py`, 206-231).

Simplifications: of a constraint its kind and its instances are modelled, of an instance its pins; `append`
(`align/schema/constraint.py`, 1515-1524) does not check that the constraints can be met; the instances exist, as all come from the
search for arrays.
-/

namespace Verif.Arr

/-- A constraint: its kind and its instances. -/
inductive Con
  | align (instances : List String)
  | sameTemplate (instances : List String)
  | alignInOrder (instances : List String)
  | other (text : String)
  deriving DecidableEq

/-- `append` (1515-1524): a constraint that is there already is not added again. -/
def append (cs : List Con) (c : Con) : List Con := if c ∈ cs then cs else cs ++ [c]

/-- Lines 213-217: an `Align` all of whose instances are in the group. -/
def duplicate (cs : List Con) (g : List String) : Bool :=
  cs.any fun | .align l => l.all fun x => g.contains x
             | _ => false

/-- Lines 218-229: the constraints of one group. -/
def forGroup (pins : String → List (String × String)) (cs : List Con) (g : List String) : List Con :=
  let cs := append cs (.sameTemplate g)
  if g.any fun x => decide (some (pins x) ≠ g.head?.map pins) then append cs (.align g) else append cs (.alignInOrder g)

/-- `add_align_block_const` (206-229).  A duplicate ends the loop (217). -/
def alignBlocks (graph : List String) (pins : String → List (String × String)) : List Con → List (List String) → List Con
  | cs, [] => cs
  | cs, g :: gs =>
    let blocks := g.filter fun x => graph.contains x
    if blocks.length > 0 then
      if duplicate cs blocks then cs else alignBlocks graph pins (forGroup pins cs blocks) gs
    else alignBlocks graph pins cs gs

/-! ## Specification -/

/-- The group has both constraints: its instances have the same template, and they are aligned. -/
def Done (pins : String → List (String × String)) (cs : List Con) (g : List String) : Prop :=
  .sameTemplate g ∈ cs ∧
    ((∃ x ∈ g, ∃ y ∈ g, pins x ≠ pins y) → .align g ∈ cs) ∧ ((∀ x ∈ g, ∀ y ∈ g, pins x = pins y) → .alignInOrder g ∈ cs)

/-- C80 in full: every group has its constraints, or an `Align` among the given ones is about its instances. -/
def C80_statement (pins : String → List (String × String)) (given : List Con) (groups : List (List String)) (r : List Con) : Prop :=
  ∀ g ∈ groups, Done pins r g ∨ ∃ l, .align l ∈ given ∧ l ⊆ g

/-! ## Theorems -/

theorem mem_append {cs : List Con} {c d : Con} : d ∈ append cs c ↔ d ∈ cs ∨ d = c := by
  unfold append
  split
  · rename_i h
    constructor
    · exact .inl
    · rintro (h1 | rfl)
      · exact h1
      · exact h
  · simp

theorem duplicate_iff {cs : List Con} {g : List String} : duplicate cs g = true ↔ ∃ l, .align l ∈ cs ∧ l ⊆ g := by
  unfold duplicate
  rw [List.any_eq_true]
  constructor
  · rintro ⟨c, hc, h⟩
    cases c with
    | align l =>
      refine ⟨l, hc, fun x hx => ?_⟩
      have := List.all_eq_true.1 h x hx
      simpa using this
    | _ => simp at h
  · rintro ⟨l, hl, h⟩
    exact ⟨_, hl, List.all_eq_true.2 fun x hx => by simpa using h hx⟩

theorem forGroup_mem {pins : String → List (String × String)} {cs : List Con} {g : List String} {c : Con}
    (h : c ∈ forGroup pins cs g) : c ∈ cs ∨ c = .sameTemplate g ∨ c = .align g ∨ c = .alignInOrder g := by
  unfold forGroup at h
  simp only at h
  split at h <;> simp only [mem_append] at h <;> tauto

theorem forGroup_done {pins : String → List (String × String)} {cs : List Con} {g : List String} : Done pins (forGroup pins cs g) g := by
  unfold forGroup Done
  simp only
  obtain _ | ⟨x, g⟩ := g
  · simp [mem_append]
  · have hany : ((x :: g).any fun y => decide (some (pins y) ≠ (x :: g).head?.map pins)) = true ↔ ∃ y ∈ x :: g, pins y ≠ pins x := by
      rw [List.any_eq_true]
      simp
    split
    · rename_i h
      obtain ⟨y, hy, hne⟩ := hany.1 h
      refine ⟨by simp [mem_append], fun _ => by simp [mem_append], fun hall => absurd (hall y hy x List.mem_cons_self) hne⟩
    · rename_i h
      refine ⟨by simp [mem_append], ?_, fun _ => by simp [mem_append]⟩
      rintro ⟨a, ha, b, hb, hab⟩
      exfalso
      have heq : ∀ y ∈ x :: g, pins y = pins x := by
        intro y hy
        by_contra hc
        exact h (hany.2 ⟨y, hy, hc⟩)
      exact hab ((heq a ha).trans (heq b hb).symm)

theorem forGroup_keeps {pins : String → List (String × String)} {cs : List Con} {g : List String} {c : Con} (h : c ∈ cs) :
    c ∈ forGroup pins cs g := by
  unfold forGroup
  simp only
  split <;> simp only [mem_append] <;> exact .inl (.inl h)

theorem alignBlocks_keeps {graph : List String} {pins : String → List (String × String)} : ∀ {gs : List (List String)} {cs : List Con},
    ∀ c ∈ cs, c ∈ alignBlocks graph pins cs gs := by
  intro gs
  induction gs with
  | nil => intro cs c h; exact h
  | cons g gs ih =>
    intro cs c h
    unfold alignBlocks
    simp only
    split
    · split
      · exact h
      · exact ih c (forGroup_keeps h)
    · exact ih c h

/-- **C80, nothing else.**  No constraint is lost, and a new one is about all the instances of one of the groups. -/
theorem C80_only {graph : List String} {pins : String → List (String × String)} : ∀ {gs : List (List String)} {cs : List Con},
    (∀ g ∈ gs, g ⊆ graph) → (∀ c ∈ cs, c ∈ alignBlocks graph pins cs gs) ∧
    ∀ c ∈ alignBlocks graph pins cs gs, c ∈ cs ∨ ∃ g ∈ gs, g ≠ [] ∧ (c = .sameTemplate g ∨
      (c = .align g ∧ ∃ x ∈ g, ∃ y ∈ g, pins x ≠ pins y) ∨ (c = .alignInOrder g ∧ ∀ x ∈ g, ∀ y ∈ g, pins x = pins y)) := by
  intro gs cs hg
  refine ⟨alignBlocks_keeps, ?_⟩
  induction gs generalizing cs with
  | nil => intro c h; exact .inl h
  | cons g gs ih =>
    intro c h
    have hf : g.filter (fun x => graph.contains x) = g := List.filter_eq_self.2 fun x hx => by simpa using hg g (by simp) hx
    unfold alignBlocks at h
    simp only [hf] at h
    have ih := fun {cs : List Con} => ih (cs := cs) (fun g' h' => hg g' (by simp [h'])) c
    split at h
    · rename_i hlen
      split at h
      · exact .inl h
      · rcases ih h with h | ⟨g', h1, h2⟩
        · have hne : g ≠ [] := by rintro rfl; simp at hlen
          unfold forGroup at h
          simp only at h
          obtain _ | ⟨x, t⟩ := g
          · exact absurd rfl hne
          · have hany : ((x :: t).any fun y => decide (some (pins y) ≠ (x :: t).head?.map pins)) = true ↔ ∃ y ∈ x :: t, pins y ≠ pins x := by
              rw [List.any_eq_true]
              simp
            split at h
            · rename_i ha
              obtain ⟨y, hy, hyx⟩ := hany.1 ha
              rw [mem_append, mem_append] at h
              rcases h with (h | h) | h
              · exact .inl h
              · exact .inr ⟨_, List.mem_cons_self, hne, .inl h⟩
              · exact .inr ⟨_, List.mem_cons_self, hne, .inr (.inl ⟨h, y, hy, x, List.mem_cons_self, hyx⟩)⟩
            · rename_i ha
              have heq : ∀ y ∈ x :: t, pins y = pins x := by
                intro y hy
                by_contra hc
                exact ha (hany.2 ⟨y, hy, hc⟩)
              rw [mem_append, mem_append] at h
              rcases h with (h | h) | h
              · exact .inl h
              · exact .inr ⟨_, List.mem_cons_self, hne, .inl h⟩
              · exact .inr ⟨_, List.mem_cons_self, hne, .inr (.inr ⟨h, fun a ha b hb => (heq a ha).trans (heq b hb).symm⟩)⟩
        · exact .inr ⟨g', List.mem_cons_of_mem _ h1, h2⟩
    · rcases ih h with h | ⟨g', h1, h2⟩
      · exact .inl h
      · exact .inr ⟨g', List.mem_cons_of_mem _ h1, h2⟩

/-- **C80 (partial).**  Every group has its constraints if no `Align` that is given is within a group and no group is within a later
one.  Missing: otherwise the groups that come after are forgotten (`C80_violated_rest`, `C80_violated_nested`). -/
theorem C80_done_partial {graph : List String} {pins : String → List (String × String)} : ∀ {gs : List (List String)} {cs : List Con},
    (∀ g ∈ gs, g ⊆ graph ∧ g ≠ []) → (∀ l, .align l ∈ cs → ∀ g ∈ gs, ¬ l ⊆ g) → gs.Pairwise (fun g g' => ¬ g ⊆ g') →
    ∀ g ∈ gs, Done pins (alignBlocks graph pins cs gs) g := by
  intro gs
  induction gs with
  | nil => intro _ _ _ _ g hg; simp at hg
  | cons g gs ih =>
    intro cs hg ha hp
    have hf : g.filter (fun x => graph.contains x) = g := List.filter_eq_self.2 fun x hx => by simpa using (hg g (by simp)).1 hx
    have hlen : g.length > 0 := List.length_pos_iff.2 (hg g (by simp)).2
    have hd : ¬ duplicate cs g = true := by
      rw [duplicate_iff]
      rintro ⟨l, h1, h2⟩
      exact ha l h1 g (by simp) h2
    rw [List.pairwise_cons] at hp
    unfold alignBlocks
    simp only [hf, hlen, if_true, hd]
    intro g' hg'
    rcases List.mem_cons.1 hg' with rfl | hg'
    · obtain ⟨h1, h2, h3⟩ := forGroup_done (pins := pins) (cs := cs) (g := g')
      exact ⟨alignBlocks_keeps _ h1, fun h => alignBlocks_keeps _ (h2 h), fun h => alignBlocks_keeps _ (h3 h)⟩
    · refine ih (fun x hx => hg x (by simp [hx])) ?_ hp.2 g' hg'
      intro l hl x hx
      rcases forGroup_mem hl with h | h | h | h
      · exact ha l h x (by simp [hx])
      · cases h
      · rw [Con.align.injEq] at h
        subst h
        exact hp.1 x hx
      · cases h

/-! ## Circuits -/

def exPins (x : String) : List (String × String) := if x = "M0" ∨ x = "M1" then [("D", "A")] else [("D", x)]

/-- The hypotheses of the theorems. -/
example : (∀ g ∈ [["M0", "M1"], ["M2", "M3"]], g ⊆ ["M0", "M1", "M2", "M3"] ∧ g ≠ []) ∧
    (∀ l, Con.align l ∈ [.align ["M0", "M2"]] → ∀ g ∈ [["M0", "M1"], ["M2", "M3"]], ¬ l ⊆ g) ∧
    [["M0", "M1"], ["M2", "M3"]].Pairwise (fun g g' => ¬ g ⊆ g') ∧
    alignBlocks ["M0", "M1", "M2", "M3"] exPins [.align ["M0", "M2"]] [["M0", "M1"], ["M2", "M3"]] =
      [.align ["M0", "M2"], .sameTemplate ["M0", "M1"], .alignInOrder ["M0", "M1"], .sameTemplate ["M2", "M3"], .align ["M2", "M3"]] := by
  refine ⟨by decide, ?_, by decide, by decide⟩
  intro l hl
  simp only [List.mem_singleton, Con.align.injEq] at hl
  subst hl
  decide

/-- **C80 is violated**: the user has aligned the instances of the first group; the second group gets no constraints. -/
theorem C80_violated_rest : ¬ C80_statement exPins [.align ["M0", "M1"]] [["M0", "M1"], ["M2", "M3"]]
    (alignBlocks ["M0", "M1", "M2", "M3"] exPins [.align ["M0", "M1"]] [["M0", "M1"], ["M2", "M3"]]) := by
  intro h
  rcases h ["M2", "M3"] (by simp) with h | ⟨l, h1, h2⟩
  · exact absurd h.1 (by decide)
  · simp only [List.mem_singleton, Con.align.injEq] at h1
    subst h1
    exact absurd h2 (by decide)

/-- **C80 is violated**: the second group has the first group's instances and one more: it and the third group get no constraints. -/
theorem C80_violated_nested : ¬ C80_statement exPins [] [["M2", "M3"], ["M2", "M3", "M4"], ["M0", "M1"]]
    (alignBlocks ["M0", "M1", "M2", "M3", "M4"] exPins [] [["M2", "M3"], ["M2", "M3", "M4"], ["M0", "M1"]]) := by
  intro h
  rcases h ["M0", "M1"] (by simp) with h | ⟨l, h1, h2⟩
  · exact absurd h.1 (by decide)
  · simp at h1

end Verif.Arr

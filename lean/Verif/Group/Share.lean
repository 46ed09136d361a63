import Verif.Group.Props
import Verif.Pnr.Subset

/-! # C81: success, and groups with the same circuit -/

namespace Verif.Group

open Verif.Match (Inst Mod Lib neighbors addMod SameBy IsOcc Plain netOf mem_neighbors nets name_inj)
open Verif.Sym (showNat showNat_inj)

/-- **C81 (partial).**  The grouping succeeds if the named instances are in the circuit, they have a net to the outside, the names
`M0`, `M1`, ... fit their models, a subcircuit with the same hash has the same pins, and the constraints of the group are about its
instances.  Missing: models with another prefix (`C81_violated_prefix`), equal groups with other outward nets
(`C81_violated_pins`). -/
theorem C81_succeeds_partial {ports : List String} {pre : String → String} {key : List Inst → String} {st : St} {k : Con}
    (hin : ∀ x ∈ k.instances, up x ∈ st.elems.map Inst.name)
    (hout : ∃ e ∈ picked st.elems k.instances, ∃ n ∈ nets e, n ∈ ports ∨ ∃ x ∈ neighbors st.elems n,
      x ∉ (picked st.elems k.instances).map Inst.name)
    (hpre : ∀ e ∈ st.elems, (pre e.model).toList <+: "M".toList)
    (hlib : ∀ M, st.lib.lookup (k.template ++ key (canon (picked st.elems k.instances))) = some M →
      ∀ p, p ∈ M.pins ↔ ∃ n ∈ outer ports st.elems (picked st.elems k.instances), p = pName (netsIn (picked st.elems k.instances)) n)
    (hinner : ∀ c ∈ k.inner, ∀ x ∈ c, ∃ e ∈ st.elems, e.name = up x ∧ e.name ∈ k.instances) :
    (group pre key ports st k).isSome := by
  unfold group
  simp only
  rw [if_neg (by simpa using hin)]
  rw [if_neg]
  · have hI : ∃ inner, (if (st.lib.lookup (k.template ++ key (canon (picked st.elems k.instances)))).isSome then some []
        else k.inner.mapM (replaceAll (picked st.elems k.instances))) = some inner := by
      split
      · exact ⟨[], rfl⟩
      · apply Option.isSome_iff_exists.1
        apply Pnr.mapM_isSome
        intro c hc
        unfold replaceAll
        apply Pnr.mapM_isSome
        intro x hx
        obtain ⟨e, he, h1, h2⟩ := hinner c hc x hx
        rw [if_pos]
        · rfl
        · exact List.mem_map.2 ⟨e, mem_picked.2 ⟨he, h2⟩, h1⟩
    obtain ⟨inner, hI⟩ := hI
    rw [hI, Option.bind_some, if_neg]
    · rfl
    · cases hl : st.lib.lookup (k.template ++ key (canon (picked st.elems k.instances))) with
      | none =>
        simp only [Option.getD_none, Bool.or_eq_true, Bool.not_eq_true', not_or, Bool.not_eq_false, List.all_eq_true,
          List.contains_eq_mem, decide_eq_true_eq]
        exact ⟨fun _ h => h, fun _ h => h⟩
      | some M =>
        have := hlib M hl
        simp only [Option.getD_some, Bool.or_eq_true, Bool.not_eq_true', not_or, Bool.not_eq_false, List.all_eq_true,
          List.contains_eq_mem, decide_eq_true_eq]
        constructor
        · intro p hp
          obtain ⟨n, hn, rfl⟩ := List.mem_map.1 hp
          exact (this _).2 ⟨n, hn, rfl⟩
        · intro p hp
          obtain ⟨n, hn, rfl⟩ := (this p).1 hp
          exact List.mem_map.2 ⟨n, hn, rfl⟩
  · simp only [Bool.and_eq_true, Bool.or_eq_true, Bool.not_eq_true', not_and, not_or, Bool.not_eq_false]
    intro _
    constructor
    · obtain ⟨e, he, n, hn, h⟩ := hout
      intro hc
      have : pName (netsIn (picked st.elems k.instances)) n ∈ (outer ports st.elems (picked st.elems k.instances)).map
          fun n => pName (netsIn (picked st.elems k.instances)) n :=
        List.mem_map.2 ⟨n, mem_outer.2 ⟨mem_netsIn.2 ⟨e, he, hn⟩, h⟩, rfl⟩
      rw [List.isEmpty_iff.1 hc] at this
      simp at this
    · rw [List.all_eq_true]
      intro e he
      unfold canon at he
      rw [List.mem_mapIdx] at he
      obtain ⟨i, hi, rfl⟩ := he
      simp only
      rw [List.isPrefixOf_iff_prefix, String.toList_append]
      exact (hpre _ (mem_picked.1 (List.getElem_mem hi)).1).trans (List.prefix_append _ _)

/-! ## Groups with the same circuit -/

/-- The second element is the first with another name and with its nets renamed. -/
def Renamed (ρ : String → String) (a b : Inst) : Prop :=
  b.model = a.model ∧ b.params = a.params ∧ b.pins = a.pins.map fun pn => (pn.1, ρ pn.2)

variable {ρ : String → String}

theorem forall₂_pyInsert {α β : Type} {R : α → β → Prop} {le : α → α → Bool} {le' : β → β → Bool}
    (hle : ∀ a b c d, R a b → R c d → le a c = le' b d) {a : α} {b : β} (hab : R a b) {l : List α} {m : List β}
    (h : List.Forall₂ R l m) : List.Forall₂ R (pyInsert le a l) (pyInsert le' b m) := by
  induction h with
  | nil => exact .cons hab .nil
  | cons hcd ht ih =>
    simp only [pyInsert]
    rw [hle _ _ _ _ hab hcd]
    split
    · exact .cons hab (.cons hcd ht)
    · exact .cons hcd ih

theorem forall₂_pySort {α β : Type} {R : α → β → Prop} {le : α → α → Bool} {le' : β → β → Bool}
    (hle : ∀ a b c d, R a b → R c d → le a c = le' b d) {l : List α} {m : List β}
    (h : List.Forall₂ R l m) : List.Forall₂ R (pySort le l) (pySort le' m) := by
  induction h with
  | nil => exact .nil
  | cons hab _ ih => exact forall₂_pyInsert hle hab ih

theorem forall₂_map_iff {α β : Type} {f : α → β} {l : List α} {m : List β} :
    List.Forall₂ (fun a b => b = f a) l m ↔ m = l.map f := by
  constructor
  · intro h
    induction h with
    | nil => rfl
    | cons h _ ih => rw [h, ih]; rfl
  · rintro rfl
    induction l with
    | nil => exact .nil
    | cons a l ih => exact .cons rfl ih

theorem sortedPins_renamed {a b : Inst} (h : Renamed ρ a b) : sortedPins b = (sortedPins a).map fun pn => (pn.1, ρ pn.2) := by
  unfold sortedPins
  apply forall₂_map_iff.1
  apply forall₂_pySort
  · rintro a b c d rfl rfl
    rfl
  · exact forall₂_map_iff.2 h.2.2

theorem pinIdAux_renamed (hρ : Function.Injective ρ) (l : List (String × String)) : ∀ seen : List (String × String),
    pinIdAux (seen.map fun np => (ρ np.1, np.2)) (l.map fun pn => (pn.1, ρ pn.2)) = pinIdAux seen l := by
  have look : ∀ (seen : List (String × String)) n, (seen.map fun np => (ρ np.1, np.2)).lookup (ρ n) = seen.lookup n := by
    intro seen n
    induction seen with
    | nil => rfl
    | cons a s ih =>
      rw [List.map_cons, List.lookup_cons, List.lookup_cons, ih]
      by_cases h : n = a.1
      · subst h; simp
      · have h' : ρ n ≠ ρ a.1 := fun hc => h (hρ hc)
        simp [beq_eq_false_iff_ne.2 h, beq_eq_false_iff_ne.2 h']
  induction l with
  | nil => intro seen; rfl
  | cons pn l ih =>
    intro seen
    simp only [List.map_cons, pinIdAux, look]
    cases seen.lookup pn.2 with
    | none =>
      simp only
      rw [← ih]
      rfl
    | some p =>
      simp only
      rw [ih]

theorem sortKey_renamed (hρ : Function.Injective ρ) {a b : Inst} (h : Renamed ρ a b) : sortKey b = sortKey a := by
  unfold sortKey pinId
  rw [sortedPins_renamed h, h.2.1]
  have := pinIdAux_renamed hρ (sortedPins a) []
  rw [List.map_nil] at this
  rw [this]

theorem eraseDups_map {α : Type} [DecidableEq α] {f : α → α} (hf : Function.Injective f) :
    ∀ (n : Nat) (l : List α), l.length ≤ n → (l.map f).eraseDups = l.eraseDups.map f := by
  intro n
  induction n with
  | zero => intro l h; rw [List.length_eq_zero_iff.1 (Nat.le_zero.1 h)]; rfl
  | succ n ih =>
    intro l h
    cases l with
    | nil => rfl
    | cons a l =>
      rw [List.map_cons, List.eraseDups_cons, List.eraseDups_cons, List.map_cons, List.filter_map, ih]
      · congr 3
        apply List.filter_congr
        intro x _
        by_cases hx : x = a
        · subst hx; simp
        · have : f x ≠ f a := fun hc => hx (hf hc)
          simp [hx, this]
      · have := List.length_filter_le (fun b => !b == a) l
        simp only [List.length_cons] at h
        refine le_trans (List.length_filter_le _ l) (by omega)

theorem netsIn_renamed (hρ : Function.Injective ρ) {ms ms' : List Inst} (h : List.Forall₂ (Renamed ρ) ms ms') :
    netsIn ms' = (netsIn ms).map ρ := by
  unfold netsIn
  rw [← eraseDups_map hρ _ _ (le_refl _)]
  congr 1
  induction h with
  | nil => rfl
  | cons hab _ ih =>
    rw [List.flatMap_cons, List.flatMap_cons, List.map_append, ih, sortedPins_renamed hab]
    simp

theorem pName_renamed (hρ : Function.Injective ρ) (ns : List String) (n : String) : pName (ns.map ρ) (ρ n) = pName ns n := by
  unfold pName
  congr 2
  induction ns with
  | nil => rfl
  | cons a ns ih =>
    rw [List.map_cons, List.idxOf_cons, List.idxOf_cons, ih]
    by_cases h : a = n
    · subst h; simp
    · have : ρ a ≠ ρ n := fun hc => h (hρ hc)
      simp [beq_eq_false_iff_ne.2 h, beq_eq_false_iff_ne.2 this]

theorem canon_renamed (hρ : Function.Injective ρ) {ms ms' : List Inst} (h : List.Forall₂ (Renamed ρ) ms ms') :
    canon ms' = canon ms := by
  apply List.ext_getElem
  · simp [canon, h.length_eq]
  · intro i h1 h2
    have hi : i < ms.length := by simpa [canon] using h2
    have hi' : i < ms'.length := by simpa [canon] using h1
    simp only [canon, List.getElem_mapIdx, netsIn_renamed hρ h]
    have hr : Renamed ρ ms[i] ms'[i] := List.forall₂_iff_get.1 h |>.2 i hi hi'
    obtain ⟨r1, r2, r3⟩ := hr
    rw [r1, r2, r3, List.map_map]
    congr 1
    apply List.map_congr_left
    intro pn _
    simp only [Function.comp_apply, pName_renamed hρ]

/-- **C81.**  Two groups whose instances, in the order of their circuits, are the same up to names of instances and nets have the same
subcircuit, whatever the circuits they are in.  (Not in another order: `C81_violated_order`.) -/
theorem C81_canonical {l l' : List Inst} {names names' : List String} (hρ : Function.Injective ρ)
    (h : List.Forall₂ (Renamed ρ) (l.filter fun e => names.contains e.name) (l'.filter fun e => names'.contains e.name)) :
    canon (picked l names) = canon (picked l' names') := by
  symm
  apply canon_renamed hρ
  unfold picked
  apply forall₂_pySort _ h
  intro a b c d hab hcd
  rw [sortKey_renamed hρ hab, sortKey_renamed hρ hcd]

end Verif.Group

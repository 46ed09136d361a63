import Verif.Hier.Props

/-! # C24, C32: grid constraints of a module speak about all leaves below it -/

namespace Verif.Hier

open Verif.Geometry (Rect Transformation)
open Verif.GridCons (Pog Axis Table consOf SatAll genConstraints)

/-- The instances of each module as `gen_constraints_for_module` sees them. -/
def gridMods (D : Design) : List (String × List Verif.GridCons.Inst) :=
  D.mods.map fun e => (e.1, e.2.insts.map fun i => ⟨i.template, i.tr⟩)

theorem gridMods_lookup (D : Design) (n : String) :
    (gridMods D).lookup n = (D.mods.lookup n).map fun m => m.insts.map fun i => ⟨i.template, i.tr⟩ := by
  unfold gridMods
  induction D.mods with
  | nil => rfl
  | cons e l ih =>
    obtain ⟨k, m⟩ := e
    simp only [List.map_cons, List.lookup_cons]
    by_cases h : (n == k) = true
    · simp [h]
    · simp only [Bool.not_eq_true] at h
      simp only [h]; exact ih

theorem order_gridMods (D : Design) {order : List String} (hnd : order.Nodup) (h : ChildrenFirst D order) :
    Verif.GridCons.ChildrenFirst (gridMods D) order := by
  intro pre n post he insts hl
  rw [gridMods_lookup, Option.map_eq_some_iff] at hl
  obtain ⟨m, hm, rfl⟩ := hl
  constructor
  · rw [he, List.nodup_append] at hnd
    exact fun hin => hnd.2.2 n hin n (by simp) rfl
  · intro i hi
    obtain ⟨j, hj, rfl⟩ := List.mem_map.mp hi
    exact h pre n post he m hm j hj

/-- The constraints computed in the topological order of `compute_topoorder` for the top module, when only leaves had
constraints before, are met by the top module at `T` exactly when every leaf at the end of every path meets its own
constraints at the location composed with `T`. -/
theorem C24_leaves_exact (D : Design) (rank : String → Nat) (hac : Acyclic D rank) (hcl : Closed D)
    (hdis : ∀ n, (D.leaves.lookup n).isSome → D.mods.lookup n = none) (fuel : Nat) (top : String)
    (hfuel : rank top < fuel) (hprop : ∀ n m, D.mods.lookup n = some m → ∀ i ∈ m.insts, Verif.GridCons.Proper i.tr)
    (tbl : Table) (hk : ∀ n, (D.mods.lookup n).isSome ∨ (D.leaves.lookup n).isSome → (tbl.lookup n).isSome)
    (hv : ∀ n, ∀ p ∈ consOf tbl n, Verif.GridCons.Valid p)
    (hmod : ∀ n, (D.mods.lookup n).isSome → consOf tbl n = []) (htop : (D.mods.lookup top).isSome) :
    ∃ order tbl', topoOrder D fuel top = some order ∧ genConstraints (gridMods D) order tbl = some tbl' ∧
      ∀ T : Transformation, Verif.GridCons.Proper T → (SatAll (consOf tbl' top) T ↔
        ∀ p leaf, Path D top p leaf → ∀ t : Transformation, (∀ q, t.hit q = T.hit (throughPath p q)) →
          SatAll (consOf tbl leaf) t) := by
  obtain ⟨order, ho, hnd, hcf, hmem, -⟩ := C32_topological_order D rank hac fuel top hfuel
  have hknown : ∀ n, Below D top n → (D.mods.lookup n).isSome ∨ (D.leaves.lookup n).isSome := by
    have : ∀ {a n}, Below D a n → (D.mods.lookup a).isSome ∨ (D.leaves.lookup a).isSome →
        (D.mods.lookup n).isSome ∨ (D.leaves.lookup n).isSome := by
      intro a n h
      induction h with
      | refl => exact fun h => h
      | step h1 h2 _ ih => intro _; exact ih (Or.comm.mp (hcl _ _ h1 _ h2))
    exact fun n hn => this hn (Or.inl htop)
  obtain ⟨tbl', ht, -, hsame, hexact⟩ := Verif.GridCons.C24_hierarchy_exact (gridMods D) order tbl hv
    (fun n hn => hk n (hknown n ((hmem n).mp hn)))
    (fun n insts hl i hi => by
      rw [gridMods_lookup, Option.map_eq_some_iff] at hl
      obtain ⟨m, hm, rfl⟩ := hl
      obtain ⟨j, hj, rfl⟩ := List.mem_map.mp hi
      exact hprop n m hm j hj)
    (order_gridMods D hnd hcf)
  refine ⟨order, tbl', ho, ht, ?_⟩
  have main : ∀ (k : Nat) (n : String), rank n ≤ k → n ∈ order → (D.mods.lookup n).isSome →
      ∀ T : Transformation, Verif.GridCons.Proper T → (SatAll (consOf tbl' n) T ↔
        ∀ p leaf, Path D n p leaf → ∀ t : Transformation, (∀ q, t.hit q = T.hit (throughPath p q)) →
          SatAll (consOf tbl leaf) t) := by
    intro k
    induction k using Nat.strong_induction_on with
    | _ k ih =>
      intro n hrank hno hsome T hT
      obtain ⟨m, hm⟩ := Option.isSome_iff_exists.mp hsome
      have hl : (gridMods D).lookup n = some (m.insts.map fun i => ⟨i.template, i.tr⟩) := by
        rw [gridMods_lookup, hm]; rfl
      rw [hexact n hno _ hl T hT, hmod n hsome]
      have hchild : ∀ i ∈ m.insts, i.template ∈ order := fun i hi =>
        (hmem _).mpr (by
          have : ∀ {a b}, Below D a b → ∀ {m i}, D.mods.lookup b = some m → i ∈ m.insts → Below D a i.template := by
            intro a b h
            induction h with
            | refl => intro m i h1 h2; exact .step h1 h2 (.refl _)
            | step h1 h2 _ ih => intro m i h3 h4; exact .step h1 h2 (ih h3 h4)
          exact this ((hmem n).mp hno) hm hi)
      have hpm : ∀ i ∈ m.insts, Verif.GridCons.Proper (T.mult i.tr) := by
        intro i hi
        have := hprop n m hm i hi
        obtain ⟨a, b⟩ := hT
        obtain ⟨c, d⟩ := this
        constructor
        · show T.sX * i.tr.sX = 1 ∨ T.sX * i.tr.sX = -1
          rcases a with a | a <;> rcases c with c | c <;> simp [a, c]
        · show T.sY * i.tr.sY = 1 ∨ T.sY * i.tr.sY = -1
          rcases b with a | a <;> rcases d with c | c <;> simp [a, c]
      constructor
      · rintro ⟨-, hall⟩ p leaf hp t ht'
        cases hp with
        | @last _ m' i h1 h2 h3 =>
          rw [hm, Option.some.injEq] at h1; subst h1
          have := hall _ (List.mem_map.mpr ⟨i, h2, rfl⟩)
          simp only at this
          rw [hsame i.template (Or.inl (by rw [gridMods_lookup, hdis _ h3]; rfl))] at this
          have e : t = T.mult i.tr := Verif.Geometry.C01_hit_faithful _ _ fun q => by
            rw [ht', Verif.Geometry.C01_mult_is_sequential]; rfl
          rw [e]; exact this
        | @down _ m' i p' _ h1 h2 h3 h4 =>
          rw [hm, Option.some.injEq] at h1; subst h1
          have := hall _ (List.mem_map.mpr ⟨i, h2, rfl⟩)
          simp only at this
          have hr := hac n m hm i h2
          have hms : (D.mods.lookup i.template).isSome :=
            (hcl n m hm i h2).resolve_left (by rw [h3]; simp)
          rw [ih (rank i.template) (by omega) i.template (le_refl _) (hchild i h2) hms _ (hpm i h2)] at this
          refine this p' leaf h4 t fun q => ?_
          rw [ht', Verif.Geometry.C01_mult_is_sequential]; rfl
      · intro hall
        refine ⟨by simp [SatAll], ?_⟩
        intro j hj
        obtain ⟨i, hi, rfl⟩ := List.mem_map.mp hj
        simp only
        by_cases hleaf : (D.leaves.lookup i.template).isSome
        · rw [hsame i.template (Or.inl (by rw [gridMods_lookup, hdis _ hleaf]; rfl))]
          refine hall [i] i.template (.last hm hi hleaf) _ fun q => ?_
          rw [Verif.Geometry.C01_mult_is_sequential]; rfl
        · have hr := hac n m hm i hi
          have hms := (hcl n m hm i hi).resolve_left hleaf
          rw [ih (rank i.template) (by omega) i.template (le_refl _) (hchild i hi) hms _ (hpm i hi)]
          intro p leaf hp t ht'
          refine hall (i :: p) leaf (.down hm hi (Option.not_isSome_iff_eq_none.mp hleaf) hp) t fun q => ?_
          rw [ht', Verif.Geometry.C01_mult_is_sequential]; rfl
  exact main (rank top) top (le_refl _) ((hmem top).mpr (.refl _)) htop

example : Closed sample ∧ (∀ n, (sample.leaves.lookup n).isSome → sample.mods.lookup n = none) := by
  constructor
  · intro cn m h i hi
    simp only [sample, List.lookup_cons, List.lookup_nil] at h
    split at h
    · cases h
      simp at hi
      rcases hi with rfl | rfl | rfl <;> decide
    · split at h
      · cases h
        simp at hi
        rcases hi with rfl | rfl <;> decide
      · cases h
  · intro n h
    by_cases hn : n = "leaf"
    · subst hn; decide
    · have : (n == "leaf") = false := by simpa using hn
      simp [sample, List.lookup_cons, this] at h

example : ((topoOrder sample 3 "top").bind fun o => genConstraints (gridMods sample) o
    [("leaf", [⟨.H, 20, [⟨[0], [1, -1]⟩]⟩]), ("mid", []), ("top", [])]).map (consOf · "top") =
    some [⟨.H, 20, [⟨[0], [1, -1]⟩]⟩] := by decide

end Verif.Hier

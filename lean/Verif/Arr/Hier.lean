import Verif.Arr.Keep
import Verif.Sym.Model

/-!
# C79: hierarchies for arrays

Model of `add_new_array_hier`, `get_new_subckt_name` and `add_array_placement_constraints`
(`align/compiler/create_array_hierarchy.py`, 234-279) on top of `createHier` (`Verif.Net.NewHier`).

Simplifications: those of `Verif.Net.NewHier`; the order in which Python iterates a set is a parameter; the new subcircuit of an
array, whose elements change while the templates are made, is put into the library when it is finished (no template has its name:
`template_ne`); of the constraints the instances are modelled that are to be aligned and to have the same template.
-/

namespace Verif.Arr

open Verif.Net
open Verif.Sym (showNat)

/-- `get_new_subckt_name("ARRAY_TEMPLATE")` (273-279): the loop with its counter. -/
def tryName (D : Lib) : Nat → Nat → String → Option String
  | 0, _, _ => none
  | fuel + 1, count, name =>
    if (D name).isSome then tryName D fuel (count + 1) ("ARRAY_TEMPLATE" ++ showNat count) else some name

def newName (D : Lib) (fuel : Nat) : Option String := tryName D fuel 1 "ARRAY_TEMPLATE"

/-- Lines 251-255: the templates in the new subcircuit with the pins `hports` and the elements `hl`. -/
def templates (fuel : Nat) (hports : List String) : Lib → List Inst → List (List String) → Option (Lib × List Inst × List String)
  | D, hl, [] => some (D, hl, [])
  | D, hl, t :: ts => (newName D fuel).bind fun n => (createHier D hports hl n t).bind fun r =>
    (templates fuel hports (addSub D n r.1) r.2 ts).map fun q => (q.1, q.2.1, n :: q.2.2)

/-- The library, the elements of the circuit, `sub_hier_elements` (236) and the constraints made (264-265): the subcircuit and the
instances in it that are aligned and have the same template. -/
structure St where
  lib : Lib
  elems : List Inst
  moved : List String
  added : List (String × List String)

/-- Lines 237-256 for one entry of `new_hier_instances`.  `graph` are the nodes of the graph of the circuit, made before. -/
def addArray (order : List String → List String) (fuel : Nat) (graph ports : List String) (st : St)
    (a : String × List (List String)) : Option St :=
  let all := a.2.flatten.filter fun x => graph.contains x && !st.moved.contains x
  let rep := all.filter fun x => decide (1 < all.count x)
  let once := order (all.eraseDups.filter fun x => !rep.contains x)
  let rows := a.2.map fun r => order (r.eraseDups.filter fun x => !rep.contains x)
  let moved := st.moved ++ once
  if once.length ≤ 1 then some { st with moved := moved }
  else
    let h := "ARRAY_HIER_" ++ a.1
    (createHier st.lib ports st.elems h once).bind fun r =>
      (templates fuel (childPins ports st.elems once) st.lib r.1.elems rows).map fun q =>
        ⟨addSub q.1 h ⟨q.2.1⟩, r.2, moved, st.added ++ [(h, q.2.2.map fun n => "X_" ++ n)]⟩

/-- `add_new_array_hier` (234-256). -/
def addArrays (order : List String → List String) (fuel : Nat) (graph ports : List String) (D : Lib) (l : List Inst)
    (as : List (String × List (List String))) : Option St :=
  as.foldlM (addArray order fuel graph ports) ⟨D, l, [], []⟩

/-! ## Specification -/

/-- Instances named or of models named like those made for arrays belong to subcircuits that exist. -/
structure Tidy (D : Lib) (l : List Inst) : Prop where
  names : ∀ e ∈ l, ∀ t, e.name = "X_ARRAY_" ++ t → (D ("ARRAY_" ++ t)).isSome
  models : ∀ p e, At D l p e → ∀ t, e.model = "ARRAY_" ++ t → (D e.model).isSome

/-! ## Names -/

theorem tryName_spec {D : Lib} : ∀ {fuel count : Nat} {name r : String}, (∃ t, name = "ARRAY_TEMPLATE" ++ t) →
    tryName D fuel count name = some r → D r = none ∧ ∃ t, r = "ARRAY_TEMPLATE" ++ t := by
  intro fuel
  induction fuel with
  | zero => intro count name r _ h; simp [tryName] at h
  | succ fuel ih =>
    intro count name r hn h
    unfold tryName at h
    split at h
    · exact ih ⟨_, rfl⟩ h
    · rename_i hd
      simp only [Option.some.injEq] at h
      subst h
      exact ⟨by simpa using hd, hn⟩

theorem newName_spec {D : Lib} {fuel : Nat} {r : String} (h : newName D fuel = some r) :
    D r = none ∧ ∃ t, r = "ARRAY_TEMPLATE" ++ t := tryName_spec ⟨"", by simp⟩ h

/-- A template does not have the name of an array. -/
theorem template_ne (t k : String) : "ARRAY_TEMPLATE" ++ t ≠ "ARRAY_HIER_" ++ k := by
  intro h
  have := congrArg String.toList h
  rw [String.toList_append, String.toList_append] at this
  rw [show "ARRAY_TEMPLATE".toList = "ARRAY_".toList ++ 'T' :: "EMPLATE".toList from by decide,
    show "ARRAY_HIER_".toList = "ARRAY_".toList ++ 'H' :: "IER_".toList from by decide, List.append_assoc, List.append_assoc] at this
  have := List.append_cancel_left this
  simp at this

theorem template_arr (t : String) : "ARRAY_TEMPLATE" ++ t = "ARRAY_" ++ ("TEMPLATE" ++ t) := by
  rw [← String.append_assoc]
  congr 1

theorem hier_arr (k : String) : "ARRAY_HIER_" ++ k = "ARRAY_" ++ ("HIER_" ++ k) := by
  rw [← String.append_assoc]
  congr 1

theorem x_arr (t : String) : "X_" ++ ("ARRAY_" ++ t) = "X_ARRAY_" ++ t := by
  rw [← String.append_assoc]
  congr 1

/-! ## Single steps -/

section
variable {D : Lib} {l : List Inst}

theorem Tidy.name_ne (ht : Tidy D l) {t : String} (hD : D ("ARRAY_" ++ t) = none) : ∀ e ∈ l, e.name ≠ "X_" ++ ("ARRAY_" ++ t) := by
  intro e he hc
  rw [x_arr] at hc
  have := ht.names e he t hc
  simp [hD] at this

theorem Tidy.model_ne (ht : Tidy D l) {t : String} (hD : D ("ARRAY_" ++ t) = none) : ∀ p e, At D l p e → e.model ≠ "ARRAY_" ++ t := by
  intro p e hp hc
  have := ht.models p e hp t hc
  rw [hc, hD] at this
  simp at this

theorem at_mono {l' : List Inst} (hl : ∀ e ∈ l', e ∈ l) {p : List String} {e : Inst} (h : At D l' p e) : At D l p e := by
  induction h with
  | top he => exact .top (hl _ he)
  | step _ hs he ih => exact .step ih hs he

theorem Tidy.mono (ht : Tidy D l) {l' : List Inst} (hl : ∀ e ∈ l', e ∈ l) : Tidy D l' :=
  ⟨fun e he => ht.names e (hl e he), fun p e hp => ht.models p e (at_mono hl hp)⟩

theorem addSub_some {child : String} {s : Sub} (hD : D child = none) {m : String} {x : Sub} (h : D m = some x) :
    addSub D child s m = some x := by
  unfold addSub
  rw [if_neg]
  · exact h
  · rintro rfl; simp [hD] at h

theorem addSub_isSome {child : String} {s : Sub} {m : String} (h : (D m).isSome) : (addSub D child s m).isSome := by
  unfold addSub; split
  · rfl
  · exact h

/-- One grouping under a name for arrays. -/
theorem step_hier {ports : List String} {t : String} {els : List String} {s : Sub} {r : List Inst} (hw : WellFormed D l) (ht : Tidy D l)
    (hels : els.Nodup) (h : createHier D ports l ("ARRAY_" ++ t) els = some (s, r)) :
    Keeps ports D l (addSub D ("ARRAY_" ++ t) s) r (move ("ARRAY_" ++ t) els) ∧ WellFormed (addSub D ("ARRAY_" ++ t) s) r ∧
      Tidy (addSub D ("ARRAY_" ++ t) s) r ∧ D ("ARRAY_" ++ t) = none := by
  have hD := (createHier_eq hw.names h).2.2
  have hk := keeps_createHier hw hels (ht.name_ne hD) (ht.model_ne hD) h
  refine ⟨hk, wellFormed_new hw hels (ht.name_ne hD) h, ⟨?_, ?_⟩, hD⟩
  · intro e he t' hc
    rw [(createHier_eq hw.names h).2.1] at he
    rcases List.mem_append.1 he with he | he
    · exact addSub_isSome (ht.names e (List.mem_filter.1 he).1 t' hc)
    · simp only [List.mem_singleton] at he
      subst he
      simp only [x_arr] at hc
      have : t = t' := by
        have := congrArg String.toList hc
        rw [String.toList_append, String.toList_append] at this
        exact String.toList_inj.1 (List.append_cancel_left this)
      subst this
      simp [addSub]
  · intro p e hp t' hc
    rcases hk.only p e hp with ⟨q, hq, _⟩ | ⟨_, h2⟩
    · exact addSub_isSome (ht.models q e hq t' hc)
    · exact h2

end

/-- What is left by the templates. -/
theorem templates_keep {fuel : Nat} {hports : List String} : ∀ {ts : List (List String)} {D : Lib} {hl : List Inst} {q : Lib × List Inst × List String},
    WellFormed D hl → Tidy D hl → (∀ t ∈ ts, t.Nodup) → templates fuel hports D hl ts = some q →
    (∃ μ, Keeps hports D hl q.1 q.2.1 μ) ∧ WellFormed q.1 q.2.1 ∧ Tidy q.1 q.2.1 ∧ (∀ m s, D m = some s → q.1 m = some s) ∧
      ∀ m, (q.1 m).isSome → (D m).isSome ∨ ∃ t, m = "ARRAY_TEMPLATE" ++ t := by
  intro ts
  induction ts with
  | nil =>
    intro D hl q hw ht _ h
    simp only [templates, Option.some.injEq] at h
    subst h
    exact ⟨⟨id, Keeps.refl _ _ _⟩, hw, ht, fun _ _ h => h, fun _ h => .inl h⟩
  | cons t ts ih =>
    intro D hl q hw ht hnd h
    simp only [templates, Option.bind_eq_some_iff, Option.map_eq_some_iff] at h
    obtain ⟨n, hn, r, hr, q', hq', rfl⟩ := h
    obtain ⟨hn1, u, rfl⟩ := newName_spec hn
    rw [template_arr] at hr hq' hn1 ⊢
    obtain ⟨k1, k2, k3, k4⟩ := step_hier hw ht (hnd t (by simp)) hr
    obtain ⟨⟨μ, j1⟩, j2, j3, j4, j5⟩ := ih k2 k3 (fun x hx => hnd x (by simp [hx])) hq'
    refine ⟨⟨_, k1.trans j1 (fun m hm => addSub_isSome hm) (fun m hm => ?_)⟩, j2, j3, fun m s hm => j4 m s (addSub_some k4 hm), ?_⟩
    · obtain ⟨s, hs⟩ := Option.isSome_iff_exists.1 hm
      simp [j4 m s hs]
    · intro m hm
      rcases j5 m hm with h1 | h1
      · unfold addSub at h1
        split at h1
        · rename_i hmm
          subst hmm
          exact .inr ⟨u, (template_arr u).symm⟩
        · exact .inl h1
      · exact .inr h1

section
variable {order : List String → List String} {fuel : Nat} {graph ports : List String}

theorem nodup_order (ho : ∀ l, (order l).Perm l) (l : List String) (f : String → Bool) : (order (l.eraseDups.filter f)).Nodup := by
  rw [(ho _).nodup_iff]
  exact (nodup_eraseDups _ _ (le_refl _)).filter _

/-- One array keeps the circuit. -/
theorem addArray_keeps (ho : ∀ l, (order l).Perm l) {st st' : St} {a : String × List (List String)} (hw : WellFormed st.lib st.elems)
    (ht : Tidy st.lib st.elems) (h : addArray order fuel graph ports st a = some st') :
    (∃ μ, Keeps ports st.lib st.elems st'.lib st'.elems μ) ∧ WellFormed st'.lib st'.elems ∧ Tidy st'.lib st'.elems ∧
      ∀ m s, st.lib m = some s → st'.lib m = some s := by
  unfold addArray at h
  simp only at h
  split at h
  · simp only [Option.some.injEq] at h
    subst h
    exact ⟨⟨id, Keeps.refl _ _ _⟩, hw, ht, fun _ _ h => h⟩
  · simp only [Option.bind_eq_some_iff, Option.map_eq_some_iff] at h
    obtain ⟨⟨s, r⟩, hr, ⟨D', hl', ns⟩, hq, rfl⟩ := h
    simp only at hq ⊢
    generalize ha : (a.2.flatten.filter fun x => graph.contains x && !st.moved.contains x) = all at hr hq
    generalize hrep : (all.filter fun x => decide (1 < all.count x)) = rep at hr hq
    generalize hon : order (all.eraseDups.filter fun x => !rep.contains x) = once at hr hq
    have hnd : once.Nodup := by rw [← hon]; exact nodup_order ho _ _
    rw [hier_arr] at hr
    obtain ⟨k1, k2, k3, k4⟩ := step_hier hw ht hnd hr
    obtain ⟨c1, c2, _⟩ := createHier_eq hw.names hr
    rw [hier_arr]
    generalize hh : "ARRAY_" ++ ("HIER_" ++ a.1) = h at hr k1 k2 k3 k4 c2 ⊢
    -- the new subcircuit
    have hsub : ∀ e ∈ s.elems, e ∈ st.elems := by
      intro e he
      rw [c1] at he
      exact ((mem_moved hw.names).1 he).1
    have hlib : (addSub st.lib h s) h = some s := by simp [addSub]
    have hwin : WellFormed st.lib s.elems := ⟨k2.sub _ _ hlib, hw.sub, k2.subPins _ _ hlib, hw.subPins⟩
    obtain ⟨⟨μ, j1⟩, j2, j3, j4, j5⟩ := templates_keep hwin (ht.mono hsub) (by
      intro t htm
      obtain ⟨x, _, rfl⟩ := List.mem_map.1 htm
      exact nodup_order ho _ _) hq
    simp only at j1 j2 j3 j4 j5
    have hD'h : D' h = none := by
      cases hc : D' h with
      | none => rfl
      | some x =>
        rcases j5 h (by simp [hc]) with h1 | ⟨t, h1⟩
        · simp [k4] at h1
        · rw [← hh, ← hier_arr] at h1
          exact absurd h1.symm (template_ne t a.1)
    generalize hl0 : (st.elems.filter fun e => decide (e.name ∉ once)) = l0 at c2
    have hl0s : ∀ e ∈ l0, e ∈ st.elems := by
      intro e he; rw [← hl0] at he; exact (List.mem_filter.1 he).1
    have hmodel : ∀ p e, At st.lib st.elems p e → e.model ≠ h := by
      intro p e hp
      rw [← hh]
      exact ht.model_ne (by rw [hh]; exact k4) p e hp
    have hi : Inside st.lib l0 s.elems h := by
      refine ⟨k4, fun e he => ?_, fun p e hp => hmodel p e (at_mono hl0s hp), fun p e hp => hmodel p e (at_mono hsub hp)⟩
      rw [← hh]
      exact ht.name_ne (by rw [hh]; exact k4) e (hl0s e he)
    have hout : ∀ p e, At st.lib l0 p e → D' e.model = st.lib e.model := by
      intro p e hp
      cases hc : st.lib e.model with
      | some x => exact j4 _ _ hc
      | none =>
        cases hc' : D' e.model with
        | none => rfl
        | some x =>
          rcases j5 e.model (by simp [hc']) with h1 | ⟨t, h1⟩
          · simp [hc] at h1
          · rw [template_arr] at h1
            have := ht.models p e (at_mono hl0s hp) _ h1
            simp [hc] at this
    have hat : ∀ p e, At D' l0 p e → At st.lib l0 p e := by
      intro p e hp
      induction hp with
      | top he => exact .top he
      | step h1 hs he ih => exact .step ih (by rw [← hout _ _ ih]; exact hs) he
    have hi' : Inside D' l0 hl' h := by
      refine ⟨hD'h, hi.name, fun p e hp => hi.outer p e (hat p e hp), fun p e hp hc => ?_⟩
      have := j3.models p e hp ("HIER_" ++ a.1) (hc.trans hh.symm)
      rw [hc, hD'h] at this
      simp at this
    have hr2 : r = l0 ++ [theInst h (childPins ports st.elems once)] := c2
    have hw2 : WellFormed (addSub D' h ⟨hl'⟩) r := by
      refine ⟨k2.names, ?_, k2.topPins, ?_⟩
      · intro m x hm
        unfold addSub at hm
        split at hm
        · simp only [Option.some.injEq] at hm; subst hm; exact j2.names
        · exact j2.sub m x hm
      · intro m x hm
        unfold addSub at hm
        split at hm
        · simp only [Option.some.injEq] at hm; subst hm; exact j2.topPins
        · exact j2.subPins m x hm
    have hkeep := keeps_inside (ports := ports) hi hi' hout (by rw [← hr2]; exact k2) (by rw [← hr2]; exact hw2) j1
    rw [← hr2] at hkeep
    have hmono : ∀ m, (addSub st.lib h s m).isSome → (addSub D' h ⟨hl'⟩ m).isSome := by
      intro m hm
      unfold addSub at hm ⊢
      split
      · rfl
      · rename_i hne
        rw [if_neg hne] at hm
        obtain ⟨x, hx⟩ := Option.isSome_iff_exists.1 hm
        simp [j4 _ _ hx]
    refine ⟨⟨_, k1.trans hkeep (fun m hm => addSub_isSome hm) hmono⟩, hw2, ⟨?_, ?_⟩, fun m x hm => ?_⟩
    · intro e he t hc
      exact hmono _ (k3.names e he t hc)
    · intro p e hp t hc
      rcases hkeep.only p e hp with ⟨q, hq, _⟩ | ⟨_, h2⟩
      · exact hmono _ (k3.models q e hq t hc)
      · exact h2
    · unfold addSub
      rw [if_neg]
      · exact j4 m x hm
      · rintro rfl; simp [k4] at hm

/-- **C79, connectivity.**  When the hierarchies for all arrays have been made, all instances are still there, with the same pins,
each once; terminals of instances are connected to each other and to the ports of the circuit exactly as before; all that is new
are instances of the new subcircuits; and no subcircuit that existed has changed. -/
theorem C79_connectivity (ho : ∀ l, (order l).Perm l) {D : Lib} {l : List Inst} {as : List (String × List (List String))} {st : St}
    (hw : WellFormed D l) (ht : Tidy D l) (h : addArrays order fuel graph ports D l as = some st) :
    (∃ μ, Keeps ports D l st.lib st.elems μ) ∧ ∀ m s, D m = some s → st.lib m = some s := by
  have key : ∀ (as : List (String × List (List String))) (st st' : St), WellFormed st.lib st.elems → Tidy st.lib st.elems →
      as.foldlM (addArray order fuel graph ports) st = some st' →
      (∃ μ, Keeps ports st.lib st.elems st'.lib st'.elems μ) ∧ ∀ m s, st.lib m = some s → st'.lib m = some s := by
    intro as
    induction as with
    | nil =>
      intro st st' _ _ h
      simp only [List.foldlM_nil, Option.pure_def, Option.some.injEq] at h
      subst h
      exact ⟨⟨id, Keeps.refl _ _ _⟩, fun _ _ h => h⟩
    | cons a as ih =>
      intro st st' hw ht h
      simp only [List.foldlM_cons, Option.bind_eq_bind, Option.bind_eq_some_iff] at h
      obtain ⟨st1, h1, h2⟩ := h
      obtain ⟨⟨μ, k1⟩, k2, k3, k4⟩ := addArray_keeps ho hw ht h1
      obtain ⟨⟨ν, j1⟩, j2⟩ := ih st1 st' k2 k3 h2
      refine ⟨⟨_, k1.trans j1 (fun m hm => ?_) (fun m hm => ?_)⟩, fun m s hm => j2 m s (k4 m s hm)⟩
      · obtain ⟨s, hs⟩ := Option.isSome_iff_exists.1 hm
        simp [k4 m s hs]
      · obtain ⟨s, hs⟩ := Option.isSome_iff_exists.1 hm
        simp [j2 m s hs]
  exact key as ⟨D, l, [], []⟩ st hw ht h

end

end Verif.Arr

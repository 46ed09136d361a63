import Verif.Group.Model
import Verif.Sym.Alike

/-! # C81: the group is the same circuit -/

namespace Verif.Group

open Verif.Match (Inst Mod Lib neighbors addMod SameBy IsOcc Plain netOf mem_neighbors nets name_inj)
open Verif.Sym (showNat showNat_inj)

/-! ## Specification -/

/-- C81 in full: the instances that the user named, and no others, are in the new instance, and the circuit is the same; each
constraint for the group holds in its subcircuit; nothing in the library changes. -/
def C81_statement (ports : List String) (st : St) (k : Con) (r : Option St) : Prop :=
  ∃ st', r = some st' ∧ (st'.elems.map Inst.name).Nodup ∧
    (∃ X ∈ st'.elems, X.name = k.instanceName ∧ ∃ f, SameBy ports st.elems st'.lib st'.elems [X] f ∧
      (∀ e ∈ st.elems, (f e).1 = some X ↔ ∃ x ∈ k.instances, up x = e.name) ∧
      ∀ c ∈ k.inner, ∃ d ∈ st'.cons X.model, List.Forall₂ (fun x y => ∃ e ∈ st.elems, e.name = up x ∧ (f e).2.name = y) c d) ∧
    ∀ n M, st.lib.lookup n = some M → st'.lib.lookup n = some M

/-! ## Proofs -/

variable {l : List Inst} {names ports : List String}

theorem mem_picked {e : Inst} : e ∈ picked l names ↔ e ∈ l ∧ e.name ∈ names := by
  unfold picked
  rw [mem_pySort, List.mem_filter]
  simp

theorem picked_names (h : (l.map Inst.name).Nodup) : ((picked l names).map Inst.name).Nodup := by
  unfold picked
  rw [((pySort_perm _).map _).nodup_iff]
  exact h.sublist (List.filter_sublist.map _)

theorem nodup_picked (h : (l.map Inst.name).Nodup) : (picked l names).Nodup := (picked_names h).of_map

theorem mem_sortedPins {e : Inst} {pn : String × String} : pn ∈ sortedPins e ↔ pn ∈ e.pins := mem_pySort

theorem mem_netsIn {ms : List Inst} {n : String} : n ∈ netsIn ms ↔ ∃ e ∈ ms, n ∈ nets e := by
  unfold netsIn nets
  rw [List.mem_eraseDups, List.mem_flatMap]
  simp only [List.mem_map, mem_sortedPins]

theorem mem_outer {ms : List Inst} {n : String} : n ∈ outer ports l ms ↔ n ∈ netsIn ms ∧
    (n ∈ ports ∨ ∃ x ∈ neighbors l n, x ∉ ms.map Inst.name) := by
  unfold outer
  rw [List.mem_filter]
  simp only [Bool.or_eq_true, Bool.not_eq_true', List.all_eq_false, List.contains_eq_mem, decide_eq_true_eq]
  constructor
  · rintro ⟨h1, h2⟩; exact ⟨h1, h2.symm.imp id (by simp)⟩
  · rintro ⟨h1, h2⟩; exact ⟨h1, h2.symm.imp (by simp) id⟩

theorem append_left_inj' {a b c : String} (h : a ++ b = a ++ c) : b = c := by
  have := congrArg String.toList h
  rw [String.toList_append, String.toList_append] at this
  exact String.toList_inj.1 (List.append_cancel_left this)

theorem pName_inj {ns : List String} {a b : String} (ha : a ∈ ns) (h : pName ns a = pName ns b) : a = b :=
  (List.idxOf_inj ha).1 (showNat_inj (append_left_inj' h))

/-- The element of the new subcircuit for an element of the group. -/
def canonOf (ms : List Inst) (e : Inst) : Inst :=
  ⟨"M" ++ showNat ((ms.map Inst.name).idxOf e.name), e.model, e.pins.map fun pn => (pn.1, pName (netsIn ms) pn.2), e.params⟩

theorem canon_eq {ms : List Inst} (h : (ms.map Inst.name).Nodup) : canon ms = ms.map (canonOf ms) := by
  apply List.ext_getElem
  · simp [canon]
  · intro i h1 h2
    simp only [canon, List.getElem_mapIdx, List.getElem_map, canonOf]
    congr 3
    have hi : i < (ms.map Inst.name).length := by simpa [canon] using h1
    have := List.Nodup.idxOf_getElem h i hi
    rw [List.getElem_map] at this
    exact this.symm

theorem canonOf_inj {ms : List Inst} (h : (ms.map Inst.name).Nodup) {a b : Inst} (ha : a ∈ ms) (hb : b ∈ ms)
    (he : canonOf ms a = canonOf ms b) : a = b := by
  have h1 : (canonOf ms a).name = (canonOf ms b).name := by rw [he]
  have h2 := (List.idxOf_inj (List.mem_map_of_mem ha)).1 (showNat_inj (append_left_inj' h1))
  exact name_inj h ha hb h2

theorem lookup_map {β γ : Type} (f : β → γ) (l : List (String × β)) (k : String) :
    (l.map fun pn => (pn.1, f pn.2)).lookup k = (l.lookup k).map f := by
  induction l with
  | nil => rfl
  | cons a l ih =>
    rw [List.map_cons, List.lookup_cons, List.lookup_cons]
    by_cases h : k == a.1
    · simp [h]
    · simp [h, ih]

theorem lookup_mem' {β : Type} {l : List (String × β)} {k : String} {v : β} (h : l.lookup k = some v) : (k, v) ∈ l :=
  Hier.lookup_mem h

/-- The pins of the instance. -/
theorem lookup_pins {ms : List Inst} {ps : List String} (hps : ∀ n ∈ ps, n ∈ netsIn ms) {n : String} (hn : n ∈ netsIn ms) :
    (ps.map fun n => (pName (netsIn ms) n, n)).lookup (pName (netsIn ms) n) = if n ∈ ps then some n else none := by
  induction ps with
  | nil => simp
  | cons a ps ih =>
    simp only [List.map_cons, List.lookup_cons]
    split
    · rename_i h
      have := pName_inj hn (by simpa using h)
      subst this
      simp
    · rename_i h
      have hne : n ≠ a := by rintro rfl; simp at h
      rw [ih fun x hx => hps x (List.mem_cons_of_mem _ hx)]
      simp [hne]

section
variable {ms : List Inst} {X : Inst}

/-- Where a net is afterwards. -/
def netTo (ports : List String) (l ms : List Inst) (X : Inst) (n : String) : Option Inst × String :=
  if n ∈ netsIn ms ∧ n ∉ outer ports l ms then (some X, pName (netsIn ms) n) else (none, n)

theorem netTo_inj {a b : String} (h : netTo ports l ms X a = netTo ports l ms X b) : a = b := by
  unfold netTo at h
  split at h <;> split at h
  · rename_i h1 _
    simp only [Prod.mk.injEq, true_and] at h
    exact pName_inj h1.1 h
  · simp at h
  · simp at h
  · simpa using h

theorem netTo_port {a n : String} (hn : n ∈ ports) : netTo ports l ms X a = (none, n) ↔ a = n := by
  have : netTo ports l ms X n = (none, n) := by
    unfold netTo
    rw [if_neg]
    rintro ⟨h1, h2⟩
    exact h2 (mem_outer.2 ⟨h1, .inl hn⟩)
  constructor
  · intro h
    rw [← this] at h
    exact netTo_inj h
  · rintro rfl
    exact this

theorem netOf_in (hX : X.pins = (outer ports l ms).map fun n => (pName (netsIn ms) n, n)) {e : Inst} (he : e ∈ ms) (p : String) :
    netOf (some X, canonOf ms e) p = (e.pins.lookup p).map (netTo ports l ms X) := by
  unfold netOf canonOf
  simp only
  rw [lookup_map, Option.map_map]
  cases h : e.pins.lookup p with
  | none => rfl
  | some n =>
    have hn : n ∈ netsIn ms := mem_netsIn.2 ⟨e, he, List.mem_map.2 ⟨_, lookup_mem' h, rfl⟩⟩
    simp only [Option.map_some, Function.comp_apply, hX]
    rw [lookup_pins (fun n hn => (mem_outer.1 hn).1) hn]
    unfold netTo
    by_cases ho : n ∈ outer ports l ms
    · simp [ho]
    · simp [ho, hn]

theorem netOf_out {e : Inst} (he : e ∈ l) (hm : e.name ∉ ms.map Inst.name) (p : String) :
    netOf (none, e) p = (e.pins.lookup p).map (netTo ports l ms X) := by
  unfold netOf
  simp only
  cases h : e.pins.lookup p with
  | none => rfl
  | some n =>
    simp only [Option.map_some]
    unfold netTo
    rw [if_neg]
    rintro ⟨h1, h2⟩
    refine h2 (mem_outer.2 ⟨h1, .inr ⟨e.name, mem_neighbors.2 (.inr ⟨e, he, ?_, rfl⟩), hm⟩⟩)
    exact List.mem_map.2 ⟨_, lookup_mem' h, rfl⟩

end

theorem group_some {pre : String → String} {key : List Inst → String} {st st' : St} {k : Con}
    (h : group pre key ports st k = some st') :
    let ms := picked st.elems k.instances
    let name := k.template ++ key (canon ms)
    let X : Inst := ⟨k.instanceName, name, (outer ports st.elems ms).map fun n => (pName (netsIn ms) n, n), []⟩
    (∀ x ∈ k.instances, up x ∈ st.elems.map Inst.name) ∧ st'.elems = st.elems.diff ms ++ [X] ∧
    st'.lib = addMod st.lib name ⟨(outer ports st.elems ms).map fun n => pName (netsIn ms) n, canon ms⟩ ∧
    (st.lib.lookup name = none → ∃ inner, k.inner.mapM (replaceAll ms) = some inner ∧ st'.cons name = st.cons name ++ inner) := by
  intro ms name X
  unfold group at h
  simp only at h
  split at h
  · cases h
  · rename_i h1
    split at h
    · cases h
    · simp only [Option.bind_eq_some_iff] at h
      obtain ⟨inner, hi, h⟩ := h
      split at h
      · cases h
      · simp only [Option.some.injEq] at h
        subst h
        refine ⟨?_, rfl, rfl, ?_⟩
        · simpa using h1
        · intro hl
          have hl' : (st.lib.lookup (k.template ++ key (canon (picked st.elems k.instances)))).isSome = false := by
            change (st.lib.lookup name).isSome = false
            rw [hl]; rfl
          rw [hl'] at hi
          exact ⟨inner, hi, by simp [name, ms]⟩

/-- **C81 (partial).**  If the grouping succeeds, the names are written in upper case, the name of the instance is new, and a
subcircuit in the library with the hash of the group has the elements of the group, then exactly the named instances are in the new
instance and the circuit is the same; if the subcircuit is new, then the constraints of the group hold in it.  Missing: names in lower
case (`C81_violated_case`), constraints of a group that was there before (`C81_violated_constraints`), success
(`C81_succeeds_partial`), collisions of the hash. -/
theorem C81_same_circuit_partial {pre : String → String} {key : List Inst → String} {st st' : St} {k : Con} (hp : Plain st.elems)
    (hup : ∀ x ∈ k.instances, up x = x) (hX : ∀ e ∈ st.elems, e.name ≠ k.instanceName)
    (hash : ∀ M, st.lib.lookup (k.template ++ key (canon (picked st.elems k.instances))) = some M →
      M.elems = canon (picked st.elems k.instances))
    (h : group pre key ports st k = some st') :
    (st'.elems.map Inst.name).Nodup ∧
    (∃ X ∈ st'.elems, X.name = k.instanceName ∧ ∃ f, SameBy ports st.elems st'.lib st'.elems [X] f ∧
      (∀ e ∈ st.elems, (f e).1 = some X ↔ ∃ x ∈ k.instances, up x = e.name) ∧
      (st.lib.lookup X.model = none →
        ∀ c ∈ k.inner, ∃ d ∈ st'.cons X.model, List.Forall₂ (fun x y => ∃ e ∈ st.elems, e.name = up x ∧ (f e).2.name = y) c d)) ∧
    ∀ n M, st.lib.lookup n = some M → st'.lib.lookup n = some M := by
  obtain ⟨_, h2, h3, h4⟩ := group_some h
  generalize hms : picked st.elems k.instances = ms at h2 h3 h4 hash
  generalize hXd : (⟨k.instanceName, k.template ++ key (canon ms),
    (outer ports st.elems ms).map fun n => (pName (netsIn ms) n, n), []⟩ : Inst) = X at h2
  have hmn : (ms.map Inst.name).Nodup := hms ▸ picked_names hp.names
  have hmem : ∀ {e : Inst}, e ∈ ms ↔ e ∈ st.elems ∧ e.name ∈ k.instances := hms ▸ mem_picked
  have hmname : ∀ {e : Inst}, e ∈ st.elems → (e.name ∈ ms.map Inst.name ↔ e ∈ ms) := by
    intro e he
    constructor
    · intro hc
      obtain ⟨d, hd, hdn⟩ := List.mem_map.1 hc
      have := name_inj hp.names (hmem.1 hd).1 he hdn
      exact this ▸ hd
    · exact fun h => List.mem_map_of_mem h
  have hnd : st.elems.Nodup := hp.names.of_map
  have hdiff : st.elems.diff ms = st.elems.filter fun e => decide (e ∉ ms) := hnd.sdiff_eq_filter
  have hr : ∀ e, e ∈ st'.elems ↔ (e ∈ st.elems ∧ e ∉ ms) ∨ e = X := by
    intro e
    rw [h2, List.mem_append, hdiff, List.mem_filter, List.mem_singleton, decide_eq_true_eq]
  have hXn : X.name = k.instanceName := by rw [← hXd]
  have hXp : X.pins = (outer ports st.elems ms).map fun n => (pName (netsIn ms) n, n) := by rw [← hXd]
  have hXm : X.model = k.template ++ key (canon ms) := by rw [← hXd]
  have hXnot : X ∉ st.elems := fun hc => hX X hc hXn
  have hlib : ∃ M, st'.lib.lookup X.model = some M ∧ M.elems = canon ms := by
    rw [h3, hXm]
    unfold addMod
    split
    · rename_i hs
      obtain ⟨M, hM⟩ := Option.isSome_iff_exists.1 hs
      exact ⟨M, hM, hash M hM⟩
    · rename_i hs
      refine ⟨⟨(outer ports st.elems ms).map fun n => pName (netsIn ms) n, canon ms⟩, ?_, rfl⟩
      rw [Match.lookup_app]
      rw [Option.not_isSome_iff_eq_none] at hs
      simp [hs]
  have hkeep : ∀ n M, st.lib.lookup n = some M → st'.lib.lookup n = some M := by
    intro n M hM
    rw [h3]
    exact Match.lookup_addMod hM
  obtain ⟨M, hM1, hM2⟩ := hlib
  rw [canon_eq hmn] at hM2
  let f : Inst → Match.Occ := fun e => if e ∈ ms then (some X, canonOf ms e) else (none, e)
  have fin : ∀ e, e ∈ ms → f e = (some X, canonOf ms e) := fun e he => if_pos he
  have fout : ∀ e, e ∉ ms → f e = (none, e) := fun e he => if_neg he
  have hnet : ∀ e ∈ st.elems, ∀ p, netOf (f e) p = (e.pins.lookup p).map (netTo ports st.elems ms X) := by
    intro e he p
    by_cases hm : e ∈ ms
    · rw [fin e hm]; exact netOf_in hXp hm p
    · rw [fout e hm]; exact netOf_out he (fun hc => hm ((hmname he).1 hc)) p
  refine ⟨?_, ⟨X, (hr X).2 (.inr rfl), hXn, f, ?_, ?_, ?_⟩, hkeep⟩
  · rw [h2, List.map_append, List.nodup_append]
    refine ⟨hp.names.sublist ?_, by simp, ?_⟩
    · rw [hdiff]; exact List.filter_sublist.map _
    · intro a ha b hb
      simp only [List.map_cons, List.map_nil, List.mem_singleton] at hb
      obtain ⟨e, he, rfl⟩ := List.mem_map.1 ha
      rw [hdiff] at he
      rw [hb, hXn]
      exact hX e (List.mem_filter.1 he).1
  · constructor
    · intro i hi
      rw [List.mem_singleton] at hi
      subst hi
      exact (hr i).2 (.inr rfl)
    · intro e he
      by_cases hm : e ∈ ms
      · rw [fin e hm]
        exact .inr ⟨X, by simp, M, hM1, rfl, by rw [hM2]; exact List.mem_map_of_mem hm⟩
      · rw [fout e hm]
        refine .inl ⟨rfl, (hr e).2 (.inl ⟨he, hm⟩), ?_⟩
        simp only [List.mem_singleton]
        rintro rfl
        exact hXnot he
    · intro a ha b hb hab
      by_cases hma : a ∈ ms <;> by_cases hmb : b ∈ ms
      · rw [fin a hma, fin b hmb] at hab
        exact canonOf_inj hmn hma hmb (congrArg Prod.snd hab)
      · rw [fin a hma, fout b hmb] at hab; simp at hab
      · rw [fout a hma, fin b hmb] at hab; simp at hab
      · rw [fout a hma, fout b hmb] at hab; exact congrArg Prod.snd hab
    · rintro ⟨o, d⟩ (⟨h1, h2, h3⟩ | ⟨i, hi, M', hM', h1, h2⟩)
      · simp only at h1 h2 h3
        subst h1
        rcases (hr d).1 h2 with ⟨hd, hm⟩ | rfl
        · exact ⟨d, hd, fout d hm⟩
        · simp at h3
      · simp only at h1 h2
        rw [List.mem_singleton] at hi
        subst hi h1
        rw [hM1, Option.some.injEq] at hM'
        subst hM'
        rw [hM2] at h2
        obtain ⟨e, he, rfl⟩ := List.mem_map.1 h2
        exact ⟨e, (hmem.1 he).1, fin e he⟩
    · intro e he
      by_cases hm : e ∈ ms
      · rw [fin e hm]; exact ⟨rfl, rfl⟩
      · rw [fout e hm]; exact ⟨rfl, rfl⟩
    · intro e he p
      rw [hnet e he p, Option.isSome_map]
    · intro a ha b hb p q
      rw [hnet a ha, hnet b hb]
      constructor
      · intro heq
        exact Option.map_injective (fun _ _ h => netTo_inj h) heq
      · intro heq
        rw [heq]
    · intro e he p n hn
      rw [hnet e he, Option.map_eq_some_iff]
      constructor
      · rintro ⟨a, h1, h2⟩
        rw [h1, (netTo_port hn).1 h2]
      · intro h1
        exact ⟨n, h1, (netTo_port hn).2 rfl⟩
  · intro e he
    have : (∃ x ∈ k.instances, up x = e.name) ↔ e ∈ ms := by
      rw [hmem]
      constructor
      · rintro ⟨x, hx, hxe⟩
        rw [hup x hx] at hxe
        exact ⟨he, hxe ▸ hx⟩
      · rintro ⟨_, hx⟩
        exact ⟨_, hx, hup _ hx⟩
    rw [this]
    by_cases hm : e ∈ ms
    · rw [fin e hm]; simp [hm]
    · rw [fout e hm]; simp [hm]
  · intro hnone c hc
    rw [hXm] at hnone
    obtain ⟨inner, hi1, hi2⟩ := h4 hnone
    have hex : ∃ d ∈ inner, replaceAll ms c = some d := by
      have := Hier.mapM_forall₂ hi1
      exact Match.exists_of_left this hc
    obtain ⟨d, hd, hrep⟩ := hex
    refine ⟨d, by rw [hXm, hi2]; exact List.mem_append_right _ hd, ?_⟩
    refine (Hier.mapM_forall₂ hrep).imp ?_
    intro x y hxy
    split at hxy
    · rename_i hx
      obtain ⟨e, he, hen⟩ := List.mem_map.1 hx
      refine ⟨e, (hmem.1 he).1, hen, ?_⟩
      rw [fin e he]
      simp only [Option.some.injEq] at hxy
      rw [← hxy, ← hen]
      rfl
    · cases hxy

end Verif.Group

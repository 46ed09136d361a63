import Verif.Sym.Search
import Verif.Hier.HpwlProps
import Mathlib.Data.Finset.Card
import Mathlib.Data.List.Infix
import Mathlib.Logic.Equiv.List

/-!
# C73: the search for symmetry ends and relates only alike instances

`C73_ends`: the search always ends.  `C73_alike_partial`: instances that it relates have the same model, the same parameters
and as many different nets, provided that the hash and the texts that are hashed are unambiguous.
`C73_violated_fails`: the search fails by an assertion on a proper netlist.  `C73_violated_double`: it relates two instances
with the same third one.
-/

namespace Verif.Sym

open Verif (pySort mem_pySort pySort_perm)
open Verif.Cons (combinations2)
open Verif.Net (joinU)
open Verif.Pnr (pyStr digitsVal_pyStr)

/-! ## Specification -/

/-- Two instances of one model with the same parameters, on the same number of nets. -/
structure Alike (e d : Inst) : Prop where
  model : e.model = d.model
  params : ∀ k v, (k, v) ∈ e.params ↔ (k, v) ∈ d.params
  nets : (e.pins.map Prod.snd).toFinset.card = (d.pins.map Prod.snd).toFinset.card

/-- `x` and `y` are alike instances, or they are both nets. -/
def Related (s : Sub) (x y : String) : Prop :=
  (∃ e ∈ s.elems, ∃ d ∈ s.elems, e.name = x ∧ d.name = y ∧ Alike e d) ∨
  ((∃ e ∈ s.elems, x ∈ e.pins.map Prod.snd) ∧ (∃ d ∈ s.elems, y ∈ d.pins.map Prod.snd) ∧ ∀ e ∈ s.elems, e.name ≠ x ∧ e.name ≠ y)

/-- No node of the group is related to two others. -/
def OneToOne (p : List (String × String)) : Prop :=
  ∀ e ∈ p, ∀ d ∈ p, e.1 = d.1 ∨ e.2 = d.2 → e = d

/-- C73 in full: the search succeeds; in every group found different nodes that are related are alike and none of the nodes is a
stop point, and the relation is one to one. -/
def C73_statement (s : Sub) (stop : List String) (r : Res Found) : Prop :=
  ∃ f, r = .ok f ∧ ∀ g ∈ f, OneToOne g.2.pairs ∧
    ∀ ab ∈ g.2.pairs, ab.1 ∉ stop ∧ ab.2 ∉ stop ∧ (ab.1 ≠ ab.2 → Related s ab.1 ab.2)

/-- The number of nodes of the graph is at most this. -/
def size (s : Sub) : Nat := s.elems.length + (s.elems.map fun e => e.pins.length).sum

/-- What makes the key of a node unambiguous. -/
structure Clear (hash : String → Nat) (showSet : List String → String) (L : Lib) (s : Sub) : Prop where
  /-- the hash has no collisions on this subcircuit -/
  hash : ∀ x y, hash (text showSet L s x) = hash (text showSet L s y) → text showSet L s x = text showSet L s y
  /-- names of parameters have no colon and are not `model`, their values have no underscore -/
  params : ∀ e ∈ s.elems, ∀ kv ∈ e.params, ':' ∉ kv.1.toList ∧ '_' ∉ kv.2.toList ∧ kv.1 ≠ "model"
  /-- names of models and pins have no colon -/
  models : ∀ e ∈ s.elems, ':' ∉ e.model.toList
  pins : ∀ e ∈ s.elems, ∀ pn ∈ e.pins, ':' ∉ pn.1.toList
  inner : ∀ c ∈ L, ∀ e ∈ c.elems, ∀ pn ∈ e.pins, ':' ∉ pn.1.toList
  /-- nor does the text of a set of such names -/
  set : ∀ l, (∀ w ∈ l, ':' ∉ w.toList) → ':' ∉ (showSet l).toList

/-! ## Basic facts -/

theorem getEl_some {l : List Inst} {x : String} {e : Inst} (h : getEl l x = some e) : e ∈ l ∧ e.name = x := by
  have h1 := List.mem_of_find?_eq_some h
  have h2 := List.find?_some h
  exact ⟨h1, by simpa using h2⟩

theorem getEl_none {l : List Inst} {x : String} (h : getEl l x = none) : ∀ e ∈ l, e.name ≠ x := by
  intro e he hc
  have := List.find?_eq_none.1 h e he
  simp [hc] at this

theorem mem_eraseDups {l : List String} {x : String} : x ∈ l.eraseDups ↔ x ∈ l := by simp

theorem mem_asSet {l : List String} {x : String} : x ∈ asSet l ↔ x ∈ l := by
  simp [asSet, mem_pySort]

theorem mem_users {l : List Inst} {n : String} {e : Inst} : e ∈ users l n ↔ e ∈ l ∧ n ∈ nets e := by
  simp [users]

/-- All nodes. -/
def nodes (l : List Inst) : List String := l.map Inst.name ++ l.flatMap nets

theorem mem_nodes {l : List Inst} {x : String} : x ∈ nodes l ↔ (∃ e ∈ l, e.name = x) ∨ ∃ e ∈ l, x ∈ nets e := by
  simp [nodes, List.mem_append, List.mem_map, List.mem_flatMap]

theorem length_nodes (s : Sub) : (nodes s.elems).length = size s := by
  simp [nodes, size, nets]

theorem isNode_iff {l : List Inst} {x : String} : isNode l x = true ↔ x ∈ nodes l := by
  rw [mem_nodes]
  simp only [isNode, isInst, isNet, Bool.or_eq_true, getEl, List.find?_isSome, decide_eq_true_eq, List.any_eq_true,
    List.contains_eq_mem]

theorem neighbors_nodes {l : List Inst} {x y : String} (h : y ∈ neighbors l x) : y ∈ nodes l := by
  rw [mem_nodes]
  unfold neighbors at h
  split at h
  · rename_i e he
    exact .inr ⟨e, (getEl_some he).1, mem_eraseDups.1 h⟩
  · obtain ⟨e, he, rfl⟩ := List.mem_map.1 h
    exact .inl ⟨e, (mem_users.1 he).1, rfl⟩

theorem view_nbrs {hash : String → Nat} {showSet : List String → String} {L : Lib} {s : Sub} {x y : String}
    (h : y ∈ (view hash showSet L s).nbrs x) : y ∈ nodes s.elems := by
  simp only [view, List.mem_filter, mem_asSet] at h
  exact neighbors_nodes h.1

/-! ## Termination -/

theorem foldlM_ends {α β : Type} {g : β → α → Res β} {l : List α} (h : ∀ b, ∀ a ∈ l, Ends (g b a)) (b : β) :
    Ends (l.foldlM g b) := by
  induction l generalizing b with
  | nil => exact nofun
  | cons a l ih =>
    rw [List.foldlM_cons]
    exact ends_bind (h b a (by simp)) fun x _ => ih (fun b a ha => h b a (by simp [ha])) x

theorem meas_le (N tr : List String) (a : String) : meas N tr a ≤ 2 * N.length + 1 := by
  unfold meas
  have := List.length_filter_le (fun x => !tr.contains x) N
  split <;> omega

/-- The search always ends: for every library, subcircuit, hash and set of stop points, after at most twice as many nested calls
as there are nodes. -/
theorem C73_ends (hash : String → Nat) (showSet : List String → String) (L : Lib) (s : Sub) (stop : List String) (fuel : Nat)
    (h : 2 * size s + 2 ≤ fuel) : findSymmetry (view hash showSet L s) L s stop fuel ≠ .error .fuel := by
  refine foldlM_ends (fun f ab _ => ?_) []
  split
  · have : Ends (startPoint (view hash showSet L s) fuel s.elems f (ab.1 :: ab.2 :: stop) ab.1 ab.2) := by
      unfold startPoint
      split
      · rename_i hn
        rw [Bool.and_eq_true, isNode_iff, isNode_iff] at hn
        refine ends_bind (compareNodes_ends (fun x y => view_nbrs) _ _ _ _ _ _ hn.1 hn.2 ?_) fun _ _ => nofun
        have := meas_le (nodes s.elems) (ab.1 :: ab.2 :: stop) ab.1
        rw [length_nodes] at this
        omega
      · exact nofun
    revert this
    cases startPoint (view hash showSet L s) fuel s.elems f (ab.1 :: ab.2 :: stop) ab.1 ab.2 with
    | ok x => intro _; exact nofun
    | error e => intro h hc; cases e with
      | fuel => exact h rfl
      | assertion => cases hc
  · exact nofun

/-! ## Texts -/

theorem split_at {c : Char} {a b x y : List Char} (ha : c ∉ a) (hb : c ∉ b) (h : a ++ c :: x = b ++ c :: y) : a = b ∧ x = y := by
  induction a generalizing b with
  | nil => cases b with
    | nil => simp_all
    | cons d b =>
      simp only [List.nil_append, List.cons_append, List.cons.injEq] at h
      exact absurd (by simp [h.1]) hb
  | cons e a ih => cases b with
    | nil =>
      simp only [List.nil_append, List.cons_append, List.cons.injEq] at h
      exact absurd (by simp [h.1]) ha
    | cons d b =>
      simp only [List.cons_append, List.cons.injEq, List.mem_cons, not_or] at h ha hb
      obtain ⟨h1, h2⟩ := ih ha.2 hb.2 h.2
      exact ⟨by rw [h.1, h1], h2⟩

def kv (e : String × String) : String := e.1 ++ ":" ++ e.2

theorem kv_toList (e : String × String) : (kv e).toList = e.1.toList ++ ':' :: e.2.toList := by
  simp [kv, String.toList_append]

theorem joinU_cons {a : String} {l : List String} (h : l ≠ []) : (joinU (a :: l)).toList = a.toList ++ '_' :: (joinU l).toList := by
  cases l with
  | nil => exact absurd rfl h
  | cons b l => simp [joinU, String.toList_append]

theorem decode {ps qs : List (String × String)} {M M' N N' : String}
    (hp : ∀ e ∈ ps, ':' ∉ e.1.toList ∧ '_' ∉ e.2.toList ∧ e.1 ≠ "model")
    (hq : ∀ e ∈ qs, ':' ∉ e.1.toList ∧ '_' ∉ e.2.toList ∧ e.1 ≠ "model")
    (hM : ':' ∉ M.toList) (hM' : ':' ∉ M'.toList)
    (h : joinU ((ps ++ [("model", M), ("n_pins", N)]).map kv) = joinU ((qs ++ [("model", M'), ("n_pins", N')]).map kv)) :
    ps = qs ∧ M = M' ∧ N = N' := by
  have hne : ∀ (l : List (String × String)) (x y : String × String), (l ++ [x, y]).map kv ≠ [] := by simp
  have tail : ∀ M N : String, (joinU ([("model", M), ("n_pins", N)].map kv)).toList =
      "model".toList ++ ':' :: (M.toList ++ '_' :: ("n_pins".toList ++ ':' :: N.toList)) := by
    intro M N
    rw [List.map_cons, joinU_cons (by simp), kv_toList]
    simp [joinU, kv_toList]
  have head : ∀ (e : String × String) (l : List (String × String)) (x y : String × String),
      (joinU ((e :: l ++ [x, y]).map kv)).toList = e.1.toList ++ ':' :: (e.2.toList ++ '_' :: (joinU ((l ++ [x, y]).map kv)).toList) := by
    intro e l x y
    rw [List.cons_append, List.map_cons, joinU_cons (hne _ _ _), kv_toList]
    simp
  have hm : ':' ∉ "model".toList := by decide
  induction ps generalizing qs with
  | nil =>
    cases qs with
    | nil =>
      have h := congrArg String.toList h
      rw [List.nil_append, List.nil_append, tail, tail] at h
      have h := (split_at hm hm h).2
      have e : ∀ x y : List Char, x ++ '_' :: ("n_pins".toList ++ ':' :: y) = (x ++ "_n_pins".toList) ++ ':' :: y := by
        intro x y; simp
      rw [e, e] at h
      have hn : ':' ∉ "_n_pins".toList := by decide
      obtain ⟨h1, h2⟩ := split_at (by simp only [List.mem_append, not_or]; exact ⟨hM, hn⟩)
        (by simp only [List.mem_append, not_or]; exact ⟨hM', hn⟩) h
      exact ⟨rfl, String.toList_inj.1 (List.append_cancel_right h1), String.toList_inj.1 h2⟩
    | cons e qs =>
      have h := congrArg String.toList h
      rw [List.nil_append, tail, head] at h
      have := (split_at hm (hq e (by simp)).1 h).1
      exact absurd (String.toList_inj.1 this).symm (hq e (by simp)).2.2
  | cons d ps ih =>
    cases qs with
    | nil =>
      have h := congrArg String.toList h
      rw [List.nil_append, tail, head] at h
      have := (split_at (hp d (by simp)).1 hm h).1
      exact absurd (String.toList_inj.1 this) (hp d (by simp)).2.2
    | cons e qs =>
      have h := congrArg String.toList h
      rw [head, head] at h
      obtain ⟨h1, h⟩ := split_at (hp d (by simp)).1 (hq e (by simp)).1 h
      obtain ⟨h2, h⟩ := split_at (hp d (by simp)).2.1 (hq e (by simp)).2.1 h
      obtain ⟨h3, h4⟩ := ih (fun x hx => hp x (by simp [hx])) (fun x hx => hq x (by simp [hx])) (String.toList_inj.1 h)
      refine ⟨?_, h4⟩
      rw [h3]
      congr 1
      exact Prod.ext (String.toList_inj.1 h1) (String.toList_inj.1 h2)

theorem instText_eq (e : Inst) : instText e = joinU ((pySort (fun a b => decide (a.1 ≤ b.1)) e.params ++
    [("model", e.model), ("n_pins", showNat (nets e).eraseDups.length)]).map kv) := rfl

theorem card_nets (e : Inst) : (e.pins.map Prod.snd).toFinset.card = (nets e).eraseDups.length := by
  have h : (nets e).eraseDups.Nodup := Hier.nodup_eraseDups _ _ (le_refl _)
  rw [← List.toFinset_card_of_nodup h]
  congr 1
  ext x
  simp [nets]

theorem showNat_inj {a b : Nat} (h : showNat a = showNat b) : a = b := by
  have := congrArg String.toList h
  simp only [showNat, String.toList_ofList] at this
  rw [← digitsVal_pyStr a, ← digitsVal_pyStr b, this]

theorem alike_of_text {e d : Inst} (he : ∀ kv ∈ e.params, ':' ∉ kv.1.toList ∧ '_' ∉ kv.2.toList ∧ kv.1 ≠ "model")
    (hd : ∀ kv ∈ d.params, ':' ∉ kv.1.toList ∧ '_' ∉ kv.2.toList ∧ kv.1 ≠ "model") (hm : ':' ∉ e.model.toList)
    (hm' : ':' ∉ d.model.toList) (h : instText e = instText d) : Alike e d := by
  rw [instText_eq, instText_eq] at h
  obtain ⟨h1, h2, h3⟩ := decode (fun x hx => he x (mem_pySort.1 hx)) (fun x hx => hd x (mem_pySort.1 hx)) hm hm' h
  refine ⟨h2, fun k v => ?_, ?_⟩
  · rw [← mem_pySort (le := fun a b : String × String => decide (a.1 ≤ b.1)) (l := e.params), h1, mem_pySort]
  · rw [card_nets, card_nets, showNat_inj h3]

theorem mem_joinU {c : Char} (hc : c ≠ '_') (l : List String) : c ∈ (joinU l).toList ↔ ∃ s ∈ l, c ∈ s.toList := by
  induction l with
  | nil => simp [joinU]
  | cons a l ih =>
    cases l with
    | nil => simp [joinU]
    | cons b l =>
      rw [joinU_cons (by simp)]
      simp only [List.mem_append, List.mem_cons, hc, false_or] at ih ⊢
      rw [ih]
      constructor
      · rintro (h | ⟨s, hs, h⟩)
        · exact ⟨a, .inl rfl, h⟩
        · exact ⟨s, .inr hs, h⟩
      · rintro ⟨s, rfl | hs, h⟩
        · exact .inl h
        · exact .inr ⟨s, hs, h⟩

theorem colon_instText (e : Inst) : ':' ∈ (instText e).toList := by
  rw [instText_eq, mem_joinU (by decide)]
  exact ⟨kv ("model", e.model), by simp, by rw [kv_toList]; simp⟩

/-- The leaf connections are names of pins. -/
theorem leaf_pins {P : String → Prop} {L : Lib} (hL : ∀ c ∈ L, ∀ e ∈ c.elems, ∀ pn ∈ e.pins, P pn.1) :
    ∀ (fuel : Nat) (s : Sub), (∀ e ∈ s.elems, ∀ pn ∈ e.pins, P pn.1) → ∀ n, ∀ w ∈ leaf L fuel s n, P w := by
  intro fuel
  induction fuel with
  | zero => intro s _ n w h; simp [leaf] at h
  | succ fuel ih =>
    intro s hs n w h
    simp only [leaf, List.mem_flatMap] at h
    obtain ⟨e, he, pin, hpin, h⟩ := h
    have hp : P pin := by
      simp only [edge, List.mem_map, List.mem_filter] at hpin
      obtain ⟨pn, hpn, rfl⟩ := hpin
      exact hs e (mem_users.1 he).1 pn hpn.1
    split at h
    · rename_i c hc
      split at h
      · exact ih c (hL c (List.mem_of_find?_eq_some hc)) _ _ h
      · simp only [List.mem_singleton] at h; exact h ▸ hp
    · simp only [List.mem_singleton] at h; exact h ▸ hp

theorem weights_pins {P : String → Prop} {L : Lib} {s : Sub} (hL : ∀ c ∈ L, ∀ e ∈ c.elems, ∀ pn ∈ e.pins, P pn.1)
    (hs : ∀ e ∈ s.elems, ∀ pn ∈ e.pins, P pn.1) (x y : String) : ∀ w ∈ weights L s.elems x y, P w := by
  have key : ∀ e ∈ s.elems, ∀ n, ∀ w ∈ weightsOf L e n, P w := by
    intro e he n w hw
    unfold weightsOf at hw
    split at hw
    · rename_i c hc
      split at hw
      · exact leaf_pins hL _ c (hL c (List.mem_of_find?_eq_some hc)) _ _ (mem_asSet.1 hw)
      · simp at hw
    · have hw := mem_asSet.1 hw
      simp only [edge, List.mem_map, List.mem_filter] at hw
      obtain ⟨pn, hpn, rfl⟩ := hw
      exact hs e he pn hpn.1
  intro w hw
  unfold weights at hw
  split at hw
  · rename_i e he; exact key e (getEl_some he).1 _ _ hw
  · split at hw
    · rename_i e he; exact key e (getEl_some he).1 _ _ hw
    · simp at hw

theorem colon_netText {hash : String → Nat} {showSet : List String → String} {L : Lib} {s : Sub} (hc : Clear hash showSet L s)
    (x : String) : ':' ∉ (netText showSet L s x).toList := by
  unfold netText
  dsimp only
  rw [mem_joinU (by decide)]
  rintro ⟨t, ht, h⟩
  rw [mem_pySort, List.mem_append] at ht
  rcases ht with ht | ht
  · obtain ⟨e, he, rfl⟩ := List.mem_map.1 ht
    exact hc.models e (mem_users.1 (List.mem_filter.1 he).1).1 h
  · split at ht
    · exact leaf_pins (P := fun w => ':' ∉ w.toList) hc.inner _ s hc.pins _ _ (mem_asSet.1 ht) h
    · obtain ⟨e, he, rfl⟩ := List.mem_map.1 ht
      exact hc.set _ (weights_pins (P := fun w => ':' ∉ w.toList) hc.inner hc.pins _ _) h

/-! ## What the search relates -/

theorem findSymmetry_keeps {hash : String → Nat} {showSet : List String → String} {L : Lib} {s : Sub} {stop : List String} {fuel : Nat}
    {f : Found} (h : findSymmetry (view hash showSet L s) L s stop fuel = .ok f) :
    AllF (fun e => (e.1 = e.2 ∨ (view hash showSet L s).same e.1 e.2 = true) ∧ (e.1 ∈ nodes s.elems ∧ e.1 ∉ stop) ∧
      (e.2 ∈ nodes s.elems ∧ e.2 ∉ stop)) f := by
  set V := view hash showSet L s with hV
  have hports : ∀ ab ∈ combinationsR (startPorts s stop), ab.1 ∉ stop ∧ ab.2 ∉ stop := by
    have hs : ∀ p ∈ startPorts s stop, p ∉ stop := by
      intro p hp
      simpa [startPorts, List.mem_filter] using (List.mem_filter.1 hp).2
    revert hs
    generalize startPorts s stop = l
    intro hs
    induction l with
    | nil => intro ab hab; simp [combinationsR] at hab
    | cons p l ih =>
      intro ab hab
      simp only [combinationsR, List.mem_append, List.mem_map] at hab
      rcases hab with ⟨y, hy, rfl⟩ | hab
      · exact ⟨hs p (by simp), hs y hy⟩
      · exact ih (fun p hp => hs p (by simp [hp])) ab hab
  unfold findSymmetry at h
  revert hports h
  generalize combinationsR (startPorts s stop) = l
  have h0 : AllF (fun e => (e.1 = e.2 ∨ V.same e.1 e.2 = true) ∧ (e.1 ∈ nodes s.elems ∧ e.1 ∉ stop) ∧
      (e.2 ∈ nodes s.elems ∧ e.2 ∉ stop)) [] := fun e he => by simp at he
  revert h0
  generalize ([] : Found) = f0
  induction l generalizing f0 with
  | nil => intro h0 h _; cases h; exact h0
  | cons ab l ih =>
    intro h0 h hports
    rw [List.foldlM_cons] at h
    obtain ⟨f1, h1, h⟩ := bind_ok h
    refine ih f1 ?_ h (fun x hx => hports x (by simp [hx]))
    split at h1
    · cases hsp : startPoint V fuel s.elems f0 (ab.1 :: ab.2 :: stop) ab.1 ab.2 with
      | error e => rw [hsp] at h1; cases h1
      | ok g =>
        rw [hsp] at h1
        cases h1
        suffices hg : AllF (fun e => (e.1 = e.2 ∨ V.same e.1 e.2 = true) ∧ (e.1 ∈ nodes s.elems ∧ e.1 ∉ stop) ∧
            (e.2 ∈ nodes s.elems ∧ e.2 ∉ stop)) g from fun e he => hg e (List.mem_filter.1 he).1
        unfold startPoint at hsp
        split at hsp
        · rename_i hn
          rw [Bool.and_eq_true, isNode_iff, isNode_iff] at hn
          obtain ⟨r, hr, hsp⟩ := bind_ok hsp
          have hp := hports ab (by simp)
          have := compareNodes_keeps (V := V) (Ok := fun x => x ∈ nodes s.elems ∧ x ∉ stop) (S := stop)
            (fun x y hy hns => ⟨view_nbrs hy, hns⟩) fuel (ab.1 :: ab.2 :: stop) ab.1 ab.2 (fun x hx => by simp [hx])
            ⟨hn.1, hp.1⟩ ⟨hn.2, hp.2⟩ _ _ _ h0 all_empty hr
          cases hsp
          split
          · exact this.1
          · exact allF_put this.1 this.2
        · cases hsp; exact h0
    · cases h1; exact h0

/-- Whenever the search succeeds: in each group that it finds no stop point occurs, and different nodes that it relates are two
instances of the same model with the same parameters on as many nets, or two nets.

Missing for the full claim: that the search succeeds, and that the relation is one to one (see the violations below). -/
theorem C73_alike_partial (hash : String → Nat) (showSet : List String → String) (L : Lib) (s : Sub) (stop : List String) (fuel : Nat)
    (f : Found) (hc : Clear hash showSet L s)
    (h : findSymmetry (view hash showSet L s) L s stop fuel = .ok f) :
    ∀ g ∈ f, ∀ ab ∈ g.2.pairs, ab.1 ∉ stop ∧ ab.2 ∉ stop ∧ (ab.1 ≠ ab.2 → Related s ab.1 ab.2) := by
  intro g hg ab hab
  obtain ⟨hk, ⟨ha, ha'⟩, hb, hb'⟩ := findSymmetry_keeps h g hg ab hab
  refine ⟨ha', hb', fun hne => ?_⟩
  have hk := hk.resolve_left hne
  have hk := of_decide_eq_true hk
  have ht := hc.hash _ _ hk
  unfold text at ht
  have isnet : ∀ x, x ∈ nodes s.elems → getEl s.elems x = none → ∃ e ∈ s.elems, x ∈ e.pins.map Prod.snd := by
    intro x hx hn
    rcases mem_nodes.1 hx with ⟨e, he, hex⟩ | h
    · exact absurd hex (getEl_none hn e he)
    · exact h
  cases h1 : getEl s.elems ab.1 with
  | some e =>
    cases h2 : getEl s.elems ab.2 with
    | some d =>
      rw [h1, h2] at ht
      obtain ⟨he, hen⟩ := getEl_some h1
      obtain ⟨hd, hdn⟩ := getEl_some h2
      exact .inl ⟨e, he, d, hd, hen, hdn, alike_of_text (hc.params e he) (hc.params d hd) (hc.models e he) (hc.models d hd) ht⟩
    | none =>
      rw [h1, h2] at ht
      have ht : instText e = netText showSet L s ab.2 := ht
      exact absurd (ht ▸ colon_instText e) (colon_netText hc ab.2)
  | none =>
    cases h2 : getEl s.elems ab.2 with
    | some d =>
      rw [h1, h2] at ht
      have ht : netText showSet L s ab.1 = instText d := ht
      exact absurd (ht ▸ colon_instText d) (colon_netText hc ab.1)
    | none =>
      exact .inr ⟨isnet _ ha h1, isnet _ hb h2, fun e he => ⟨getEl_none h1 e he, getEl_none h2 e he⟩⟩

/-! ## Cases -/

/-- The view without a hash: nodes with the same text are the same. -/
def view0 (showSet : List String → String) (L : Lib) (s : Sub) : View :=
  { view (fun _ => 0) showSet L s with same := fun x y => decide (text showSet L s x = text showSet L s y) }

/-- Without collisions the hash does not matter. -/
theorem view_eq {hash : String → Nat} {showSet : List String → String} {L : Lib} {s : Sub}
    (h : ∀ x y, hash (text showSet L s x) = hash (text showSet L s y) → text showSet L s x = text showSet L s y) :
    view hash showSet L s = view0 showSet L s := by
  unfold view0 view
  congr 1
  funext x y
  exact decide_eq_decide.2 ⟨h x y, fun e => by simp only [key]; rw [e]⟩

/-- A differential stage: two transistors, two resistors, and two capacitors of different size. -/
def exS : Sub := ⟨"STAGE", ["INP", "INN", "OUTP", "OUTN", "T", "VDD"],
  [⟨"M1", "NMOS", [("D", "OUTN"), ("G", "INP"), ("S", "T"), ("B", "VSS")], [("W", "2"), ("L", "1")]⟩,
   ⟨"M2", "NMOS", [("D", "OUTP"), ("G", "INN"), ("S", "T"), ("B", "VSS")], [("L", "1"), ("W", "2")]⟩,
   ⟨"R1", "RES", [("P", "VDD"), ("N", "OUTN")], [("VALUE", "10")]⟩,
   ⟨"R2", "RES", [("P", "VDD"), ("N", "OUTP")], [("VALUE", "10")]⟩,
   ⟨"C1", "CAP", [("P", "OUTN"), ("N", "VSS")], [("VALUE", "10")]⟩,
   ⟨"C2", "CAP", [("P", "OUTP"), ("N", "VSS")], [("VALUE", "11")]⟩]⟩

/-- An injective hash. -/
def exHash (s : String) : Nat := Encodable.encode (s.toList.map Char.toNat)

theorem exHash_inj {s t : String} (h : exHash s = exHash t) : s = t := by
  have h := Encodable.encode_injective h
  have : s.toList = t.toList := (List.map_injective_iff.2 fun a b h => by
    have : a.val = b.val := UInt32.toNat_inj.1 h
    exact Char.ext this) h
  exact String.toList_inj.1 this

/-- `str` of a set whose members are given in the order in which Python shows them. -/
def pySet (l : List String) : String := "{" ++ String.intercalate ", " (l.map fun w => "'" ++ w ++ "'") ++ "}"

theorem exS_found : findSymmetry (view0 joinU [] exS) [] exS ["VDD", "VSS"] 100 = .ok
    [(("INN", "INN"), ⟨[("INN", "INN")], none⟩),
     (("INN", "INP"), ⟨[("INN", "INP"), ("M2", "M1"), ("OUTP", "OUTN"), ("T", "T")], none⟩),
     (("INP", "INP"), ⟨[("INP", "INP")], none⟩), (("C1", "C1"), ⟨[("C1", "C1")], none⟩), (("C2", "C2"), ⟨[("C2", "C2")], none⟩),
     (("R2", "R2"), ⟨[("R2", "R2")], none⟩),
     (("M1", "M1"), ⟨[("M1", "M1"), ("T", "T"), ("M2", "M2"), ("OUTP", "OUTP")], none⟩),
     (("R1", "R1"), ⟨[("R1", "R1")], none⟩), (("OUTN", "OUTN"), ⟨[("OUTN", "OUTN")], none⟩),
     (("OUTN", "OUTP"), ⟨[("OUTN", "OUTP")], none⟩),
     (("M2", "M2"), ⟨[("M2", "M2"), ("T", "T"), ("M1", "M1"), ("OUTN", "OUTN")], none⟩),
     (("OUTP", "OUTP"), ⟨[("OUTP", "OUTP")], none⟩),
     (("T", "T"), ⟨[("T", "T"), ("M1", "M2"), ("INP", "INN"), ("OUTN", "OUTP")], none⟩)] := by
  decide +kernel

/-- The hypotheses of `C73_alike_partial` hold for the differential stage; the search relates `M1` and `M2`. -/
example : Clear exHash joinU [] exS ∧ ∃ f, findSymmetry (view exHash joinU [] exS) [] exS ["VDD", "VSS"] 100 = .ok f ∧
    ∃ g ∈ f, ("M1", "M2") ∈ g.2.pairs := by
  refine ⟨⟨fun x y => exHash_inj, by decide, by decide, by decide, by decide, ?_⟩, ?_⟩
  · intro l hl
    rw [mem_joinU (by decide)]
    rintro ⟨t, ht, h⟩
    exact hl t ht h
  · rw [view_eq fun x y => exHash_inj, exS_found]
    exact ⟨_, rfl, (("T", "T"), ⟨[("T", "T"), ("M1", "M2"), ("INP", "INN"), ("OUTN", "OUTP")], none⟩), by simp, by decide⟩

/-- Two devices `X1`, `X2` that drive two pairs of nets, each net with three loads.  The netlist is symmetric. -/
def bigS : Sub := ⟨"BIG", ["A", "B"],
  [⟨"X1", "X", [("P", "A"), ("Q", "Q1"), ("R", "R1")], []⟩, ⟨"X2", "X", [("P", "B"), ("Q", "Q2"), ("R", "R2")], []⟩,
   ⟨"K1", "K", [("P", "Q1"), ("N", "VSS")], []⟩, ⟨"K2", "K", [("P", "Q1"), ("N", "VSS")], []⟩, ⟨"K3", "K", [("P", "VSS"), ("N", "Q1")], []⟩,
   ⟨"K4", "K", [("P", "Q2"), ("N", "VSS")], []⟩, ⟨"K5", "K", [("P", "Q2"), ("N", "VSS")], []⟩, ⟨"K6", "K", [("P", "VSS"), ("N", "Q2")], []⟩,
   ⟨"J1", "J", [("P", "R1"), ("N", "VSS")], []⟩, ⟨"J2", "J", [("P", "R1"), ("N", "VSS")], []⟩, ⟨"J3", "J", [("P", "VSS"), ("N", "R1")], []⟩,
   ⟨"J4", "J", [("P", "R2"), ("N", "VSS")], []⟩, ⟨"J5", "J", [("P", "R2"), ("N", "VSS")], []⟩, ⟨"J6", "J", [("P", "VSS"), ("N", "R2")], []⟩]⟩

/-- The search fails by the assertion "incorrect symmetry branch" (find_constraint.py 177) although nothing is wrong with the
netlist: one group reaches two pairs of nets from which arrays could start.  This holds for every hash without collisions on the
nodes of this netlist. -/
theorem C73_violated_fails (hash : String → Nat)
    (h : ∀ x y, hash (text pySet [] bigS x) = hash (text pySet [] bigS y) → text pySet [] bigS x = text pySet [] bigS y) :
    2 * size bigS + 2 ≤ 100 ∧ ¬ C73_statement bigS ["VSS"] (findSymmetry (view hash pySet [] bigS) [] bigS ["VSS"] 100) := by
  refine ⟨by decide, ?_⟩
  rintro ⟨f, hf, _⟩
  have : findSymmetry (view0 pySet [] bigS) [] bigS ["VSS"] 100 = .error .assertion := by decide +kernel
  rw [view_eq h, this] at hf
  cases hf

/-- `N1` is on the drain of `M1` and on the gate of `M2`, `N2` only on the drain of `M3`. -/
def dblS : Sub := ⟨"DBL", ["A", "B"],
  [⟨"X1", "X", [("P", "A"), ("Q", "N1")], []⟩, ⟨"X2", "X", [("P", "B"), ("Q", "N2")], []⟩,
   ⟨"M1", "NMOS", [("D", "N1"), ("G", "E"), ("S", "VSS")], []⟩, ⟨"M2", "NMOS", [("D", "O"), ("G", "N1"), ("S", "VSS")], []⟩,
   ⟨"M3", "NMOS", [("D", "N2"), ("G", "F"), ("S", "VSS")], []⟩]⟩

/-- The search relates both `M1` and `M2` to `M3`: neighbours are matched without looking whether the partner is taken
(find_constraint.py 22-34). -/
theorem C73_violated_double (hash : String → Nat)
    (h : ∀ x y, hash (text pySet [] dblS x) = hash (text pySet [] dblS y) → text pySet [] dblS x = text pySet [] dblS y) :
    2 * size dblS + 2 ≤ 100 ∧ ¬ C73_statement dblS ["VSS"] (findSymmetry (view hash pySet [] dblS) [] dblS ["VSS"] 100) := by
  refine ⟨by decide, ?_⟩
  rintro ⟨f, hf, hall⟩
  have : findSymmetry (view0 pySet [] dblS) [] dblS ["VSS"] 100 = .ok
      [(("A", "A"), ⟨[("A", "A"), ("X1", "X1"), ("N1", "N1"), ("M1", "M1")], none⟩),
       (("A", "B"), ⟨[("A", "B"), ("X1", "X2"), ("N1", "N2"), ("M1", "M3"), ("E", "F"), ("M2", "M3")], none⟩),
       (("B", "B"), ⟨[("B", "B"), ("X2", "X2"), ("N2", "N2"), ("M3", "M3")], none⟩)] := by decide +kernel
  rw [view_eq h, this] at hf
  cases hf
  have h1 := (hall (("A", "B"), ⟨[("A", "B"), ("X1", "X2"), ("N1", "N2"), ("M1", "M3"), ("E", "F"), ("M2", "M3")], none⟩) (by simp)).1
  exact absurd (h1 ("M1", "M3") (by decide) ("M2", "M3") (by decide) (.inr rfl)) (by decide)

/-- The hypothesis of the two violations can be met. -/
example : ∃ hash : String → Nat, ∀ s t, hash s = hash t → s = t := ⟨exHash, fun _ _ => exHash_inj⟩

end Verif.Sym

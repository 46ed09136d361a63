import Verif.RemoveDup.Pipeline
import Verif.Util.Sort
import Verif.Net.Flatten
import Verif.Pnr.Names
import Mathlib.Data.Fintype.Pigeonhole

/-!
# C77: instances of one subcircuit with the same parameters share a template

Model of `same_template` (`align/compiler/preprocess.py` 409-429), `gen_key` (`align/compiler/util.py` 150-161) and of the validator of
`SameTemplate` (`align/schema/constraint.py` 699-721).

Simplifications: names are in upper case, logging is left out, dicts are lists of pairs with different keys.  The hash (sha256
modulo 10^8) is a parameter.  A failed assertion is `none`.  What the constraint database does with the constraint afterwards is
C37.
-/

namespace Verif.Pre.Template

open Verif (pySort)
open Verif.RemoveDup (addBin group_spec)
open Verif.Net (joinU)
open Verif.Pnr (pyStr)

structure Inst where
  name : String
  model : String
  params : List (String × String)
  deriving DecidableEq

/-- The text that is hashed (util.py 158-159). -/
def text (ps : List (String × String)) : String :=
  joinU ((pySort (fun a b => decide (a.1 ≤ b.1)) ps).map fun kv => kv.1 ++ ":" ++ kv.2)

/-- `inst.model + gen_key(inst.parameters)` (preprocess.py 421, util.py 160). -/
def key (hash : String → Nat) (e : Inst) : String := String.ofList (e.model.toList ++ '_' :: pyStr (hash (text e.params)))

/-- The groups of names by key (418-425). -/
def groups (hash : String → Nat) (isSub : String → Bool) (l : List Inst) : List (String × List String) :=
  (l.filter fun e => isSub e.model).foldl (fun tbl e => addBin (key hash e) e.name tbl) []

/-- `get_element` -/
def getEl (l : List Inst) (x : String) : Option Inst := l.find? fun e => e.name = x

/-- Equality of dicts. -/
def sameParams (p q : List (String × String)) : Bool := (p.all fun x => q.contains x) && q.all fun x => p.contains x

/-- The validator (constraint.py 715-720): neighbours in the list are compared, except for the names `gb` of groups of blocks. -/
def valid (gb : List String) (l : List Inst) : List String → Bool
  | a :: b :: r => (if !gb.contains a && !gb.contains b then
      match getEl l a, getEl l b with
      | some e, some d => sameParams e.params d.params
      | _, _ => false
    else true) && valid gb l (b :: r)
  | _ => true

/-- `same_template` (409-429): the groups of the constraints that are added. -/
def sameTemplate (hash : String → Nat) (isSub : String → Bool) (gb : List String) (l : List Inst) : Option (List (List String)) :=
  (((groups hash isSub l).map Prod.snd).filter fun g => decide (1 < g.length)).mapM fun g => if valid gb l g then some g else none

/-! ## What the groups should be -/

/-- Two instances of the same subcircuit with the same parameters. -/
def Same (a b : Inst) : Prop := a.model = b.model ∧ ∀ kv, kv ∈ a.params ↔ kv ∈ b.params

/-- The groups tell which instances of subcircuits are the same: two different instances are the same if and only if they share a
group, and no instance is in two groups. -/
structure Grouped (isSub : String → Bool) (l : List Inst) (gs : List (List String)) : Prop where
  size : ∀ g ∈ gs, 1 < g.length ∧ g.Nodup
  members : ∀ g ∈ gs, ∀ x ∈ g, ∃ e ∈ l, e.name = x ∧ isSub e.model = true
  same : ∀ a ∈ l, ∀ b ∈ l, a.name ≠ b.name → isSub a.model = true → isSub b.model = true →
    (Same a b ↔ ∃ g ∈ gs, a.name ∈ g ∧ b.name ∈ g)
  once : gs.Pairwise fun g h => ∀ x ∈ g, x ∉ h

/-! ## Proofs -/

theorem key_eq {hash : String → Nat} {a b : Inst} : key hash a = key hash b ↔ a.model = b.model ∧ hash (text a.params) = hash (text b.params) := by
  constructor
  · intro h
    have := congrArg String.toList h
    simp only [key, String.toList_ofList] at this
    obtain ⟨h1, h2⟩ := Pnr.joinName_inj (a := a.model.toList) (b := b.model.toList) this
    exact ⟨String.toList_inj.1 h1, h2⟩
  · rintro ⟨h1, h2⟩
    rw [key, key, h1, h2]

/-- Dicts with the same entries are hashed as the same text. -/
theorem text_eq {p q : List (String × String)} (hp : (p.map Prod.fst).Nodup) (hq : (q.map Prod.fst).Nodup) (h : ∀ kv, kv ∈ p ↔ kv ∈ q) :
    text p = text q := by
  have hperm : p.Perm q := (List.perm_ext_iff_of_nodup (List.Nodup.of_map _ hp) (List.Nodup.of_map _ hq)).2 h
  have htot : ∀ a b : String × String, (decide (a.1 ≤ b.1) || decide (b.1 ≤ a.1)) = true := by
    intro a b
    simp only [Bool.or_eq_true, decide_eq_true_eq]
    exact String.le_total a.1 b.1
  have htr : ∀ a b c : String × String, decide (a.1 ≤ b.1) = true → decide (b.1 ≤ c.1) = true → decide (a.1 ≤ c.1) = true := by
    intro a b c
    simp only [decide_eq_true_eq]
    exact String.le_trans
  have : pySort (fun a b => decide (a.1 ≤ b.1)) p = pySort (fun a b => decide (a.1 ≤ b.1)) q := by
    have h1 := pySort_pairwise (le := fun a b : String × String => decide (a.1 ≤ b.1)) htr htot p
    have h2 := pySort_pairwise (le := fun a b : String × String => decide (a.1 ≤ b.1)) htr htot q
    refine List.Perm.eq_of_pairwise (le := fun a b => decide (a.1 ≤ b.1) = true) ?_ h1 h2
      ((pySort_perm p).trans (hperm.trans (pySort_perm q).symm))
    intro a b ha hb hab hba
    simp only [decide_eq_true_eq] at hab hba
    have ha' := mem_pySort.1 ha
    have hb' := (h b).2 (mem_pySort.1 hb)
    exact List.inj_on_of_nodup_map hp ha' hb' (String.le_antisymm hab hba)
  rw [text, text, this]

/-- Different names of instances, different keys of the parameters of each. -/
structure Good (l : List Inst) : Prop where
  names : (l.map Inst.name).Nodup
  params : ∀ e ∈ l, (e.params.map Prod.fst).Nodup

theorem groups_spec (hash : String → Nat) (isSub : String → Bool) {l : List Inst} (hn : (l.map Inst.name).Nodup) :
    ((groups hash isSub l).map Prod.fst).Nodup ∧ ∀ k g, (k, g) ∈ groups hash isSub l →
      g ≠ [] ∧ g.Nodup ∧ ∀ x, x ∈ g ↔ ∃ e ∈ l, e.name = x ∧ isSub e.model = true ∧ key hash e = k := by
  obtain ⟨h1, h2⟩ := group_spec (key hash) Inst.name (l.filter fun e => isSub e.model)
  refine ⟨h1, fun k g hg => ?_⟩
  obtain ⟨h3, h4⟩ := (h2 k g).1 hg
  refine ⟨h3, ?_, fun x => ?_⟩
  · rw [h4]
    exact hn.sublist ((List.filter_sublist.trans List.filter_sublist).map _)
  · rw [h4]
    simp only [List.mem_map, List.mem_filter, decide_eq_true_eq]
    constructor
    · rintro ⟨e, ⟨⟨he, hs⟩, hk⟩, hx⟩; exact ⟨e, he, hx, hs, hk⟩
    · rintro ⟨e, he, hx, hs, hk⟩; exact ⟨e, ⟨⟨he, hs⟩, hk⟩, hx⟩

theorem key_group (hash : String → Nat) (isSub : String → Bool) {l : List Inst} {e : Inst} (he : e ∈ l) (hs : isSub e.model = true) :
    ∃ g, (key hash e, g) ∈ groups hash isSub l := by
  obtain ⟨-, h2⟩ := group_spec (key hash) Inst.name (l.filter fun e => isSub e.model)
  refine ⟨_, (h2 _ _).2 ⟨?_, rfl⟩⟩
  rw [ne_eq, List.map_eq_nil_iff]
  exact List.ne_nil_of_mem (a := e) (by simp [he, hs])

theorem sameParams_iff {p q : List (String × String)} : sameParams p q = true ↔ ∀ kv, kv ∈ p ↔ kv ∈ q := by
  simp only [sameParams, Bool.and_eq_true, List.all_eq_true, List.contains_iff_mem]
  exact ⟨fun h kv => ⟨h.1 kv, h.2 kv⟩, fun h => ⟨fun kv => (h kv).1, fun kv => (h kv).2⟩⟩

theorem getEl_of_mem {l : List Inst} (hn : (l.map Inst.name).Nodup) {e : Inst} (he : e ∈ l) : getEl l e.name = some e := by
  cases h : getEl l e.name with
  | none =>
    have := List.find?_eq_none.1 h e he
    simp at this
  | some d =>
    have h1 := List.mem_of_find?_eq_some h
    have h2 := List.find?_some h
    rw [List.inj_on_of_nodup_map hn h1 he (by simpa using h2)]

theorem getEl_some {l : List Inst} {x : String} {e : Inst} (h : getEl l x = some e) : e ∈ l ∧ e.name = x := by
  have h1 := List.mem_of_find?_eq_some h
  have h2 := List.find?_some h
  exact ⟨h1, by simpa using h2⟩

/-- A group that passes the validator. -/
theorem valid_spec {l : List Inst} (hn : (l.map Inst.name).Nodup) : ∀ {g : List String}, (∀ x ∈ g, ∃ e ∈ l, e.name = x) →
    valid [] l g = true → ∀ a ∈ l, ∀ b ∈ l, a.name ∈ g → b.name ∈ g → ∀ kv, kv ∈ a.params ↔ kv ∈ b.params := by
  -- all members have the parameters of the first
  have first : ∀ (g : List String) (x : String), (∀ y ∈ x :: g, ∃ e ∈ l, e.name = y) → valid [] l (x :: g) = true →
      ∀ e ∈ l, e.name = x → ∀ a ∈ l, a.name ∈ x :: g → ∀ kv, kv ∈ a.params ↔ kv ∈ e.params := by
    intro g
    induction g with
    | nil =>
      intro x _ _ e he hex a ha hax kv
      simp only [List.mem_singleton] at hax
      rw [List.inj_on_of_nodup_map hn ha he (hax.trans hex.symm)]
    | cons y g ih =>
      intro x hmem hv e he hex a ha hax kv
      rw [valid, Bool.and_eq_true] at hv
      obtain ⟨hv1, hv2⟩ := hv
      obtain ⟨d, hd, hdy⟩ := hmem y (by simp)
      rw [if_pos (by simp), ← hex, ← hdy, getEl_of_mem hn he, getEl_of_mem hn hd] at hv1
      have hed := sameParams_iff.1 hv1
      rcases List.mem_cons.1 hax with h | h
      · rw [List.inj_on_of_nodup_map hn ha he (h.trans hex.symm)]
      · rw [ih y (fun z hz => hmem z (by simp [List.mem_cons.1 hz])) hv2 d hd hdy a ha h kv]
        exact (hed kv).symm
  intro g hmem hv a ha b hb hag hbg kv
  obtain _ | ⟨x, g⟩ := g
  · simp at hag
  · obtain ⟨e, he, hex⟩ := hmem x (by simp)
    rw [first g x hmem hv e he hex a ha hag kv, first g x hmem hv e he hex b hb hbg kv]

theorem valid_of {l : List Inst} (gb : List String) : ∀ {g : List String}, (∀ x ∈ g, ∃ e, getEl l x = some e) →
    (∀ a ∈ l, ∀ b ∈ l, a.name ∈ g → b.name ∈ g → ∀ kv, kv ∈ a.params ↔ kv ∈ b.params) → valid gb l g = true := by
  intro g
  induction g with
  | nil => intro _ _; rfl
  | cons x g ih =>
    intro h1 h2
    cases g with
    | nil => rfl
    | cons y g =>
      rw [valid, Bool.and_eq_true]
      refine ⟨?_, ih (fun z hz => h1 z (by simp [List.mem_cons.1 hz])) fun a ha b hb hag hbg => h2 a ha b hb (by simp [List.mem_cons.1 hag])
        (by simp [List.mem_cons.1 hbg])⟩
      split
      · obtain ⟨e, he⟩ := h1 x (by simp)
        obtain ⟨d, hd⟩ := h1 y (by simp)
        obtain ⟨he1, he2⟩ := getEl_some he
        obtain ⟨hd1, hd2⟩ := getEl_some hd
        rw [he, hd]
        exact sameParams_iff.2 (h2 e he1 d hd1 (by simp [he2]) (by simp [hd2]))
      · rfl

theorem mapM_valid {gs gs' : List (List String)} {f : List String → Bool} (h : (gs.mapM fun g => if f g then some g else none) = some gs') :
    gs' = gs ∧ ∀ g ∈ gs, f g = true := by
  induction gs generalizing gs' with
  | nil => simp at h; simp [h]
  | cons g gs ih =>
    rw [List.mapM_cons] at h
    obtain ⟨g1, h1, h⟩ := Option.bind_eq_some_iff.1 h
    obtain ⟨gs1, h2, h⟩ := Option.bind_eq_some_iff.1 h
    cases h
    obtain ⟨rfl, h3⟩ := ih h2
    split at h1
    · rename_i hf
      cases h1
      exact ⟨rfl, by simpa [hf] using h3⟩
    · cases h1

theorem valid_mapM {gs : List (List String)} {f : List String → Bool} (h : ∀ g ∈ gs, f g = true) :
    (gs.mapM fun g => if f g then some g else none) = some gs := by
  induction gs with
  | nil => rfl
  | cons g gs ih =>
    rw [List.mapM_cons, if_pos (h g (by simp)), ih fun x hx => h x (by simp [hx])]
    rfl

theorem grouped_of {hash : String → Nat} {isSub : String → Bool} {l : List Inst} (hg : Good l)
    (hsame : ∀ k g, (k, g) ∈ groups hash isSub l → ∀ a ∈ l, ∀ b ∈ l, a.name ∈ g → b.name ∈ g → ∀ kv, kv ∈ a.params ↔ kv ∈ b.params) :
    Grouped isSub l (((groups hash isSub l).map Prod.snd).filter fun g => decide (1 < g.length)) := by
  obtain ⟨hk, hspec⟩ := groups_spec hash isSub hg.names
  have hmem : ∀ {g}, g ∈ ((groups hash isSub l).map Prod.snd).filter (fun g => decide (1 < g.length)) → 1 < g.length ∧ ∃ k, (k, g) ∈ groups hash isSub l := by
    intro g h
    simp only [List.mem_filter, decide_eq_true_eq, List.mem_map] at h
    obtain ⟨⟨⟨k, g'⟩, h1, rfl⟩, h2⟩ := h
    exact ⟨h2, k, h1⟩
  refine ⟨fun g h => ?_, fun g h x hx => ?_, fun a ha b hb hne hsa hsb => ?_, ?_⟩
  · obtain ⟨h1, k, h2⟩ := hmem h
    exact ⟨h1, (hspec k g h2).2.1⟩
  · obtain ⟨-, k, h2⟩ := hmem h
    obtain ⟨e, he, hex, hs, -⟩ := ((hspec k g h2).2.2 x).1 hx
    exact ⟨e, he, hex, hs⟩
  · constructor
    · rintro ⟨h1, h2⟩
      obtain ⟨g, hgm⟩ := key_group hash isSub ha hsa
      have hka : key hash b = key hash a := key_eq.2 ⟨h1.symm, by rw [text_eq (hg.params a ha) (hg.params b hb) h2]⟩
      have hag : a.name ∈ g := ((hspec _ g hgm).2.2 _).2 ⟨a, ha, rfl, hsa, rfl⟩
      have hbg : b.name ∈ g := ((hspec _ g hgm).2.2 _).2 ⟨b, hb, rfl, hsb, hka⟩
      refine ⟨g, ?_, hag, hbg⟩
      simp only [List.mem_filter, decide_eq_true_eq, List.mem_map]
      refine ⟨⟨_, hgm, rfl⟩, ?_⟩
      by_contra hc
      have hne0 := (hspec _ g hgm).1
      obtain _ | ⟨x, _ | ⟨y, g⟩⟩ := g
      · exact hne0 rfl
      · simp only [List.mem_singleton] at hag hbg
        exact hne (hag.trans hbg.symm)
      · simp at hc
    · rintro ⟨g, h, hag, hbg⟩
      obtain ⟨-, k, h2⟩ := hmem h
      obtain ⟨e, he, hex, -, hke⟩ := ((hspec k g h2).2.2 _).1 hag
      obtain ⟨d, hd, hdx, -, hkd⟩ := ((hspec k g h2).2.2 _).1 hbg
      obtain rfl := List.inj_on_of_nodup_map hg.names he ha hex
      obtain rfl := List.inj_on_of_nodup_map hg.names hd hb hdx
      exact ⟨(key_eq.1 (hke.trans hkd.symm)).1, hsame k g h2 e he d hd hag hbg⟩
  · refine List.Pairwise.filter _ ?_
    rw [List.pairwise_map]
    have hp : (groups hash isSub l).Pairwise fun p q => p.1 ≠ q.1 := by
      rw [List.Nodup, List.pairwise_map] at hk
      exact hk
    refine hp.imp_of_mem ?_
    rintro ⟨k, g⟩ ⟨k', g'⟩ h1 h2 hne x hx hx'
    obtain ⟨e, he, hex, -, hke⟩ := ((hspec k g h1).2.2 x).1 hx
    obtain ⟨d, hd, hdx, -, hkd⟩ := ((hspec k' g' h2).2.2 x).1 hx'
    obtain rfl := List.inj_on_of_nodup_map hg.names he hd (hex.trans hdx.symm)
    exact hne (hke.symm.trans hkd)

/-- Names of parameters have no colon, values no underscore. -/
def Clean (ps : List (String × String)) : Prop := ∀ kv ∈ ps, ':' ∉ kv.1.toList ∧ '_' ∉ kv.2.toList

theorem split_first {c : Char} {a b d e : List Char} (ha : c ∉ a) (hb : c ∉ b) (h : a ++ c :: d = b ++ c :: e) : a = b ∧ d = e := by
  induction a generalizing b with
  | nil =>
    cases b with
    | nil => simpa using h
    | cons y b =>
      simp only [List.nil_append, List.cons_append, List.cons.injEq] at h
      exact absurd h.1 (by rintro rfl; simp at hb)
  | cons x a ih =>
    cases b with
    | nil =>
      simp only [List.nil_append, List.cons_append, List.cons.injEq] at h
      exact absurd h.1.symm (by rintro rfl; simp at ha)
    | cons y b =>
      simp only [List.cons_append, List.cons.injEq] at h
      obtain ⟨h1, h2⟩ := ih (fun hc => ha (by simp [hc])) (fun hc => hb (by simp [hc])) h.2
      exact ⟨by rw [h.1, h1], h2⟩

theorem entry_toList (kv : String × String) : (kv.1 ++ ":" ++ kv.2).toList = kv.1.toList ++ ':' :: kv.2.toList := by
  simp [String.toList_append]

theorem joinU_cons (a b : String) (l : List String) : (joinU (a :: b :: l)).toList = a.toList ++ '_' :: (joinU (b :: l)).toList :=
  Net.joinU_toList a b l

/-- The text of clean parameters determines them. -/
theorem join_inj : ∀ {p q : List (String × String)}, Clean p → Clean q →
    joinU (p.map fun kv => kv.1 ++ ":" ++ kv.2) = joinU (q.map fun kv => kv.1 ++ ":" ++ kv.2) → p = q := by
  have nonempty : ∀ (kv : String × String) (r : List (String × String)),
      ':' ∈ (joinU ((kv :: r).map fun kv => kv.1 ++ ":" ++ kv.2)).toList := by
    intro kv r
    cases r with
    | nil => simp only [List.map_cons, List.map_nil, joinU, entry_toList]; simp
    | cons y r => rw [List.map_cons, List.map_cons, joinU_cons, entry_toList]; simp
  intro p
  induction p with
  | nil =>
    intro q _ _ h
    cases q with
    | nil => rfl
    | cons y q =>
      have := nonempty y q
      rw [← h] at this
      simp [joinU] at this
  | cons x p ih =>
    intro q hp hq h
    cases q with
    | nil =>
      have := nonempty x p
      rw [h] at this
      simp [joinU] at this
    | cons y q =>
      have hx := hp x (by simp)
      have hy := hq y (by simp)
      have hl := congrArg String.toList h
      cases p with
      | nil =>
        cases q with
        | nil =>
          simp only [List.map_cons, List.map_nil, joinU, entry_toList] at hl
          obtain ⟨h1, h2⟩ := split_first hx.1 hy.1 hl
          rw [show x = y from Prod.ext (String.toList_inj.1 h1) (String.toList_inj.1 h2)]
        | cons z q =>
          rw [List.map_cons, List.map_nil, joinU, List.map_cons, List.map_cons, joinU_cons, entry_toList, entry_toList, List.append_assoc,
            List.cons_append] at hl
          obtain ⟨-, h2⟩ := split_first hx.1 hy.1 hl
          exact absurd (h2 ▸ (by simp) : '_' ∈ x.2.toList) hx.2
      | cons w p =>
        cases q with
        | nil =>
          rw [List.map_cons, List.map_cons, joinU_cons, List.map_cons, List.map_nil, joinU, entry_toList, entry_toList, List.append_assoc,
            List.cons_append] at hl
          obtain ⟨-, h2⟩ := split_first hx.1 hy.1 hl
          exact absurd (h2 ▸ (by simp) : '_' ∈ y.2.toList) hy.2
        | cons z q =>
          rw [List.map_cons, List.map_cons, joinU_cons, List.map_cons, List.map_cons, joinU_cons, entry_toList, entry_toList,
            List.append_assoc, List.append_assoc, List.cons_append, List.cons_append] at hl
          obtain ⟨h1, h2⟩ := split_first hx.1 hy.1 hl
          obtain ⟨h3, h4⟩ := split_first hx.2 hy.2 h2
          rw [show x = y from Prod.ext (String.toList_inj.1 h1) (String.toList_inj.1 h3)]
          congr 1
          refine ih (fun kv hkv => hp kv (by simp [List.mem_cons.1 hkv])) (fun kv hkv => hq kv (by simp [List.mem_cons.1 hkv])) ?_
          rw [List.map_cons, List.map_cons]
          exact String.toList_inj.1 h4

theorem text_inj {p q : List (String × String)} (hp : Clean p) (hq : Clean q) (h : text p = text q) (kv : String × String) : kv ∈ p ↔ kv ∈ q := by
  have := join_inj (fun kv hkv => hp kv (mem_pySort.1 hkv)) (fun kv hkv => hq kv (mem_pySort.1 hkv)) h
  rw [← mem_pySort (le := fun a b => decide (a.1 ≤ b.1)) (l := p), this, mem_pySort]

/-- **C77, part.**  If no two different texts that are hashed have the same hash, and names of parameters have no colon and values no
underscore, then the groups are as they should be. -/
theorem C77_groups_partial {hash : String → Nat} {isSub : String → Bool} {gb : List String} {l : List Inst} (hg : Good l)
    (hcl : ∀ e ∈ l, Clean e.params)
    (hinj : ∀ a ∈ l, ∀ b ∈ l, hash (text a.params) = hash (text b.params) → text a.params = text b.params) :
    ∃ gs, sameTemplate hash isSub gb l = some gs ∧ Grouped isSub l gs := by
  have hh : ∀ a ∈ l, ∀ b ∈ l, hash (text a.params) = hash (text b.params) → ∀ kv, kv ∈ a.params ↔ kv ∈ b.params :=
    fun a ha b hb h => text_inj (hcl a ha) (hcl b hb) (hinj a ha b hb h)
  obtain ⟨hk, hspec⟩ := groups_spec hash isSub hg.names
  have hsame : ∀ k g, (k, g) ∈ groups hash isSub l → ∀ a ∈ l, ∀ b ∈ l, a.name ∈ g → b.name ∈ g → ∀ kv, kv ∈ a.params ↔ kv ∈ b.params := by
    intro k g hgm a ha b hb hag hbg
    obtain ⟨e, he, hex, -, hke⟩ := ((hspec k g hgm).2.2 _).1 hag
    obtain ⟨d, hd, hdx, -, hkd⟩ := ((hspec k g hgm).2.2 _).1 hbg
    obtain rfl := List.inj_on_of_nodup_map hg.names he ha hex
    obtain rfl := List.inj_on_of_nodup_map hg.names hd hb hdx
    exact hh e ha d hb (key_eq.1 (hke.trans hkd.symm)).2
  refine ⟨_, valid_mapM fun g hgm => ?_, grouped_of hg hsame⟩
  simp only [List.mem_filter, List.mem_map] at hgm
  obtain ⟨⟨⟨k, g'⟩, hgm, rfl⟩, -⟩ := hgm
  refine valid_of gb (fun x hx => ?_) (hsame k g' hgm)
  obtain ⟨e, he, rfl, -⟩ := ((hspec k g' hgm).2.2 x).1 hx
  exact ⟨e, getEl_of_mem hg.names he⟩

/-- **C77, part.**  Whatever the hash: if there are no groups of blocks and the code does not fail, the groups are as they should be. -/
theorem C77_sound_partial {hash : String → Nat} {isSub : String → Bool} {l : List Inst} (hg : Good l) {gs : List (List String)}
    (h : sameTemplate hash isSub [] l = some gs) : Grouped isSub l gs := by
  obtain ⟨hk, hspec⟩ := groups_spec hash isSub hg.names
  obtain ⟨rfl, hv⟩ := mapM_valid h
  refine grouped_of hg fun k g hgm a ha b hb hag hbg => ?_
  have hmem : ∀ x ∈ g, ∃ e ∈ l, e.name = x := fun x hx => by
    obtain ⟨e, he, hex, -⟩ := ((hspec k g hgm).2.2 x).1 hx
    exact ⟨e, he, hex⟩
  by_cases hlen : 1 < g.length
  · exact valid_spec hg.names hmem (hv g (by simp only [List.mem_filter, decide_eq_true_eq, List.mem_map]; exact ⟨⟨_, hgm, rfl⟩, hlen⟩)) a ha b hb hag hbg
  · obtain _ | ⟨x, _ | ⟨y, g⟩⟩ := g
    · simp at hag
    · simp only [List.mem_singleton] at hag hbg
      rw [List.inj_on_of_nodup_map hg.names ha hb (hag.trans hbg.symm)]
      exact fun _ => Iff.rfl
    · simp at hlen

/-! ## Example and violation -/

def exL : List Inst := [⟨"X1", "INV", [("W", "1"), ("L", "2")]⟩, ⟨"X2", "INV", [("L", "2"), ("W", "1")]⟩, ⟨"X3", "INV", [("W", "3"), ("L", "2")]⟩,
  ⟨"M1", "NMOS", [("W", "1"), ("L", "2")]⟩, ⟨"M2", "NMOS", [("W", "1"), ("L", "2")]⟩]

/-- The hypotheses can be met, here with the sum of the characters, which tells these texts apart. -/
example : sameTemplate (fun t => (t.toList.map Char.toNat).sum) (fun m => m = "INV") [] exL = some [["X1", "X2"]] := by decide +kernel

example : Good exL := ⟨by decide, by decide⟩

example : ∀ e ∈ exL, Clean e.params := by unfold Clean; decide

/-- **C77 is violated.**  Whatever the hash with values below 10^8: some subcircuit has two instances with different parameters for
which the code fails, as the parameters have the same hash. -/
theorem C77_violated_collision (hash : String → Nat) (hb : ∀ t, hash t < 10 ^ 8) :
    ∃ l : List Inst, Good l ∧ (∀ a ∈ l, ∀ b ∈ l, a ≠ b → ¬ Same a b) ∧ sameTemplate hash (fun _ => true) [] l = none := by
  obtain ⟨i, -, j, -, hij, he⟩ := Finset.exists_ne_map_eq_of_card_lt_of_maps_to (s := Finset.range (10 ^ 8 + 1)) (t := Finset.range (10 ^ 8))
    (by simp) (f := fun n => hash (text [("W", String.ofList (pyStr n))])) (by
      intro n _
      simp only [Finset.coe_range, Set.mem_Iio]
      exact hb _)
  have hne : String.ofList (pyStr i) ≠ String.ofList (pyStr j) := by
    intro h
    have := congrArg String.toList h
    simp only [String.toList_ofList] at this
    exact hij (by rw [← Pnr.digitsVal_pyStr i, this, Pnr.digitsVal_pyStr])
  generalize String.ofList (pyStr i) = a at he hne
  generalize String.ofList (pyStr j) = b at he hne
  have hg : Good [⟨"X1", "S", [("W", a)]⟩, ⟨"X2", "S", [("W", b)]⟩] := ⟨by simp, by simp⟩
  have hns : ∀ x ∈ ([⟨"X1", "S", [("W", a)]⟩, ⟨"X2", "S", [("W", b)]⟩] : List Inst),
      ∀ y ∈ ([⟨"X1", "S", [("W", a)]⟩, ⟨"X2", "S", [("W", b)]⟩] : List Inst), x ≠ y → ¬ Same x y := by
    intro x hx y hy hxy hs
    have h2 := hs.2
    simp only [List.mem_cons, List.not_mem_nil, or_false] at hx hy
    rcases hx with rfl | rfl <;> rcases hy with rfl | rfl
    · exact hxy rfl
    · have := (h2 ("W", a)).1 (by simp)
      simp at this
      exact hne this
    · have := (h2 ("W", a)).2 (by simp)
      simp at this
      exact hne this
    · exact hxy rfl
  refine ⟨[⟨"X1", "S", [("W", a)]⟩, ⟨"X2", "S", [("W", b)]⟩], hg, hns, ?_⟩
  cases h : sameTemplate hash (fun _ => true) [] [⟨"X1", "S", [("W", a)]⟩, ⟨"X2", "S", [("W", b)]⟩] with
  | none => rfl
  | some gs =>
    exfalso
    -- the two are in one group
    have hgs := C77_sound_partial hg h
    have hkey : key hash ⟨"X2", "S", [("W", b)]⟩ = key hash ⟨"X1", "S", [("W", a)]⟩ := key_eq.2 ⟨rfl, he.symm⟩
    obtain ⟨g, hgm⟩ := key_group hash (fun _ => true) (l := [⟨"X1", "S", [("W", a)]⟩, ⟨"X2", "S", [("W", b)]⟩]) (e := ⟨"X1", "S", [("W", a)]⟩)
      (by simp) rfl
    have hsp := (groups_spec hash (fun _ => true) hg.names).2 _ g hgm
    have h1 : "X1" ∈ g := (hsp.2.2 _).2 ⟨⟨"X1", "S", [("W", a)]⟩, by simp, rfl, rfl, rfl⟩
    have h2 : "X2" ∈ g := (hsp.2.2 _).2 ⟨⟨"X2", "S", [("W", b)]⟩, by simp, rfl, rfl, hkey⟩
    obtain ⟨hgs', -⟩ := mapM_valid h
    have hin : g ∈ gs := by
      rw [hgs']
      simp only [List.mem_filter, decide_eq_true_eq, List.mem_map]
      refine ⟨⟨_, hgm, rfl⟩, ?_⟩
      obtain _ | ⟨x, _ | ⟨y, g⟩⟩ := g
      · simp at h1
      · simp only [List.mem_singleton] at h1 h2
        exact absurd (h1.trans h2.symm) (by decide)
      · simp
    have := (hgs.same ⟨"X1", "S", [("W", a)]⟩ (by simp) ⟨"X2", "S", [("W", b)]⟩ (by simp) (by simp) rfl rfl).2 ⟨g, hin, h1, h2⟩
    exact hns _ (by simp) _ (by simp) (by simp) this

end Verif.Pre.Template

import Verif.SeqPair.Enum
import Mathlib.Logic.Relation

/-!
# C31: the enumerated block variants
-/

namespace Verif.SeqPair

open Verif.Cons (Cons expand)

/-! ## Specification -/

/-- Connected through sets of instances, directly or through a chain. -/
def Linked (sets : List (List String)) : String → String → Prop :=
  Relation.ReflTransGen fun a b => ∃ s ∈ sets, a ∈ s ∧ b ∈ s

/-- The instances of a `SameTemplate` constraint. -/
def IsSameTemplate (ex : List Cons) (s : List String) : Prop := .sameTemplate s ∈ ex

/-- Iterating over a set yields one of its elements first. -/
def PicksMember (pick : List String → Option String) : Prop :=
  ∀ g, (g = [] → pick g = none) ∧ (g ≠ [] → ∃ a ∈ g, pick g = some a)

/-- Each constraint touches the instances of at most one class of connected instances of the
constraints before it. -/
def OneClass (sets : List (List String)) : Prop :=
  ∀ pre s post, sets = pre ++ s :: post → ∀ x ∈ s, ∀ y ∈ s,
    (∃ t ∈ pre, x ∈ t) → (∃ t ∈ pre, y ∈ t) → Linked pre x y

theorem mem_sameTemplates {ex : List Cons} {s : List String} :
    s ∈ sameTemplates ex ↔ IsSameTemplate ex s := by
  unfold IsSameTemplate
  induction ex with
  | nil => simp [sameTemplates]
  | cons c ex ih => cases c <;> simp [sameTemplates, ih]

/-! ## Groups -/

theorem Linked.mono {s1 s2 : List (List String)} (h : ∀ s ∈ s1, s ∈ s2) {a b : String}
    (hl : Linked s1 a b) : Linked s2 a b := by
  induction hl with
  | refl => exact .refl
  | tail _ hst ih =>
    obtain ⟨s, hs, h1, h2⟩ := hst
    exact ih.tail ⟨s, h s hs, h1, h2⟩

theorem Linked.symm {sets : List (List String)} {a b : String} (hl : Linked sets a b) :
    Linked sets b a := by
  induction hl with
  | refl => exact .refl
  | tail _ h ih =>
    obtain ⟨s, hs, h1, h2⟩ := h
    exact Relation.ReflTransGen.head ⟨s, hs, h2, h1⟩ ih

/-- Every group has an element which is in no later group. -/
def SeedOK : List (List String) → Prop
  | [] => True
  | g :: gs => (∃ a ∈ g, ∀ h ∈ gs, a ∉ h) ∧ SeedOK gs

theorem meets_iff {s g : List String} :
    (s.any fun x => g.contains x) = true ↔ ∃ x ∈ s, x ∈ g := by
  simp

theorem mem_addGroup {s : List String} : ∀ {gs : List (List String)} {h : List String},
    h ∈ addGroup s gs → h ∈ gs ∨ h = s ∨ ∃ g ∈ gs, h = g ++ s
  | [], h, hh => by simp [addGroup] at hh; exact Or.inr (Or.inl hh)
  | g :: gs, h, hh => by
    simp only [addGroup] at hh
    split at hh
    · rcases List.mem_cons.1 hh with rfl | hh
      · exact Or.inr (Or.inr ⟨g, by simp, rfl⟩)
      · exact Or.inl (List.mem_cons_of_mem _ hh)
    · rcases List.mem_cons.1 hh with rfl | hh
      · exact Or.inl (by simp)
      · rcases mem_addGroup hh with h1 | h1 | ⟨g', h1, h2⟩
        · exact Or.inl (List.mem_cons_of_mem _ h1)
        · exact Or.inr (Or.inl h1)
        · exact Or.inr (Or.inr ⟨g', List.mem_cons_of_mem _ h1, h2⟩)

theorem seedOK_addGroup {s : List String} (hs : s ≠ []) : ∀ {gs : List (List String)},
    SeedOK gs → SeedOK (addGroup s gs)
  | [], _ => by
    obtain ⟨a, ha⟩ := List.exists_mem_of_ne_nil s hs
    exact ⟨⟨a, ha, by simp⟩, trivial⟩
  | g :: gs, ⟨⟨a, ha, hno⟩, hgs⟩ => by
    simp only [addGroup]
    split
    · exact ⟨⟨a, List.mem_append_left _ ha, hno⟩, hgs⟩
    · rename_i hm
      rw [meets_iff] at hm
      have has : a ∉ s := fun h => hm ⟨a, h, ha⟩
      refine ⟨⟨a, ha, fun h hh => ?_⟩, seedOK_addGroup hs hgs⟩
      rcases mem_addGroup hh with h1 | rfl | ⟨g', h1, rfl⟩
      · exact hno h h1
      · exact has
      · rw [List.mem_append]; exact fun h => h.elim (hno g' h1) has

/-- The invariants of the grouping loop: every group is connected, and every set is contained in a
group. -/
structure Grouping (sets gs : List (List String)) : Prop where
  linked : ∀ g ∈ gs, ∀ x ∈ g, ∀ y ∈ g, Linked sets x y
  within : ∀ g ∈ gs, ∀ x ∈ g, ∃ s ∈ sets, x ∈ s
  covers : ∀ s ∈ sets, ∃ g ∈ gs, ∀ x ∈ s, x ∈ g

theorem covers_addGroup (s : List String) : ∀ (gs : List (List String)),
    (∃ g ∈ addGroup s gs, ∀ x ∈ s, x ∈ g) ∧
    ∀ h ∈ gs, ∃ g ∈ addGroup s gs, ∀ x ∈ h, x ∈ g
  | [] => by simp [addGroup]
  | g :: gs => by
    simp only [addGroup]
    split
    · refine ⟨⟨g ++ s, by simp, fun x hx => List.mem_append_right _ hx⟩, fun h hh => ?_⟩
      rcases List.mem_cons.1 hh with rfl | hh
      · exact ⟨h ++ s, by simp, fun x hx => List.mem_append_left _ hx⟩
      · exact ⟨h, List.mem_cons_of_mem _ hh, fun x hx => hx⟩
    · obtain ⟨⟨g', h1, h2⟩, h3⟩ := covers_addGroup s gs
      refine ⟨⟨g', List.mem_cons_of_mem _ h1, h2⟩, fun h hh => ?_⟩
      rcases List.mem_cons.1 hh with rfl | hh
      · exact ⟨h, by simp, fun x hx => hx⟩
      · obtain ⟨g'', h4, h5⟩ := h3 h hh
        exact ⟨g'', List.mem_cons_of_mem _ h4, h5⟩

/-- A group made of a group and the set has common elements with the set. -/
theorem addGroup_meets {s : List String} : ∀ {gs : List (List String)} {h : List String},
    h ∈ addGroup s gs → h ∈ gs ∨ h = s ∨ ∃ g ∈ gs, h = g ++ s ∧ ∃ x ∈ s, x ∈ g
  | [], h, hh => by simp [addGroup] at hh; exact Or.inr (Or.inl hh)
  | g :: gs, h, hh => by
    simp only [addGroup] at hh
    split at hh
    · rename_i hm
      rcases List.mem_cons.1 hh with rfl | hh
      · exact Or.inr (Or.inr ⟨g, by simp, rfl, meets_iff.1 hm⟩)
      · exact Or.inl (List.mem_cons_of_mem _ hh)
    · rcases List.mem_cons.1 hh with rfl | hh
      · exact Or.inl (by simp)
      · rcases addGroup_meets hh with h1 | h1 | ⟨g', h1, h2⟩
        · exact Or.inl (List.mem_cons_of_mem _ h1)
        · exact Or.inr (Or.inl h1)
        · exact Or.inr (Or.inr ⟨g', List.mem_cons_of_mem _ h1, h2⟩)

theorem grouping_addGroup {sets gs : List (List String)} (h : Grouping sets gs) (s : List String) :
    Grouping (sets ++ [s]) (addGroup s gs) := by
  have mono : ∀ t ∈ sets, t ∈ sets ++ [s] := fun t ht => List.mem_append_left _ ht
  have link : ∀ x ∈ s, ∀ y ∈ s, Linked (sets ++ [s]) x y := fun x hx y hy =>
    .single ⟨s, by simp, hx, hy⟩
  refine ⟨fun g hg x hx y hy => ?_, fun g hg x hx => ?_, fun t ht => ?_⟩
  · rcases addGroup_meets hg with h1 | rfl | ⟨g', h1, rfl, z, hz, hz'⟩
    · exact (h.linked g h1 x hx y hy).mono mono
    · exact link x hx y hy
    · have toz : ∀ w ∈ g' ++ s, Linked (sets ++ [s]) w z := by
        intro w hw
        rcases List.mem_append.1 hw with hw | hw
        · exact (h.linked g' h1 w hw z hz').mono mono
        · exact link w hw z hz
      exact (toz x hx).trans (toz y hy).symm
  · rcases mem_addGroup hg with h1 | rfl | ⟨g', h1, rfl⟩
    · obtain ⟨t, ht, hxt⟩ := h.within g h1 x hx
      exact ⟨t, mono t ht, hxt⟩
    · exact ⟨g, by simp, hx⟩
    · rcases List.mem_append.1 hx with hx | hx
      · obtain ⟨t, ht, hxt⟩ := h.within g' h1 x hx
        exact ⟨t, mono t ht, hxt⟩
      · exact ⟨s, by simp, hx⟩
  · obtain ⟨c1, c2⟩ := covers_addGroup s gs
    rcases List.mem_append.1 ht with ht | ht
    · obtain ⟨g, hg, hsub⟩ := h.covers t ht
      obtain ⟨g', hg', hsub'⟩ := c2 g hg
      exact ⟨g', hg', fun x hx => hsub' x (hsub x hx)⟩
    · simp only [List.mem_singleton] at ht
      subst ht
      exact c1

theorem grouping_foldl (sets : List (List String)) :
    Grouping sets (sets.foldl (fun gs s => addGroup s gs) []) := by
  have key : ∀ (post pre gs : List (List String)), Grouping pre gs →
      Grouping (pre ++ post) (post.foldl (fun gs s => addGroup s gs) gs) := by
    intro post
    induction post with
    | nil => intro pre gs h; simpa using h
    | cons s post ih =>
      intro pre gs h
      rw [List.foldl_cons]
      have := ih (pre ++ [s]) _ (grouping_addGroup h s)
      rwa [List.append_assoc, List.singleton_append] at this
  have := key sets [] [] ⟨by simp, by simp, by simp⟩
  simpa using this

theorem seedOK_foldl {sets : List (List String)} (hs : ∀ s ∈ sets, s ≠ []) :
    SeedOK (sets.foldl (fun gs s => addGroup s gs) []) := by
  have key : ∀ (post gs : List (List String)), (∀ s ∈ post, s ≠ []) → SeedOK gs →
      SeedOK (post.foldl (fun gs s => addGroup s gs) gs) := by
    intro post
    induction post with
    | nil => intro gs _ h; exact h
    | cons s post ih =>
      intro gs h1 h2
      exact ih _ (fun t ht => h1 t (List.mem_cons_of_mem _ ht))
        (seedOK_addGroup (h1 s (by simp)) h2)
  exact key sets [] hs trivial

theorem seedOK_append : ∀ {gs hs : List (List String)}, SeedOK gs → SeedOK hs →
    (∀ g ∈ gs, ∀ a ∈ g, ∀ h ∈ hs, a ∉ h) → SeedOK (gs ++ hs)
  | [], _, _, h2, _ => h2
  | g :: gs, hs, ⟨⟨a, ha, hno⟩, hgs⟩, h2, h3 => by
    refine ⟨⟨a, ha, fun h hh => ?_⟩, seedOK_append hgs h2
      (fun g hg => h3 g (List.mem_cons_of_mem _ hg))⟩
    rcases List.mem_append.1 hh with hh | hh
    · exact hno h hh
    · exact h3 g (by simp) a ha h hh

theorem seedOK_singles : ∀ {l : List String}, l.Nodup → SeedOK (l.map fun i => [i])
  | [], _ => trivial
  | a :: l, h => by
    rw [List.nodup_cons] at h
    refine ⟨⟨a, by simp, ?_⟩, seedOK_singles h.2⟩
    rintro g hg ha
    obtain ⟨i, hi, rfl⟩ := List.mem_map.1 hg
    simp only [List.mem_singleton] at ha
    exact h.1 (ha ▸ hi)

/-- With `OneClass`, the groups are disjoint. -/
theorem disjoint_foldl {sets : List (List String)} (h1 : OneClass sets) :
    (sets.foldl (fun gs s => addGroup s gs) []).Pairwise List.Disjoint := by
  have step : ∀ (pre : List (List String)) (s : List String),
      (∀ x ∈ s, ∀ y ∈ s, (∃ t ∈ pre, x ∈ t) → (∃ t ∈ pre, y ∈ t) → Linked pre x y) →
      ∀ gs, Grouping pre gs → gs.Pairwise List.Disjoint →
      (addGroup s gs).Pairwise List.Disjoint := by
    intro pre s hone gs hg hd
    -- two groups that meet the set would contain connected elements
    have same : ∀ g ∈ gs, ∀ h ∈ gs, (∃ x ∈ s, x ∈ g) → (∃ x ∈ s, x ∈ h) → g = h := by
      rintro g hgg h hh ⟨x, hx, hxg⟩ ⟨y, hy, hyh⟩
      have hl := hone x hx y hy (hg.within g hgg x hxg) (hg.within h hh y hyh)
      -- walking along the chain stays in the group
      have stay : y ∈ g := by
        clear hyh hy
        induction hl with
        | refl => exact hxg
        | tail _ hst ih =>
          obtain ⟨t, ht, h3, h4⟩ := hst
          obtain ⟨g', hg', hsub⟩ := hg.covers t ht
          by_cases hgg' : g = g'
          · rw [hgg']; exact hsub _ h4
          · have hdis : Std.Symm (fun a b : List String => List.Disjoint a b) :=
              ⟨fun a b h => List.disjoint_symm h⟩
            exact absurd (hsub _ h3) (fun h5 => hd.forall hgg hg' hgg' ih h5)
      by_contra hne
      have hdis : Std.Symm (fun a b : List String => List.Disjoint a b) :=
        ⟨fun a b h => List.disjoint_symm h⟩
      exact hd.forall hgg hh hne stay hyh
    clear hg
    induction gs with
    | nil => simp [addGroup]
    | cons g gs ih =>
      rw [List.pairwise_cons] at hd
      simp only [addGroup]
      split
      · rename_i hm
        rw [List.pairwise_cons]
        refine ⟨fun h hh => ?_, hd.2⟩
        rw [List.disjoint_append_left]
        refine ⟨hd.1 h hh, fun x hx hxh => ?_⟩
        have e := same g (by simp) h (List.mem_cons_of_mem _ hh) (meets_iff.1 hm) ⟨x, hx, hxh⟩
        obtain ⟨z, -, hz⟩ := meets_iff.1 hm
        exact hd.1 h hh hz (e ▸ hz)
      · rename_i hm
        rw [meets_iff] at hm
        rw [List.pairwise_cons]
        refine ⟨fun h hh => ?_, ih hd.2
          (fun a ha b hb => same a (List.mem_cons_of_mem _ ha) b (List.mem_cons_of_mem _ hb))⟩
        have hgs : ∀ x ∈ g, x ∉ s := fun x hx hxs => hm ⟨x, hxs, hx⟩
        rcases mem_addGroup hh with h2 | rfl | ⟨g', h2, rfl⟩
        · exact hd.1 h h2
        · exact fun x hx hxs => hgs x hx hxs
        · rw [List.disjoint_append_right]
          exact ⟨hd.1 g' h2, fun x hx hxs => hgs x hx hxs⟩
  have key : ∀ (post pre gs : List (List String)), sets = pre ++ post → Grouping pre gs →
      gs.Pairwise List.Disjoint →
      (post.foldl (fun gs s => addGroup s gs) gs).Pairwise List.Disjoint := by
    intro post
    induction post with
    | nil => intro pre gs _ _ h; exact h
    | cons s post ih =>
      intro pre gs he hg hd
      rw [List.foldl_cons]
      refine ih (pre ++ [s]) _ (by simp [he]) (grouping_addGroup hg s) ?_
      exact step pre s (h1 pre s post he) gs hg hd
  exact key sets [] [] rfl ⟨by simp, by simp, by simp⟩ List.Pairwise.nil

/-- All groups, with those of the isolated instances. -/
theorem groups_spec {cs ex : List Cons} {insts : List String} {gs : List (List String)}
    (hex : expand cs = some ex) (h : groups cs insts = some gs) :
    (∀ g ∈ gs, ∀ x ∈ g, ∀ y ∈ g, Linked (sameTemplates ex) x y) ∧
    (∀ a ∈ insts, ∃ g ∈ gs, a ∈ g) ∧
    ((∀ s ∈ sameTemplates ex, s ≠ []) → insts.Nodup → SeedOK gs) ∧
    (OneClass (sameTemplates ex) → insts.Nodup → gs.Pairwise List.Disjoint ∧
      ∀ s ∈ sameTemplates ex, ∃ g ∈ gs, ∀ x ∈ s, x ∈ g) ∧
    ((∀ g ∈ gs, g ≠ []) → ∀ s ∈ sameTemplates ex, s ≠ []) := by
  unfold groups at h
  rw [hex] at h
  simp only [Option.bind_eq_bind, Option.bind_some, Option.some.injEq] at h
  subst h
  have hg := grouping_foldl (sameTemplates ex)
  have notin : ∀ h ∈ (insts.filter fun i => !((sameTemplates ex).any fun s => s.contains i)).map
      (fun i => [i]), ∃ i ∈ insts, h = [i] ∧ ∀ s ∈ sameTemplates ex, i ∉ s := by
    intro h hh
    obtain ⟨i, hi, rfl⟩ := List.mem_map.1 hh
    rw [List.mem_filter] at hi
    refine ⟨i, hi.1, rfl, fun s hs his => ?_⟩
    have : ((sameTemplates ex).any fun s => s.contains i) = true :=
      List.any_eq_true.2 ⟨s, hs, List.contains_iff_mem.2 his⟩
    rw [this] at hi
    simp at hi
  have apart : ∀ g ∈ (sameTemplates ex).foldl (fun gs s => addGroup s gs) [], ∀ a ∈ g,
      ∀ h ∈ (insts.filter fun i => !((sameTemplates ex).any fun s => s.contains i)).map
        (fun i => [i]), a ∉ h := by
    intro g hgg a ha h hh hah
    obtain ⟨i, -, rfl, hno⟩ := notin h hh
    simp only [List.mem_singleton] at hah
    subst hah
    obtain ⟨s, hs, has⟩ := hg.within g hgg a ha
    exact hno s hs has
  refine ⟨?_, ?_, ?_, ?_, ?_⟩
  · intro g hgg x hx y hy
    rcases List.mem_append.1 hgg with hgg | hgg
    · exact hg.linked g hgg x hx y hy
    · obtain ⟨i, -, rfl, -⟩ := notin g hgg
      simp only [List.mem_singleton] at hx hy
      rw [hx, hy]
      exact .refl
  · intro a ha
    by_cases hin : ∃ s ∈ sameTemplates ex, a ∈ s
    · obtain ⟨s, hs, has⟩ := hin
      obtain ⟨g, hgg, hsub⟩ := hg.covers s hs
      exact ⟨g, List.mem_append_left _ hgg, hsub a has⟩
    · refine ⟨[a], List.mem_append_right _ (List.mem_map.2 ⟨a, ?_, rfl⟩), by simp⟩
      rw [List.mem_filter]
      refine ⟨ha, ?_⟩
      rw [Bool.not_eq_true', Bool.eq_false_iff]
      intro h
      obtain ⟨s, hs, h⟩ := List.any_eq_true.1 h
      exact hin ⟨s, hs, List.contains_iff_mem.1 h⟩
  · intro hs hnd
    exact seedOK_append (seedOK_foldl hs) (seedOK_singles (hnd.filter _)) apart
  · intro h1 hnd
    constructor
    · rw [List.pairwise_append]
      refine ⟨disjoint_foldl h1, ?_, fun g hgg h hh a ha => apart g hgg a ha h hh⟩
      rw [List.pairwise_map]
      refine (hnd.filter _).imp ?_
      intro a b hab
      simpa using Ne.symm hab
    · intro s hs
      obtain ⟨g, hgg, hsub⟩ := hg.covers s hs
      exact ⟨g, List.mem_append_left _ hgg, hsub⟩
  · intro hne s hs hs0
    subst hs0
    -- an empty set would stay a group of its own
    have key : ∀ (sets gs : List (List String)), ([] ∈ gs ∨ [] ∈ sets) →
        [] ∈ sets.foldl (fun gs s => addGroup s gs) gs := by
      intro sets
      induction sets with
      | nil => intro gs h; simpa using h
      | cons s sets ih =>
        intro gs h
        refine ih _ ?_
        have keep : ∀ gs : List (List String), [] ∈ gs → [] ∈ addGroup s gs := by
          intro gs
          induction gs with
          | nil => simp
          | cons g gs ihg =>
            intro hm
            simp only [addGroup]
            rcases List.mem_cons.1 hm with rfl | hm
            · simp
            · split
              · exact List.mem_cons_of_mem _ hm
              · exact List.mem_cons_of_mem _ (ihg hm)
        have new : ∀ gs : List (List String), [] ∈ addGroup [] gs := by
          intro gs
          induction gs with
          | nil => simp [addGroup]
          | cons g gs ihg => simp [addGroup, ihg]
        rcases h with h | h
        · exact Or.inl (keep gs h)
        · rcases List.mem_cons.1 h with rfl | h
          · exact Or.inl (new gs)
          · exact Or.inr h
    exact hne [] (List.mem_append_left _ (key _ [] (Or.inr hs))) rfl

/-! ## Assignments -/

/-- The value of the last group that contains the instance. -/
def lastVal (a : String) : List (List String × Nat) → Nat → Nat
  | [], d => d
  | (g, v) :: rest, d => lastVal a rest (if a ∈ g then v else d)

theorem foldl_set_get (v : Nat) : ∀ (idx : List Nat) (sel : List Nat) (k : Nat), k < sel.length →
    (idx.foldl (fun sel i => sel.set i v) sel).length = sel.length ∧
    (idx.foldl (fun sel i => sel.set i v) sel)[k]? = if k ∈ idx then some v else sel[k]?
  | [], sel, k, _ => by simp
  | i :: idx, sel, k, hk => by
    obtain ⟨h1, h2⟩ := foldl_set_get v idx (sel.set i v) k (by simpa using hk)
    rw [List.foldl_cons, h1, h2]
    refine ⟨by simp, ?_⟩
    by_cases hki : k ∈ idx
    · simp [hki]
    · by_cases e : i = k
      · subst e; simp [hki, hk]
      · simp [hki, e, List.getElem?_set_ne, Ne.symm e]

theorem foldl_set_length (v : Nat) : ∀ (idx : List Nat) (sel : List Nat),
    (idx.foldl (fun sel i => sel.set i v) sel).length = sel.length
  | [], _ => rfl
  | i :: idx, sel => by rw [List.foldl_cons, foldl_set_length v idx]; simp

theorem assign_spec {insts : List String} : ∀ {gv : List (List String × Nat)}
    {sel sel' : List Nat}, sel.length = insts.length → assign insts gv sel = some sel' →
    sel'.length = insts.length ∧ ∀ a ∈ insts, ∀ d, sel[insts.idxOf a]? = some d →
      sel'[insts.idxOf a]? = some (lastVal a gv d)
  | [], sel, sel', hl, h => by
    obtain rfl := Option.some.inj h
    exact ⟨hl, fun a _ d hd => hd⟩
  | (g, v) :: gv, sel, sel', hl, h => by
    simp only [assign] at h
    obtain ⟨idx, hidx, h⟩ := Option.bind_eq_some_iff.1 h
    have hlen := foldl_set_length v idx sel
    obtain ⟨h1, h2⟩ := assign_spec (by rw [hlen, hl]) h
    refine ⟨h1, fun a ha d hd => ?_⟩
    have hk : insts.idxOf a < sel.length := hl ▸ List.idxOf_lt_length_of_mem ha
    have hmem : insts.idxOf a ∈ idx ↔ a ∈ g := by
      constructor
      · intro hm
        obtain ⟨b, hb, hbi⟩ := mapM_mem_right hidx hm
        obtain ⟨hbin, e⟩ := indexOf_some.1 hbi
        rw [← (List.idxOf_inj hbin).1 e]
        exact hb
      · intro hm
        obtain ⟨i, hi, hi'⟩ := mapM_mem hidx hm
        rw [(indexOf_some.1 hi).2]
        exact hi'
    apply h2 a ha
    rw [(foldl_set_get v idx sel _ hk).2, hd]
    by_cases hag : a ∈ g <;> simp [hmem, hag]

theorem lastVal_const {a : String} {x : Nat} : ∀ {gv : List (List String × Nat)} {d : Nat},
    (∀ p ∈ gv, a ∈ p.1 → p.2 = x) → ((∃ p ∈ gv, a ∈ p.1) ∨ d = x) → lastVal a gv d = x
  | [], d, _, h => by rcases h with ⟨p, hp, -⟩ | h; simp at hp; exact h
  | (g, v) :: gv, d, h1, h2 => by
    rw [lastVal]
    refine lastVal_const (fun p hp => h1 p (List.mem_cons_of_mem _ hp)) ?_
    by_cases hag : a ∈ g
    · right; rw [if_pos hag]; exact h1 (g, v) (by simp) hag
    · rcases h2 with ⟨p, hp, hap⟩ | h2
      · rcases List.mem_cons.1 hp with rfl | hp
        · exact absurd hap hag
        · exact Or.inl ⟨p, hp, hap⟩
      · right; rw [if_neg hag]; exact h2

theorem lastVal_mem {a : String} : ∀ {gv : List (List String × Nat)} {d : Nat},
    (∃ p ∈ gv, a ∈ p.1) → ∃ p ∈ gv, a ∈ p.1 ∧ lastVal a gv d = p.2
  | [], d, h => by simp at h
  | (g, v) :: gv, d, h => by
    rw [lastVal]
    by_cases hr : ∃ p ∈ gv, a ∈ p.1
    · obtain ⟨p, hp, h1, h2⟩ := lastVal_mem (d := if a ∈ g then v else d) hr
      exact ⟨p, List.mem_cons_of_mem _ hp, h1, h2⟩
    · obtain ⟨p, hp, hap⟩ := h
      rcases List.mem_cons.1 hp with rfl | hp
      · refine ⟨(g, v), by simp, hap, ?_⟩
        refine lastVal_const (fun p hp hap' => absurd ⟨p, hp, hap'⟩ hr) (Or.inr ?_)
        rw [if_pos hap]
      · exact absurd ⟨p, hp, hap⟩ hr

theorem lastVal_injective {insts : List String} : ∀ {gs : List (List String)} {v w : List Nat},
    SeedOK gs → (∀ g ∈ gs, ∀ a ∈ g, a ∈ insts) → v.length = gs.length → w.length = gs.length →
    ∀ d : String → Nat, (∀ a ∈ insts, lastVal a (gs.zip v) (d a) = lastVal a (gs.zip w) (d a)) →
    v = w
  | [], v, w, _, _, hv, hw, _, _ => by
    rw [List.length_nil, List.length_eq_zero_iff] at hv hw
    rw [hv, hw]
  | g :: gs, v, w, ⟨⟨a, ha, hno⟩, hs⟩, hin, hv, hw, d, h => by
    cases v with
    | nil => simp at hv
    | cons x v =>
    cases w with
    | nil => simp at hw
    | cons y w =>
    simp only [List.zip_cons_cons, lastVal] at h
    have last : ∀ (u : List Nat) (z : Nat), lastVal a (gs.zip u) z = z := by
      intro u z
      refine lastVal_const (fun p hp hap => ?_) (Or.inr rfl)
      exact absurd hap (hno p.1 (List.of_mem_zip (by exact hp : (p.1, p.2) ∈ _)).1)
    have exy : x = y := by
      have := h a (hin g (by simp) a ha)
      rw [if_pos ha, if_pos ha, last, last] at this
      exact this
    subst exy
    congr 1
    exact lastVal_injective hs (fun g hg => hin g (List.mem_cons_of_mem _ hg))
      (by simpa using hv) (by simpa using hw) (fun b => if b ∈ g then x else d b) h

/-! ## The product -/

theorem mem_product {α : Type} : ∀ {ls : List (List α)} {l : List α},
    l ∈ product ls ↔ List.Forall₂ (fun a s => a ∈ s) l ls
  | [], l => by simp [product]
  | s :: ls, l => by
    simp only [product, List.mem_flatMap, List.mem_map]
    constructor
    · rintro ⟨a, ha, t, ht, rfl⟩
      exact .cons ha (mem_product.1 ht)
    · intro h
      cases h with
      | cons ha ht => exact ⟨_, ha, _, mem_product.2 ht, rfl⟩

theorem nodup_product {α : Type} : ∀ {ls : List (List α)}, (∀ l ∈ ls, l.Nodup) →
    (product ls).Nodup
  | [], _ => by simp [product]
  | s :: ls, h => by
    rw [product, List.nodup_flatMap]
    constructor
    · intro a _
      exact (nodup_product fun l hl => h l (List.mem_cons_of_mem _ hl)).map
        (by intro x y hxy; simpa using hxy)
    · refine (h s (by simp)).imp ?_
      intro a b hab
      simp only [Function.onFun, List.disjoint_left, List.mem_map]
      rintro l ⟨t, -, rfl⟩ ⟨t', -, h⟩
      simp only [List.cons.injEq] at h
      exact hab h.1.symm

theorem variantLoop_eq (m : Int) (insts : List String) (gs : List (List String)) :
    ∀ vs, variantLoop m insts gs vs = (if m < 1 then vs.take 1 else vs).mapM
      fun v => assign insts (gs.zip v) (List.replicate insts.length 0)
  | [] => by simp [variantLoop]
  | v :: vs => by
    simp only [variantLoop]
    by_cases hm : m < 1
    · simp only [hm, if_true]
      simp [List.mapM_cons]
    · simp only [hm, if_false]
      have ih := variantLoop_eq m insts gs vs
      simp only [hm, if_false] at ih
      rw [ih]
      simp [List.mapM_cons]

/-- The parts of a successful enumeration. -/
theorem variants_parts {pick : List String → Option String} {cs : List Cons}
    {insts : List String} {counts : List (String × Nat)} {m : Int} {R : List (List Nat)}
    (h : enumerateBlockVariants pick cs insts counts m = some R) :
    ∃ gs ns, groups cs insts = some gs ∧
      List.Forall₂ (fun g n => ∃ i, pick g = some i ∧ counts.lookup i = some n) gs ns ∧
      (if m < 1 then (product (ns.map List.range)).take 1 else product (ns.map List.range)).mapM
        (fun v => assign insts (gs.zip v) (List.replicate insts.length 0)) = some R := by
  unfold enumerateBlockVariants at h
  obtain ⟨gs, hgs, h⟩ := Option.bind_eq_some_iff.1 h
  obtain ⟨ns, hns, h⟩ := Option.bind_eq_some_iff.1 h
  refine ⟨gs, ns, hgs, ?_, by rw [← variantLoop_eq]; exact h⟩
  refine (Verif.Hier.mapM_forall₂ hns).imp ?_
  intro g n hgn
  obtain ⟨i, h1, h2⟩ := Option.bind_eq_some_iff.1 hgn
  exact ⟨i, h1, h2⟩

theorem mem_zip_left {α β : Type} : ∀ {l : List α} {r : List β}, l.length = r.length →
    ∀ a ∈ l, ∃ b, (a, b) ∈ l.zip r
  | [], _, _, a, ha => by simp at ha
  | x :: l, [], h, _, _ => by simp at h
  | x :: l, y :: r, h, a, ha => by
    rcases List.mem_cons.1 ha with rfl | ha
    · exact ⟨y, by simp⟩
    · obtain ⟨b, hb⟩ := mem_zip_left (by simpa using h) a ha
      exact ⟨b, by simp [hb]⟩

/-- The values chosen for the groups. -/
theorem zip_bound {pick : List String → Option String} {counts : List (String × Nat)} :
    ∀ {gs : List (List String)} {ns v : List Nat},
    List.Forall₂ (fun g n => ∃ i, pick g = some i ∧ counts.lookup i = some n) gs ns →
    v ∈ product (ns.map List.range) →
    v.length = gs.length ∧
      ∀ p ∈ gs.zip v, ∃ i n, pick p.1 = some i ∧ counts.lookup i = some n ∧ p.2 < n := by
  intro gs ns v h1 h2
  rw [mem_product] at h2
  induction h1 generalizing v with
  | nil => cases h2; simp
  | cons hg _ ih =>
    rw [List.map_cons] at h2
    cases h2 with
    | cons hx ht =>
      obtain ⟨h3, h4⟩ := ih ht
      refine ⟨by simpa using h3, ?_⟩
      intro p hp
      rcases List.mem_cons.1 hp with rfl | hp
      · obtain ⟨i, h5, h6⟩ := hg
        exact ⟨i, _, h5, h6, by simpa using hx⟩
      · exact h4 p hp

/-! ## C31 -/

/-- C31, first part.  Every assignment lists one variant for each instance, and if the instances of
each constraint have equally many variants, these variants exist. -/
theorem C31_variants_exist {pick : List String → Option String} (hpick : PicksMember pick)
    {cs ex : List Cons} {insts : List String} {counts : List (String × Nat)} {m : Int}
    {R : List (List Nat)} (hex : expand cs = some ex)
    (heq : ∀ s, IsSameTemplate ex s → ∀ a ∈ s, ∀ b ∈ s, counts.lookup a = counts.lookup b)
    (h : enumerateBlockVariants pick cs insts counts m = some R) :
    ∀ sel ∈ R, sel.length = insts.length ∧
      ∀ a ∈ insts, ∃ v n, sel[insts.idxOf a]? = some v ∧ counts.lookup a = some n ∧ v < n := by
  intro sel hsel
  obtain ⟨gs, ns, hgs, hns, hR⟩ := variants_parts h
  obtain ⟨hlink, hcov, -⟩ := groups_spec hex hgs
  obtain ⟨v, hv, hass⟩ := mapM_mem_right hR hsel
  have hv' : v ∈ product (ns.map List.range) := by
    split at hv
    · exact List.mem_of_mem_take hv
    · exact hv
  obtain ⟨hlen, hbound⟩ := zip_bound hns hv'
  obtain ⟨h1, h2⟩ := assign_spec (by simp) hass
  refine ⟨h1, fun a ha => ?_⟩
  have h3 := h2 a ha 0 (by simp [List.idxOf_lt_length_of_mem ha])
  obtain ⟨g, hg, hag⟩ := hcov a ha
  obtain ⟨x, hx⟩ := mem_zip_left hlen.symm g hg
  obtain ⟨p, hp, hap, e⟩ := lastVal_mem (d := 0) ⟨(g, x), hx, hag⟩
  obtain ⟨i, n, hi, hn, hlt⟩ := hbound p hp
  have hp1 : p.1 ∈ gs := (List.of_mem_zip (by exact hp : (p.1, p.2) ∈ _)).1
  have hip : i ∈ p.1 := by
    obtain ⟨b, hb, hb'⟩ := (hpick p.1).2 (List.ne_nil_of_mem hap)
    rw [hi] at hb'
    obtain rfl := Option.some.inj hb'
    exact hb
  have hsame : counts.lookup a = counts.lookup i := by
    have hl := hlink p.1 hp1 a hap i hip
    clear hn hlt hi hip
    induction hl with
    | refl => rfl
    | tail _ hst ih =>
      obtain ⟨s, hs, h5, h6⟩ := hst
      rw [ih, heq s (mem_sameTemplates.1 hs) _ h5 _ h6]
  exact ⟨p.2, n, by rw [h3, e], by rw [hsame, hn], hlt⟩

/-- C31, second part: no assignment is listed twice. -/
theorem C31_no_duplicates {pick : List String → Option String} (hpick : PicksMember pick)
    {cs : List Cons} {insts : List String} (hnd : insts.Nodup) {counts : List (String × Nat)}
    {m : Int} {R : List (List Nat)}
    (h : enumerateBlockVariants pick cs insts counts m = some R) : R.Nodup := by
  obtain ⟨gs, ns, hgs, hns, hR⟩ := variants_parts h
  obtain ⟨ex, hex⟩ : ∃ ex, expand cs = some ex := by
    unfold groups at hgs
    obtain ⟨ex, hex, -⟩ := Option.bind_eq_some_iff.1 hgs
    exact ⟨ex, hex⟩
  obtain ⟨-, -, hseed, -, hne⟩ := groups_spec hex hgs
  have hgne : ∀ g ∈ gs, g ≠ [] := by
    intro g hg h0
    clear hR hgs hseed hne
    induction hns with
    | nil => simp at hg
    | cons hgn _ ih =>
      rcases List.mem_cons.1 hg with rfl | hg
      · obtain ⟨i, hi, -⟩ := hgn
        rw [(hpick g).1 h0] at hi
        simp at hi
      · exact ih hg
  have hs := hseed (hne hgne) hnd
  have hndp : (if m < 1 then (product (ns.map List.range)).take 1
      else product (ns.map List.range)).Nodup := by
    have := nodup_product (ls := ns.map List.range) (by
      intro l hl
      obtain ⟨n, -, rfl⟩ := List.mem_map.1 hl
      exact List.nodup_range)
    split
    · exact this.sublist (List.take_sublist _ _)
    · exact this
  have hin : ∀ v, v ∈ (if m < 1 then (product (ns.map List.range)).take 1
      else product (ns.map List.range)) → v ∈ product (ns.map List.range) := by
    intro v hv
    split at hv
    · exact List.mem_of_mem_take hv
    · exact hv
  generalize (if m < 1 then (product (ns.map List.range)).take 1
      else product (ns.map List.range)) = vs at hR hndp hin
  have ginj : ∀ v ∈ vs, ∀ w ∈ vs, ∀ sel,
      assign insts (gs.zip v) (List.replicate insts.length 0) = some sel →
      assign insts (gs.zip w) (List.replicate insts.length 0) = some sel → v = w := by
    intro v hv w hw sel h1 h2
    obtain ⟨-, g1⟩ := assign_spec (by simp) h1
    obtain ⟨-, g2⟩ := assign_spec (by simp) h2
    have lv := (zip_bound hns (hin v hv)).1
    have lw := (zip_bound hns (hin w hw)).1
    refine lastVal_injective (insts := insts) hs ?_ lv lw (fun _ => 0) (fun a ha => ?_)
    · -- the instances of all groups were looked up
      have key : ∀ (gv : List (List String × Nat)) (s s' : List Nat),
          assign insts gv s = some s' → ∀ p ∈ gv, ∀ a ∈ p.1, a ∈ insts := by
        intro gv
        induction gv with
        | nil => simp
        | cons q gv ih =>
          intro s s' hh p hp a ha
          obtain ⟨g, x⟩ := q
          simp only [assign] at hh
          obtain ⟨idx, hidx, hh⟩ := Option.bind_eq_some_iff.1 hh
          rcases List.mem_cons.1 hp with rfl | hp
          · obtain ⟨i, hi, -⟩ := mapM_mem hidx ha
            exact (indexOf_some.1 hi).1
          · exact ih _ _ hh p hp a ha
      intro g hg a ha
      obtain ⟨x, hx⟩ := mem_zip_left lv.symm g hg
      exact key _ _ _ h1 (g, x) hx a ha
    · have e1 := g1 a ha 0 (by simp [List.idxOf_lt_length_of_mem ha])
      have e2 := g2 a ha 0 (by simp [List.idxOf_lt_length_of_mem ha])
      rw [e1] at e2
      exact Option.some.inj e2
  have hf := Verif.Hier.mapM_forall₂ hR
  clear hR hin h
  induction hf with
  | nil => exact List.nodup_nil
  | @cons v sel vs R h1 hf ih =>
    rw [List.nodup_cons] at hndp ⊢
    refine ⟨fun hmem => ?_, ih hndp.2
      (fun a ha b hb => ginj a (List.mem_cons_of_mem _ ha) b (List.mem_cons_of_mem _ hb))⟩
    have : ∃ w ∈ vs, assign insts (gs.zip w) (List.replicate insts.length 0) = some sel := by
      clear ih ginj hndp
      induction hf with
      | nil => simp at hmem
      | cons h2 _ ih =>
        rcases List.mem_cons.1 hmem with rfl | hmem
        · exact ⟨_, by simp, h2⟩
        · obtain ⟨w, hw, h3⟩ := ih hmem
          exact ⟨w, List.mem_cons_of_mem _ hw, h3⟩
    obtain ⟨w, hw, h2⟩ := this
    have := ginj v (by simp) w (List.mem_cons_of_mem _ hw) sel h1 h2
    exact hndp.1 (this ▸ hw)

/-- C31, third part, for constraints each of which touches only one class of connected instances
before it: connected instances have the same variant.  What is missing: a constraint may connect two
classes, see `C31_violated_same_template`. -/
theorem C31_same_variant_partial {pick : List String → Option String}
    {cs ex : List Cons} {insts : List String} (hnd : insts.Nodup) {counts : List (String × Nat)}
    {m : Int} {R : List (List Nat)} (hex : expand cs = some ex)
    (hone : OneClass (sameTemplates ex))
    (h : enumerateBlockVariants pick cs insts counts m = some R) :
    ∀ sel ∈ R, ∀ a ∈ insts, ∀ b ∈ insts,
      Relation.ReflTransGen (fun x y => ∃ s, IsSameTemplate ex s ∧ x ∈ s ∧ y ∈ s) a b →
      sel[insts.idxOf a]? = sel[insts.idxOf b]? := by
  intro sel hsel a ha b hb hab
  obtain ⟨gs, ns, hgs, hns, hR⟩ := variants_parts h
  obtain ⟨-, hcov, -, hdis, -⟩ := groups_spec hex hgs
  obtain ⟨hd, hsub⟩ := hdis hone hnd
  obtain ⟨v, hv, hass⟩ := mapM_mem_right hR hsel
  have hv' : v ∈ product (ns.map List.range) := by
    split at hv
    · exact List.mem_of_mem_take hv
    · exact hv
  obtain ⟨hlen, -⟩ := zip_bound hns hv'
  obtain ⟨-, h2⟩ := assign_spec (by simp) hass
  have hsymm : Std.Symm (fun a b : List String => List.Disjoint a b) :=
    ⟨fun a b h => List.disjoint_symm h⟩
  -- both are in one group
  obtain ⟨g, hg, hag⟩ := hcov a ha
  have hbg : b ∈ g := by
    clear h2 hb
    induction hab with
    | refl => exact hag
    | tail _ hst ih =>
      obtain ⟨s, hs, h5, h6⟩ := hst
      obtain ⟨g', hg', hsg⟩ := hsub s (mem_sameTemplates.2 hs)
      by_cases e : g = g'
      · rw [e]; exact hsg _ h6
      · exact absurd (hsg _ h5) (fun h7 => hd.forall hg hg' e ih h7)
  obtain ⟨x, hx⟩ := mem_zip_left hlen.symm g hg
  have val : ∀ c ∈ g, lastVal c (gs.zip v) 0 = x := by
    intro c hc
    refine lastVal_const ?_ (Or.inl ⟨(g, x), hx, hc⟩)
    clear hass h2 hv hv' hns hcov hsub hgs hdis hR h
    intro p hp hcp
    induction gs generalizing v with
    | nil => simp at hp
    | cons g0 gs ih =>
      cases v with
      | nil => simp at hp
      | cons y v =>
        rw [List.pairwise_cons] at hd
        simp only [List.zip_cons_cons, List.mem_cons] at hp hx
        rcases hp with rfl | hp
        · rcases hx with e | hx
          · exact (congrArg Prod.snd e).symm
          · exact absurd hc (hd.1 g (List.of_mem_zip hx).1 hcp)
        · rcases hx with e | hx
          · simp only [Prod.mk.injEq] at e
            rw [e.1] at hc
            exact absurd hcp (hd.1 p.1
              (List.of_mem_zip (by exact hp : (p.1, p.2) ∈ _)).1 hc)
          · exact ih hd.2 v (by simpa using hlen) (List.of_mem_zip hx).1 hx hp
  rw [h2 a ha 0 (by simp [List.idxOf_lt_length_of_mem ha]),
    h2 b hb 0 (by simp [List.idxOf_lt_length_of_mem hb]), val a hag, val b hbg]

/-- C31: conversely every choice of existing variants which is the same for connected instances is
listed (if the limit is at least 1). -/
theorem C31_complete {pick : List String → Option String} (hpick : PicksMember pick)
    {cs ex : List Cons} {insts : List String} (hnd : insts.Nodup) {counts : List (String × Nat)}
    {m : Int} (hm : 1 ≤ m) {R : List (List Nat)} (hex : expand cs = some ex)
    (h : enumerateBlockVariants pick cs insts counts m = some R) (t : String → Nat)
    (ht : ∀ s, IsSameTemplate ex s → ∀ a ∈ s, ∀ b ∈ s, t a = t b)
    (hlt : ∀ a n, counts.lookup a = some n → t a < n) : insts.map t ∈ R := by
  obtain ⟨gs, ns, hgs, hns, hR⟩ := variants_parts h
  obtain ⟨hlink, hcov, -⟩ := groups_spec hex hgs
  rw [if_neg (by omega)] at hR
  -- the choice of the groups
  obtain ⟨v, hv, hval⟩ : ∃ v, v ∈ product (ns.map List.range) ∧
      ∀ p ∈ gs.zip v, ∃ i, pick p.1 = some i ∧ p.2 = t i := by
    clear hR hgs hcov hlink
    induction hns with
    | nil => exact ⟨[], by simp [product], by simp⟩
    | cons hg _ ih =>
      obtain ⟨v, h1, h2⟩ := ih
      obtain ⟨i, h3, h4⟩ := hg
      refine ⟨t i :: v, ?_, ?_⟩
      · rw [mem_product] at h1 ⊢
        exact .cons (List.mem_range.2 (hlt i _ h4)) h1
      · intro p hp
        rcases List.mem_cons.1 hp with rfl | hp
        · exact ⟨i, h3, rfl⟩
        · exact h2 p hp
  obtain ⟨sel, hass, hsel⟩ := mapM_mem hR hv
  obtain ⟨hlen, -⟩ := zip_bound hns hv
  obtain ⟨h1, h2⟩ := assign_spec (by simp) hass
  have : sel = insts.map t := by
    apply List.ext_getElem?
    intro k
    by_cases hk : k < insts.length
    · have ha : insts[k] ∈ insts := List.getElem_mem hk
      have := h2 insts[k] ha 0 (by simp [List.idxOf_lt_length_of_mem ha])
      rw [hnd.idxOf_getElem k hk] at this
      rw [this, List.getElem?_map, List.getElem?_eq_getElem hk, Option.map_some]
      congr 1
      obtain ⟨g, hg, hag⟩ := hcov _ ha
      obtain ⟨x, hx⟩ := mem_zip_left hlen.symm g hg
      obtain ⟨p, hp, hap, e⟩ := lastVal_mem (d := 0) ⟨(g, x), hx, hag⟩
      obtain ⟨i, hi, hpi⟩ := hval p hp
      have hp1 : p.1 ∈ gs := (List.of_mem_zip (by exact hp : (p.1, p.2) ∈ _)).1
      have hip : i ∈ p.1 := by
        obtain ⟨b, hb, hb'⟩ := (hpick p.1).2 (List.ne_nil_of_mem hap)
        rw [hi] at hb'
        obtain rfl := Option.some.inj hb'
        exact hb
      rw [e, hpi]
      have hl := hlink p.1 hp1 i hip _ hap
      clear hi hpi hip this e hap
      generalize insts[k] = y at hl
      induction hl with
      | refl => rfl
      | tail _ hst ih =>
        obtain ⟨s, hs, h5, h6⟩ := hst
        rw [ih, ht s (mem_sameTemplates.1 hs) _ h5 _ h6]
    · rw [List.getElem?_eq_none (by omega), List.getElem?_eq_none (by simpa using hk)]
  exact this ▸ hsel

/-- Non-trivial hypotheses: two groups and an isolated instance. -/
example : enumerateBlockVariants List.head? [.sameTemplate ["A", "B"], .sameTemplate ["B", "C"]]
    ["A", "B", "C", "D"] [("A", 2), ("B", 2), ("C", 2), ("D", 1)] 10 =
    some [[0, 0, 0, 0], [1, 1, 1, 0]] := by decide +kernel

theorem picksMember_head : PicksMember List.head? := by
  intro g
  cases g <;> simp

/-- C31 is violated: with the constraints {A, B}, {C, D}, {B, C} all four instances are connected,
but `A` and `D` get different variants. -/
theorem C31_violated_same_template :
    ∃ R, enumerateBlockVariants List.head?
        [.sameTemplate ["A", "B"], .sameTemplate ["C", "D"], .sameTemplate ["B", "C"]]
        ["A", "B", "C", "D"] [("A", 2), ("B", 2), ("C", 2), ("D", 2)] 10 = some R ∧
      [0, 0, 1, 1] ∈ R := by
  refine ⟨_, rfl, by decide +kernel⟩

/-- C31 is violated: the limit has no effect. -/
theorem C31_violated_limit :
    ∃ R, enumerateBlockVariants List.head? [] ["A", "B"] [("A", 3), ("B", 3)] 2 = some R ∧
      R.length = 9 := by
  refine ⟨_, rfl, by decide +kernel⟩

end Verif.SeqPair

import Mathlib.Logic.Function.Basic
import Mathlib.Logic.Relation
import Mathlib.Data.List.Basic
import Mathlib.Data.List.Nodup
import Verif.Pnr.Route

/-!
# C87: compiler settings propagate to the hierarchies below

Model of `CreateDatabase.propagate_const_top_to_bottom` (`align/compiler/create_database.py`, 61-80).

Simplifications: subcircuits are numbered by their position in the library, larger numbers are models that are not subcircuits;
a constraint is one of the two kinds of settings or another one, with its content as a number and its flag; the constraints of
each subcircuit are a function; `ord` is the order in which a set is iterated over; `fuel` bounds the depth of the recursion (the
theorem shows that one more than the number of subcircuits is enough).
-/

namespace Verif.Settings

/-- A constraint: is it a setting (`ConfigureCompiler`, `DoNotUseLib`), what it says, and is it to be propagated. -/
structure Con where
  setting : Bool
  content : Nat
  propagate : Bool
  deriving DecidableEq

/-- The subcircuits as the models of their elements. -/
abbrev Lib := List (List Nat)

/-- The constraints of each subcircuit. -/
abbrev Cons := Nat → List Con

/-- `all_subckt` (63-64). -/
def subs (ord : List Nat → List Nat) (L : Lib) (t : List Nat) (n : Nat) : Option (List Nat) :=
  (L[n]?).map fun ms => (ord (ms.filter fun m => decide (m < L.length)).eraseDups).filter fun m => decide (m ∉ t)

/-- The constraint for one child (74-77). -/
def give (x : Con) (l : List Con) : List Con := if x ∉ l ∧ x.propagate then l ++ [x] else l

/-- The constraint for all children (67-77). -/
def giveAll (kids : List Nat) (C : Cons) (x : Con) : Cons :=
  if x.setting then kids.foldl (fun C k => Function.update C k (give x (C k))) C else C

/-- `propagate_const_top_to_bottom` (61-80): the constraints and `traversed`. -/
def prop (ord : List Nat → List Nat) (L : Lib) : Nat → Cons × List Nat → Nat → Option (Cons × List Nat)
  | 0, _, _ => none
  | fuel + 1, st, n => (subs ord L st.2 n).bind fun kids =>
    if kids = [] then some st
    else kids.foldlM (prop ord L fuel) ((st.1 n).foldl (giveAll kids) st.1, st.2 ++ kids)

/-- The call in `read_inputs` (42). -/
def propagate (ord : List Nat → List Nat) (L : Lib) (C : Cons) (top : Nat) : Option Cons :=
  (prop ord L (L.length + 1) (C, [top]) top).map Prod.fst

/-! ## Specification -/

/-- An element of subcircuit `p` is an instance of subcircuit `i`. -/
def Uses (L : Lib) (p i : Nat) : Prop := ∃ ms, L[p]? = some ms ∧ i ∈ ms ∧ i < L.length

/-- `i` is below `j`. -/
def Below (L : Lib) : Nat → Nat → Prop := Relation.TransGen (Uses L)

/-- The settings of `j` reach all subcircuits below. -/
def Reaches (L : Lib) (C C' : Cons) (j : Nat) : Prop :=
  ∀ i, Below L j i → ∀ x ∈ C j, x.setting = true → x.propagate = true → x ∈ C' i

/-- Nothing is lost, and only settings of subcircuits further up are added, each once. -/
structure Added (L : Lib) (C C' : Cons) (top : Nat) : Prop where
  keep : ∀ i, ∃ l, C' i = C i ++ l ∧ l.Nodup ∧ ∀ x ∈ l, x ∉ C i
  only : ∀ i, ∀ x ∈ C' i, x ∈ C i ∨ (x.setting = true ∧ x.propagate = true ∧ ∃ j, (j = top ∨ Below L top j) ∧ Below L j i ∧ x ∈ C j)

/-! ## Proofs -/

variable {ord : List Nat → List Nat} {L : Lib}

theorem mem_give {x y : Con} {l : List Con} : y ∈ give x l ↔ y ∈ l ∨ (y = x ∧ x.propagate = true) := by
  unfold give
  split_ifs with h
  · simp [h.2]
  · constructor
    · exact Or.inl
    · rintro (h' | ⟨rfl, hp⟩)
      · exact h'
      · by_contra hy
        exact h ⟨hy, hp⟩

theorem give_keep (x : Con) (l : List Con) : ∃ a, give x l = l ++ a ∧ a.Nodup ∧ ∀ y ∈ a, y ∉ l := by
  unfold give
  split_ifs with h
  · exact ⟨[x], rfl, by simp, by simp [h.1]⟩
  · exact ⟨[], by simp, by simp, by simp⟩

/-- Kept with new ones at the end. -/
def Grows (l l' : List Con) : Prop := ∃ a, l' = l ++ a ∧ a.Nodup ∧ ∀ y ∈ a, y ∉ l

theorem Grows.refl (l : List Con) : Grows l l := ⟨[], by simp, by simp, by simp⟩

theorem Grows.trans {a b c : List Con} (h : Grows a b) (h' : Grows b c) : Grows a c := by
  obtain ⟨u, rfl, hu, hn⟩ := h
  obtain ⟨v, rfl, hv, hm⟩ := h'
  refine ⟨u ++ v, by simp, ?_, ?_⟩
  · rw [List.nodup_append]
    refine ⟨hu, hv, ?_⟩
    rintro x hx y hy rfl
    exact hm x hy (by simp [hx])
  · intro y hy
    rcases List.mem_append.1 hy with hy | hy
    · exact hn y hy
    · intro hl
      exact hm y hy (by simp [hl])

theorem Grows.mem {a b : List Con} (h : Grows a b) {x : Con} (hx : x ∈ a) : x ∈ b := by
  obtain ⟨u, rfl, _⟩ := h; simp [hx]

theorem foldl_give : ∀ (kids : List Nat) (C : Cons) (x : Con), kids.Nodup → ∀ i,
    kids.foldl (fun C k => Function.update C k (give x (C k))) C i = if i ∈ kids then give x (C i) else C i
  | [], C, x, _, i => by simp
  | k :: kids, C, x, hn, i => by
    rw [List.nodup_cons] at hn
    rw [List.foldl_cons, foldl_give kids _ x hn.2 i]
    by_cases hik : i = k
    · subst hik
      simp [hn.1]
    · simp [hik]

theorem giveAll_keep {kids : List Nat} (hn : kids.Nodup) (C : Cons) (x : Con) (i : Nat) : Grows (C i) (giveAll kids C x i) ∧ (i ∉ kids → giveAll kids C x i = C i) ∧
    ∀ y, y ∈ giveAll kids C x i ↔ y ∈ C i ∨ (i ∈ kids ∧ y = x ∧ x.setting = true ∧ x.propagate = true) := by
  unfold giveAll
  by_cases hs : x.setting
  · simp only [hs, if_true]
    rw [foldl_give kids C x hn i]
    by_cases hi : i ∈ kids
    · simp only [hi, if_true, not_true_eq_false, false_imp_iff, true_and]
      exact ⟨give_keep x _, fun y => mem_give⟩
    · simp only [hi, if_false, not_false_eq_true, true_imp_iff, false_and, or_false]
      exact ⟨.refl _, by simp⟩
  · simp [hs, Grows.refl]

theorem foldl_giveAll {kids : List Nat} (hn : kids.Nodup) : ∀ (src : List Con) (C : Cons) (i : Nat), Grows (C i) (src.foldl (giveAll kids) C i) ∧
    (i ∉ kids → src.foldl (giveAll kids) C i = C i) ∧
    ∀ y, y ∈ src.foldl (giveAll kids) C i ↔ y ∈ C i ∨ (i ∈ kids ∧ y ∈ src ∧ y.setting = true ∧ y.propagate = true)
  | [], C, i => ⟨.refl _, fun _ => rfl, by simp⟩
  | x :: src, C, i => by
    obtain ⟨a1, a2, a3⟩ := giveAll_keep hn C x i
    obtain ⟨b1, b2, b3⟩ := foldl_giveAll hn src (giveAll kids C x) i
    rw [List.foldl_cons]
    refine ⟨a1.trans b1, fun h => by rw [b2 h, a2 h], ?_⟩
    intro y
    rw [b3, a3]
    constructor
    · rintro ((h | ⟨h1, rfl, h2⟩) | ⟨h1, h2, h3⟩)
      · exact Or.inl h
      · exact Or.inr ⟨h1, by simp, h2⟩
      · exact Or.inr ⟨h1, by simp [h2], h3⟩
    · rintro (h | ⟨h1, h2, h3⟩)
      · exact Or.inl (Or.inl h)
      · rcases List.mem_cons.1 h2 with rfl | h2
        · exact Or.inl (Or.inr ⟨h1, rfl, h3⟩)
        · exact Or.inr ⟨h1, h2, h3⟩

theorem subs_spec (ho : ∀ l, (ord l).Perm l) {t : List Nat} {n : Nat} {kids : List Nat} (h : subs ord L t n = some kids) :
    kids.Nodup ∧ ∀ m, m ∈ kids ↔ Uses L n m ∧ m ∉ t := by
  unfold subs at h
  rw [Option.map_eq_some_iff] at h
  obtain ⟨ms, hms, rfl⟩ := h
  constructor
  · apply List.Nodup.filter
    rw [(ho _).nodup_iff]
    exact Route.nodup_eraseDups _ _ (Nat.le_refl _)
  · intro m
    rw [List.mem_filter, (ho _).mem_iff, List.mem_eraseDups, List.mem_filter]
    simp only [decide_eq_true_eq, Uses, hms, Option.some.injEq, exists_eq_left']

/-- What a call, or a loop of calls, for the subcircuits `ns` does. -/
structure Does (L : Lib) (ns : List Nat) (st st' : Cons × List Nat) : Prop where
  sub : ∀ i ∈ st.2, i ∈ st'.2
  same : ∀ i, i ∈ st.2 ∨ i ∉ st'.2 → st'.1 i = st.1 i
  grows : ∀ i, Grows (st.1 i) (st'.1 i)
  parent : ∀ i ∈ st'.2, i ∉ st.2 → ∃ p ∈ st'.2, (p ∈ ns ∨ ∃ n ∈ ns, Below L n p) ∧ Uses L p i ∧
    ∀ x ∈ st'.1 p, x.setting = true → x.propagate = true → x ∈ st'.1 i
  closed : ∀ p, p ∈ ns ∨ (p ∈ st'.2 ∧ p ∉ st.2) → ∀ i, Uses L p i → i ∈ st'.2
  all : ∀ x : Con, x.setting = true → x.propagate = true → (∀ n ∈ ns, x ∈ st.1 n) → ∀ i ∈ st'.2, i ∉ st.2 → x ∈ st'.1 i
  only : ∀ i, ∀ x ∈ st'.1 i, x ∈ st.1 i ∨ (x.setting = true ∧ x.propagate = true ∧
    ∃ j, (j ∈ ns ∨ ∃ n ∈ ns, Below L n j) ∧ Below L j i ∧ x ∈ st.1 j)

theorem Does.refl (ns : List Nat) (st : Cons × List Nat) (h : ∀ p ∈ ns, ∀ i, Uses L p i → i ∈ st.2) : Does L ns st st :=
  ⟨fun _ h => h, fun _ _ => rfl, fun _ => .refl _, fun i h h' => absurd h h', fun p hp i hi => by
    rcases hp with hp | ⟨h1, h2⟩
    · exact h p hp i hi
    · exact absurd h1 h2, fun _ _ _ _ i h h' => absurd h h', fun i x hx => Or.inl hx⟩

theorem Does.append {ns ms : List Nat} {s s' s'' : Cons × List Nat} (hm : ∀ n ∈ ms, n ∈ s.2) (h : Does L ns s s') (h' : Does L ms s' s'') :
    Does L (ns ++ ms) s s'' := by
  refine ⟨fun i hi => h'.sub i (h.sub i hi), ?_, fun i => (h.grows i).trans (h'.grows i), ?_, ?_, ?_, ?_⟩
  · intro i hi
    rw [h'.same i (hi.imp (h.sub i) id), h.same i (hi.imp id fun hi hc => hi (h'.sub i hc))]
  · intro i hi hn
    by_cases hs : i ∈ s'.2
    · obtain ⟨p, p1, p2, p3, p4⟩ := h.parent i hs hn
      refine ⟨p, h'.sub p p1, ?_, p3, ?_⟩
      · rcases p2 with p2 | ⟨n, n1, n2⟩
        · exact Or.inl (by simp [p2])
        · exact Or.inr ⟨n, by simp [n1], n2⟩
      · intro x hx h1 h2
        rw [h'.same p (Or.inl p1)] at hx
        exact (h'.grows i).mem (p4 x hx h1 h2)
    · obtain ⟨p, p1, p2, p3, p4⟩ := h'.parent i hi hs
      refine ⟨p, p1, ?_, p3, p4⟩
      rcases p2 with p2 | ⟨n, n1, n2⟩
      · exact Or.inl (by simp [p2])
      · exact Or.inr ⟨n, by simp [n1], n2⟩
  · intro p hp i hi
    have : (p ∈ ns ∨ (p ∈ s'.2 ∧ p ∉ s.2)) ∨ (p ∈ ms ∨ (p ∈ s''.2 ∧ p ∉ s'.2)) := by
      rcases hp with hp | ⟨h1, h2⟩
      · rcases List.mem_append.1 hp with hp | hp
        · exact Or.inl (Or.inl hp)
        · exact Or.inr (Or.inl hp)
      · by_cases h3 : p ∈ s'.2
        · exact Or.inl (Or.inr ⟨h3, h2⟩)
        · exact Or.inr (Or.inr ⟨h1, h3⟩)
    rcases this with hp | hp
    · exact h'.sub i (h.closed p hp i hi)
    · exact h'.closed p hp i hi
  · intro x h1 h2 hall i hi hn
    by_cases hs : i ∈ s'.2
    · exact (h'.grows i).mem (h.all x h1 h2 (fun n hn => hall n (by simp [hn])) i hs hn)
    · exact h'.all x h1 h2 (fun n hn => (h.grows n).mem (hall n (by simp [hn]))) i hi hs
  · intro i x hx
    rcases h'.only i x hx with hx | ⟨h1, h2, j, j1, j2, j3⟩
    · rcases h.only i x hx with hx | ⟨h1, h2, j, j1, j2⟩
      · exact Or.inl hx
      · refine Or.inr ⟨h1, h2, j, ?_, j2⟩
        rcases j1 with j1 | ⟨n, n1, n2⟩
        · exact Or.inl (by simp [j1])
        · exact Or.inr ⟨n, by simp [n1], n2⟩
    · rcases h.only j x j3 with hx | ⟨h3, h4, j', k1, k2, k3⟩
      · refine Or.inr ⟨h1, h2, j, ?_, j2, hx⟩
        rcases j1 with j1 | ⟨n, n1, n2⟩
        · exact Or.inl (by simp [j1])
        · exact Or.inr ⟨n, by simp [n1], n2⟩
      · refine Or.inr ⟨h1, h2, j', ?_, k2.trans j2, k3⟩
        rcases k1 with k1 | ⟨n, n1, n2⟩
        · exact Or.inl (by simp [k1])
        · exact Or.inr ⟨n, by simp [n1], n2⟩

/-- What is not yet traversed. -/
def open_ (L : Lib) (t : List Nat) : List Nat := (List.range L.length).filter fun i => decide (i ∉ t)

theorem open_le {t t' : List Nat} (h : ∀ i ∈ t, i ∈ t') : (open_ L t').length ≤ (open_ L t).length := by
  apply List.Sublist.length_le
  unfold open_
  apply List.monotone_filter_right
  intro i hi
  simp only [decide_eq_true_eq] at hi ⊢
  exact fun hc => hi (h i hc)

theorem open_lt {t t' : List Nat} (h : ∀ i ∈ t, i ∈ t') {k : Nat} (hk : k < L.length) (hn : k ∉ t) (hk' : k ∈ t') : (open_ L t').length < (open_ L t).length := by
  have hle := open_le (L := L) h
  rcases Nat.lt_or_eq_of_le hle with h1 | h1
  · exact h1
  · exfalso
    have hs : (open_ L t').Sublist (open_ L t) := by
      unfold open_
      apply List.monotone_filter_right
      intro i hi
      simp only [decide_eq_true_eq] at hi ⊢
      exact fun hc => hi (h i hc)
    have he := hs.eq_of_length h1
    have : k ∈ open_ L t := by simp [open_, hk, hn]
    rw [← he] at this
    simp [open_, hk'] at this

theorem loop_does {f : Cons × List Nat → Nat → Option (Cons × List Nat)} {P : List Nat → Prop} (hP : ∀ t t', (∀ i ∈ t, i ∈ t') → P t → P t') :
    ∀ (ns : List Nat), (∀ n ∈ ns, ∀ st, n ∈ st.2 → P st.2 → ∃ st', f st n = some st' ∧ Does L [n] st st') →
    ∀ st, (∀ n ∈ ns, n ∈ st.2) → P st.2 → ∃ st', ns.foldlM f st = some st' ∧ Does L ns st st'
  | [], _, st, _, _ => ⟨st, rfl, .refl _ _ (by simp)⟩
  | n :: ns, hf, st, hin, hp => by
    obtain ⟨s1, e1, d1⟩ := hf n (by simp) st (hin n (by simp)) hp
    obtain ⟨s2, e2, d2⟩ := loop_does hP ns (fun m hm => hf m (by simp [hm])) s1 (fun m hm => d1.sub m (hin m (by simp [hm]))) (hP _ _ d1.sub hp)
    refine ⟨s2, by simp [e1, e2], ?_⟩
    exact d1.append (fun m hm => hin m (by simp [hm])) d2

theorem prop_does (ho : ∀ l, (ord l).Perm l) : ∀ (fuel : Nat) (st : Cons × List Nat) (n : Nat), n < L.length → n ∈ st.2 → (open_ L st.2).length < fuel →
    ∃ st', prop ord L fuel st n = some st' ∧ Does L [n] st st'
  | 0, st, n, _, _, hf => by omega
  | fuel + 1, st, n, hn, hnt, hf => by
    obtain ⟨kids, hk⟩ : ∃ kids, subs ord L st.2 n = some kids := by simp [subs, hn]
    obtain ⟨k1, k2⟩ := subs_spec ho hk
    by_cases he : kids = []
    · refine ⟨st, by simp [prop, hk, he], .refl _ _ ?_⟩
      intro p hp i hi
      rw [List.mem_singleton] at hp
      subst hp
      by_contra hc
      have := (k2 i).2 ⟨hi, hc⟩
      rw [he] at this
      simp at this
    · obtain ⟨k, hkk⟩ := List.exists_mem_of_ne_nil kids he
      have hlt : ∀ k ∈ kids, k < L.length := fun k hk => by
        obtain ⟨_, _, _, h⟩ := ((k2 k).1 hk).1
        exact h
      obtain ⟨st', e, d⟩ := loop_does (L := L) (f := prop ord L fuel) (P := fun t => (open_ L t).length < fuel)
        (fun t t' h hp => Nat.lt_of_le_of_lt (open_le h) hp) kids
        (fun m hm s hs hp => prop_does ho fuel s m (hlt m hm) hs hp)
        ((st.1 n).foldl (giveAll kids) st.1, st.2 ++ kids) (fun m hm => by simp [hm])
        (by
          have := open_lt (L := L) (t := st.2) (t' := st.2 ++ kids) (fun i hi => by simp [hi]) (hlt k hkk) ((k2 k).1 hkk).2 (by simp [hkk])
          simp only
          omega)
      refine ⟨st', by simp only [prop, hk, Option.bind_some, he, if_false]; exact e, ?_⟩
      have g := fun i => foldl_giveAll k1 (st.1 n) st.1 i
      have hnk : n ∉ kids := fun h => ((k2 n).1 h).2 hnt
      have dn : st'.1 n = st.1 n := by
        rw [d.same n (Or.inl (by simp [hnt]))]
        exact (g n).2.1 hnk
      refine ⟨fun i hi => d.sub i (by simp [hi]), ?_, fun i => (g i).1.trans (d.grows i), ?_, ?_, ?_, ?_⟩
      · intro i hi
        rcases hi with hi | hi
        · rw [d.same i (Or.inl (by simp [hi]))]
          exact (g i).2.1 (fun h => ((k2 i).1 h).2 hi)
        · rw [d.same i (Or.inr hi)]
          exact (g i).2.1 (fun h => hi (d.sub i (by simp [h])))
      · intro i hi hni
        by_cases hik : i ∈ kids
        · refine ⟨n, d.sub n (by simp [hnt]), Or.inl (by simp), ((k2 i).1 hik).1, ?_⟩
          intro x hx h1 h2
          rw [dn] at hx
          exact (d.grows i).mem (((g i).2.2 x).2 (Or.inr ⟨hik, hx, h1, h2⟩))
        · obtain ⟨p, p1, p2, p3⟩ := d.parent i hi (by simp [hni, hik])
          refine ⟨p, p1, Or.inr ⟨n, by simp, ?_⟩, p3⟩
          rcases p2 with p2 | ⟨m, m1, m2⟩
          · exact .single ((k2 p).1 p2).1
          · exact .head ((k2 m).1 m1).1 m2
      · intro p hp i hi
        rcases hp with hp | ⟨h1, h2⟩
        · rw [List.mem_singleton] at hp
          subst hp
          by_cases hit : i ∈ st.2
          · exact d.sub i (by simp [hit])
          · exact d.sub i (by simp [(k2 i).2 ⟨hi, hit⟩])
        · by_cases hpk : p ∈ kids
          · exact d.closed p (Or.inl hpk) i hi
          · exact d.closed p (Or.inr ⟨h1, by simp [h2, hpk]⟩) i hi
      · intro x h1 h2 hall i hi hni
        have hx := hall n (by simp)
        by_cases hik : i ∈ kids
        · exact (d.grows i).mem (((g i).2.2 x).2 (Or.inr ⟨hik, hx, h1, h2⟩))
        · exact d.all x h1 h2 (fun m hm => ((g m).2.2 x).2 (Or.inr ⟨hm, hx, h1, h2⟩)) i hi (by simp [hni, hik])
      · intro i x hx
        rcases d.only i x hx with hx | ⟨h1, h2, j, j1, j2, j3⟩
        · rcases ((g i).2.2 x).1 hx with hx | ⟨h1, h2, h3, h4⟩
          · exact Or.inl hx
          · exact Or.inr ⟨h3, h4, n, Or.inl (by simp), .single ((k2 i).1 h1).1, h2⟩
        · rcases ((g j).2.2 x).1 j3 with hx | ⟨h3, h4, h5⟩
          · refine Or.inr ⟨h1, h2, j, Or.inr ⟨n, by simp, ?_⟩, j2, hx⟩
            rcases j1 with j1 | ⟨m, m1, m2⟩
            · exact .single ((k2 j).1 j1).1
            · exact .head ((k2 m).1 m1).1 m2
          · exact Or.inr ⟨h1, h2, n, Or.inl (by simp), .head ((k2 j).1 h3).1 j2, h4⟩

/-- **C87, part**: nothing is lost and only settings from further up are added, the settings of the top reach everything below, and if
every subcircuit is used by one other only, so do all settings. -/
theorem C87_settings_partial (ho : ∀ l, (ord l).Perm l) (C : Cons) {top : Nat} (ht : top < L.length) : ∃ C', propagate ord L C top = some C' ∧
    Added L C C' top ∧ Reaches L C C' top ∧
    ((∀ p, ¬ Uses L p top) → (∀ p p' i, (p = top ∨ Below L top p) → (p' = top ∨ Below L top p') → Uses L p i → Uses L p' i → p = p') →
      ∀ j, j = top ∨ Below L top j → Reaches L C C' j) := by
  obtain ⟨st', e, d⟩ := prop_does (L := L) ho (L.length + 1) (C, [top]) top ht (by simp) (by
    have : (open_ L [top]).length ≤ (List.range L.length).length := List.length_filter_le _ _
    simp at this ⊢
    omega)
  have hcl : ∀ i, Below L top i → i ∈ st'.2 := by
    intro i hi
    induction hi with
    | single h => exact d.closed top (Or.inl (by simp)) _ h
    | tail _ h ih =>
      rename_i p i _
      by_cases hp : p = top
      · subst hp
        exact d.closed p (Or.inl (by simp)) _ h
      · exact d.closed p (Or.inr ⟨ih, by simp [hp]⟩) _ h
  refine ⟨st'.1, by simp [propagate, e], ⟨fun i => d.grows i, ?_⟩, ?_, ?_⟩
  · intro i x hx
    rcases d.only i x hx with h | ⟨h1, h2, j, j1, j2⟩
    · exact Or.inl h
    · refine Or.inr ⟨h1, h2, j, ?_, j2⟩
      simpa using j1
  · intro i hi x hx h1 h2
    by_cases hit : i = top
    · subst hit
      exact (d.grows i).mem hx
    · exact d.all x h1 h2 (by simpa using hx) i (hcl i hi) (by simp [hit])
  · intro hnt hu j hj i hi x hx h1 h2
    have hstep : ∀ p i, (p = top ∨ Below L top p) → Uses L p i → ∀ x ∈ st'.1 p, x.setting = true → x.propagate = true → x ∈ st'.1 i := by
      intro p i hp hpi
      have hbi : Below L top i := by
        rcases hp with rfl | hp
        · exact .single hpi
        · exact hp.tail hpi
      have hne : i ≠ top := by
        rintro rfl
        exact hnt p hpi
      obtain ⟨p', q1, q2, q3, q4⟩ := d.parent i (hcl i hbi) (by simp [hne])
      have : p' = p := hu p' p i (by simpa using q2) hp q3 hpi
      subst this
      exact q4
    have key : (j = top ∨ Below L top i) → x ∈ st'.1 i := by
      intro _
      induction hi with
      | single h => exact hstep j _ hj h x ((d.grows j).mem hx) h1 h2
      | tail hb h ih =>
        refine hstep _ _ ?_ h x (ih ?_) h1 h2
        · rcases hj with rfl | hj
          · exact Or.inr hb
          · exact Or.inr (hj.trans hb)
        · rcases hj with rfl | hj
          · exact Or.inl rfl
          · exact Or.inr (hj.trans hb)
    refine key ?_
    rcases hj with rfl | hj
    · exact Or.inl rfl
    · exact Or.inr (hj.trans hi)

/-- The top uses `1` and `2`, and `1` uses `2`; `1` has a setting. -/
def shared : Lib := [[1, 2], [2], []]

def sharedCons : Cons := fun i => if i = 1 then [⟨true, 7, true⟩] else if i = 0 then [⟨true, 5, true⟩, ⟨true, 6, false⟩, ⟨false, 3, true⟩] else []

example : (propagate id shared sharedCons 0).map (fun C => [C 0, C 1, C 2]) = some [
    [⟨true, 5, true⟩, ⟨true, 6, false⟩, ⟨false, 3, true⟩], [⟨true, 7, true⟩, ⟨true, 5, true⟩], [⟨true, 5, true⟩]] := by decide +kernel

/-- A chain `0`, `1`, `2`. -/
example : (∀ p, ¬ Uses [[1], [2], []] p 0) ∧ (∀ p p' i, Uses [[1], [2], []] p i → Uses [[1], [2], []] p' i → p = p') := by
  have h : ∀ p i, Uses [[1], [2], []] p i → i = p + 1 := by
    rintro p i ⟨ms, h1, h2, _⟩
    match p with
    | 0 => simp at h1; subst h1; simpa using h2
    | 1 => simp at h1; subst h1; simpa using h2
    | 2 => simp at h1; subst h1; simp at h2
    | p + 3 => simp at h1
  exact ⟨fun p hp => by have := h p 0 hp; omega, fun p p' i h1 h2 => by have := h p i h1; have := h p' i h2; omega⟩

/-- **C87 is violated**: the setting of `1` does not reach `2`, because the top uses `2` as well. -/
theorem C87_violated_shared : ∃ (L : Lib) (C C' : Cons) (j : Nat), propagate id L C 0 = some C' ∧ Below L 0 j ∧ ¬ Reaches L C C' j := by
  have hrun : (propagate id shared sharedCons 0).map (fun C => C 2) = some [⟨true, 5, true⟩] := by decide +kernel
  cases hs : propagate id shared sharedCons 0 with
  | none => rw [hs] at hrun; simp at hrun
  | some C' =>
    rw [hs] at hrun
    simp only [Option.map_some, Option.some.injEq] at hrun
    refine ⟨shared, sharedCons, C', 1, hs, .single ⟨_, rfl, by simp, by simp [shared]⟩, ?_⟩
    intro h
    have := h 2 (.single ⟨_, rfl, by simp, by simp [shared]⟩) ⟨true, 7, true⟩ (by simp [sharedCons]) rfl rfl
    rw [hrun] at this
    simp at this

end Verif.Settings

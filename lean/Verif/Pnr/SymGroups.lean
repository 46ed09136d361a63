import Mathlib.Data.List.Induction
import Mathlib.Data.List.Nodup
import Mathlib.Logic.Relation
import Verif.Pnr.Moves

/-!
# Symmetric groups from symmetry constraints

Model of `design::constructSymmGroup` and `design::MergeNewBlockstoSymmetryGroup`
(`PlaceRouteHierFlow/placer/design.cpp` 203-227, 1306-1335, 1554-1600, 1602-1760).  The loop over symmetric nets
is commented out in the code; terminals are not in these constraints.
-/

namespace Verif.SymGroups

open Verif.Moves (Axis)

/-- A symmetry constraint: pairs and single blocks with their axis (`SymmPairBlock`); the mark of every single block is the
axis of the constraint (ReadConstraint.cpp, see C97). -/
structure Con where
  pairs : List (Nat × Nat)
  selfs : List Nat
  axis : Axis
  deriving DecidableEq, Repr

/-- `placerDB::SymmBlock`. -/
structure Grp where
  pairs : List (Nat × Nat)
  selfs : List (Nat × Axis)
  axis : Axis
  deriving DecidableEq, Repr

/-- `SPBlocks` (203-227). -/
def Con.grp (c : Con) : Grp := ⟨c.pairs, c.selfs.map fun b => (b, c.axis), c.axis⟩

/-- `checkSympairInSymmBlock`, `checkSelfsymInSymmBlock` (1306-1335): group and number of what is matched. -/
def matches' {α : Type} [DecidableEq α] : Nat → List (List α) → List α → List (Nat × Nat)
  | _, [], _ => []
  | j, l :: ls, t => (l.flatMap fun p => ((List.range t.length).filter fun i => t[i]? = some p).map fun i => (j, i)) ++
      matches' (j + 1) ls t

/-- Moves group `j` into group `g` (1621-1637). -/
def moveInto (g : Nat) (l : List Grp) (j : Nat) : List Grp :=
  if j = g then l else
    match l[g]?, l[j]? with
    | some a, some b => (l.set g ⟨a.pairs ++ b.pairs, a.selfs ++ b.selfs, b.axis⟩).set j ⟨[], [], b.axis⟩
    | _, _ => l

/-- The members of `t` that are not matched (1643-1652). -/
def unmatched {α : Type} (t : List α) (m : List (Nat × Nat)) : List α :=
  (t.zipIdx.filter fun x => !(m.any fun y => y.2 == x.2)).map (·.1)

def append (l : List Grp) (g : Nat) (ps : List (Nat × Nat)) (ss : List (Nat × Axis)) (ax : Option Axis) :
    List Grp :=
  match l[g]? with
  | some a => l.set g ⟨a.pairs ++ ps, a.selfs ++ ss, ax.getD a.axis⟩
  | none => l

/-- `MergeNewBlockstoSymmetryGroup` (1602-1760). -/
def merge (l : List Grp) (c : Grp) : List Grp :=
  let mp := matches' 0 (l.map (·.pairs)) c.pairs
  let ms := matches' 0 (l.map (·.selfs)) c.selfs
  match mp, ms with
  | [], [] => l ++ [c]
  | [], m :: _ => append ((ms.map (·.1)).foldl (moveInto m.1) l) m.1 c.pairs (unmatched c.selfs ms) (some c.axis)
  | m :: _, [] => append ((mp.map (·.1)).foldl (moveInto m.1) l) m.1 (unmatched c.pairs mp) c.selfs none
  | _ :: _, m :: _ => append ((mp.map (·.1)).foldl (moveInto m.1) ((ms.map (·.1)).foldl (moveInto m.1) l)) m.1
      (unmatched c.pairs mp) (unmatched c.selfs ms) (some c.axis)

/-- `constructSymmGroup` (1554-1564). -/
def groups (cs : List Con) : List Grp := cs.foldl (fun l c => merge l c.grp) []

/-- `SBidx` of a block: the last assignment (1566-1599). -/
def groupOf (cs : List Con) (b : Nat) : Option Nat :=
  ((groups cs).zipIdx.filter fun x =>
    decide ((∃ p ∈ x.1.pairs, p.1 = b ∨ p.2 = b) ∨ ∃ s ∈ x.1.selfs, s.1 = b)).getLast?.map (·.2)

/-- The axis looked up for a block (ILP_solver.cpp 354): the group's number used in the list of constraints. -/
def axisOf (cs : List Con) (b : Nat) : Option Axis := ((groupOf cs b).bind fun i => cs[i]?).map (·.axis)

/-! ## Specification -/

/-- What a constraint asks for: two blocks to be mirror images, or a block to be on the axis. -/
inductive Item
  | pair (a b : Nat)
  | self (b : Nat) (ax : Axis)
  deriving DecidableEq

/-- The constraint has the item. -/
def Con.Has (c : Con) : Item → Prop
  | .pair a b => (a, b) ∈ c.pairs
  | .self b ax => b ∈ c.selfs ∧ ax = c.axis

def Grp.Has (g : Grp) : Item → Prop
  | .pair a b => (a, b) ∈ g.pairs
  | .self b ax => (b, ax) ∈ g.selfs

/-- Constraints `k` and `l` share an item. -/
def Share (cs : List Con) (k l : Nat) : Prop :=
  ∃ c d x, cs[k]? = some c ∧ cs[l]? = some d ∧ c.Has x ∧ d.Has x

/-- They are linked by constraints that share items. -/
def Linked (cs : List Con) : Nat → Nat → Prop := Relation.EqvGen (Share cs)

/-- The groups are the classes of linked constraints: `owner k` is the group of constraint `k`. -/
structure Classes (cs : List Con) (gs : List Grp) (owner : Nat → Nat) : Prop where
  has : ∀ k c, cs[k]? = some c → ∃ g, gs[owner k]? = some g ∧ ∀ x, c.Has x → g.Has x
  only : ∀ j g x, gs[j]? = some g → g.Has x → ∃ k c, cs[k]? = some c ∧ owner k = j ∧ c.Has x
  linked : ∀ k l, k < cs.length → l < cs.length → (owner k = owner l ↔ Linked cs k l)
  once : ∀ (i j : Nat) (g h : Grp) x, gs[i]? = some g → gs[j]? = some h → g.Has x → h.Has x → i = j

/-- No constraint says a thing twice. -/
def Con.Ok (c : Con) : Prop := c.pairs.Nodup ∧ c.selfs.Nodup

/-! ## Proofs -/

theorem has_grp (c : Con) (x : Item) : c.grp.Has x ↔ c.Has x := by
  cases x with
  | pair a b => rfl
  | self b ax =>
    simp only [Grp.Has, Con.grp, Con.Has, List.mem_map, Prod.mk.injEq]
    constructor
    · rintro ⟨y, hy, rfl, rfl⟩
      exact ⟨hy, rfl⟩
    · rintro ⟨h, rfl⟩
      exact ⟨b, h, rfl, rfl⟩

theorem mem_matches {α : Type} [DecidableEq α] {t : List α} : ∀ (ls : List (List α)) (j k i : Nat),
    (k, i) ∈ matches' j ls t ↔ ∃ d l p, k = j + d ∧ ls[d]? = some l ∧ p ∈ l ∧ t[i]? = some p
  | [], j, k, i => by simp [matches']
  | l :: ls, j, k, i => by
    simp only [matches', List.mem_append, List.mem_flatMap, List.mem_map, List.mem_filter, List.mem_range,
      decide_eq_true_eq, Prod.mk.injEq, mem_matches ls (j + 1)]
    constructor
    · rintro (⟨p, hp, i', ⟨-, h2⟩, rfl, rfl⟩ | ⟨d, l', p, rfl, h1, h2, h3⟩)
      · exact ⟨0, l, p, rfl, rfl, hp, h2⟩
      · exact ⟨d + 1, l', p, by omega, by simpa using h1, h2, h3⟩
    · rintro ⟨d, l', p, rfl, h1, h2, h3⟩
      cases d with
      | zero =>
        simp only [List.getElem?_cons_zero, Option.some.injEq] at h1
        subst h1
        exact Or.inl ⟨p, h2, i, ⟨(List.getElem?_eq_some_iff.1 h3).1, h3⟩, rfl, rfl⟩
      | succ d => exact Or.inr ⟨d, l', p, by omega, by simpa using h1, h2, h3⟩

theorem mem_unmatched {α : Type} {t : List α} {m : List (Nat × Nat)} {x : α} :
    x ∈ unmatched t m ↔ ∃ i : Nat, t[i]? = some x ∧ ∀ k, (k, i) ∉ m := by
  unfold unmatched
  simp only [List.mem_map, List.mem_filter, Prod.exists, List.mem_zipIdx_iff_getElem?, Bool.not_eq_true',
    List.any_eq_false, beq_iff_eq]
  constructor
  · rintro ⟨a, i, ⟨h1, h2⟩, rfl⟩
    exact ⟨i, h1, fun k hk => h2 _ hk rfl⟩
  · rintro ⟨i, h1, h2⟩
    refine ⟨x, i, ⟨h1, fun y hy e => ?_⟩, rfl⟩
    subst e
    exact h2 _ hy

/-- The state of the groups, without the axes. -/
theorem moveInto_length (g : Nat) (l : List Grp) (j : Nat) : (moveInto g l j).length = l.length := by
  unfold moveInto
  split_ifs
  · rfl
  · split <;> simp

theorem moveInto_spec {g j : Nat} {l : List Grp} (hg : g < l.length) (hj : j < l.length) (k : Nat) (x : Item) :
    (∃ a, (moveInto g l j)[k]? = some a ∧ a.Has x) ↔
      (k = g ∧ ((∃ a, l[g]? = some a ∧ a.Has x) ∨ ∃ a, l[j]? = some a ∧ a.Has x)) ∨
      (k ≠ g ∧ k ≠ j ∧ ∃ a, l[k]? = some a ∧ a.Has x) := by
  unfold moveInto
  by_cases h : j = g
  · subst h
    rw [if_pos rfl]
    by_cases hk : k = j
    · subst hk
      simp
    · simp [hk]
  · rw [if_neg h, List.getElem?_eq_getElem hg, List.getElem?_eq_getElem hj]
    simp only
    by_cases h1 : k = g
    · subst h1
      rw [List.getElem?_set_ne h, List.getElem?_set_self hg]
      simp only [Option.some.injEq, exists_eq_left', ne_eq, not_true_eq_false, false_and, or_false, true_and]
      cases x <;> simp [Grp.Has]
    · by_cases h2 : k = j
      · subst h2
        rw [List.getElem?_set_self (by simpa using hj)]
        simp only [Option.some.injEq, exists_eq_left', h1, false_and, ne_eq, not_true_eq_false, and_false, or_self,
          iff_false]
        cases x <;> simp [Grp.Has]
      · rw [List.getElem?_set_ne (fun e => h2 e.symm), List.getElem?_set_ne (fun e => h1 e.symm)]
        simp [h1, h2]

theorem moveAll_length (g : Nat) : ∀ (js : List Nat) (l : List Grp), (js.foldl (moveInto g) l).length = l.length
  | [], _ => rfl
  | j :: js, l => by rw [List.foldl_cons, moveAll_length g js, moveInto_length]

theorem moveAll_spec {g : Nat} : ∀ (js : List Nat) (l : List Grp), g < l.length → (∀ j ∈ js, j < l.length) →
    ∀ (k : Nat) (x : Item), (∃ a, (js.foldl (moveInto g) l)[k]? = some a ∧ a.Has x) ↔
      (k = g ∧ ∃ i, (i = g ∨ i ∈ js) ∧ ∃ a, l[i]? = some a ∧ a.Has x) ∨
      (k ≠ g ∧ k ∉ js ∧ ∃ a, l[k]? = some a ∧ a.Has x)
  | [], l, _, _, k, x => by
    simp only [List.foldl_nil, List.not_mem_nil, or_false, not_false_eq_true, true_and]
    by_cases hk : k = g
    · subst hk
      simp
    · simp [hk]
  | j :: js, l, hg, hj, k, x => by
    rw [List.foldl_cons, moveAll_spec js (moveInto g l j) (by rw [moveInto_length]; exact hg)
      (fun i hi => by rw [moveInto_length]; exact hj i (List.mem_cons_of_mem _ hi)) k x]
    have hs := fun i => moveInto_spec hg (hj j (by simp)) i x
    simp only [hs, List.mem_cons]
    constructor
    · rintro (⟨rfl, i, hi, (⟨rfl, h | h⟩ | ⟨h1, h2, h⟩)⟩ | ⟨h1, h2, (⟨h3, -⟩ | ⟨-, h3, h⟩)⟩)
      · exact Or.inl ⟨rfl, i, Or.inl rfl, h⟩
      · exact Or.inl ⟨rfl, j, Or.inr (Or.inl rfl), h⟩
      · refine Or.inl ⟨rfl, i, ?_, h⟩
        tauto
      · exact absurd h3 h1
      · refine Or.inr ⟨h1, ?_, h⟩
        tauto
    · rintro (⟨rfl, i, hi, h⟩ | ⟨h1, h2, h⟩)
      · left
        refine ⟨rfl, ?_⟩
        by_cases e : i = k
        · subst e
          exact ⟨i, Or.inl rfl, Or.inl ⟨rfl, Or.inl h⟩⟩
        · by_cases e2 : i = j
          · subst e2
            exact ⟨k, Or.inl rfl, Or.inl ⟨rfl, Or.inr h⟩⟩
          · refine ⟨i, ?_, Or.inr ⟨e, e2, h⟩⟩
            tauto
      · right
        rw [not_or] at h2
        exact ⟨h1, h2.2, Or.inr ⟨h1, h2.1, h⟩⟩

/-- Group `k` has item `x`. -/
def In (l : List Grp) (k : Nat) (x : Item) : Prop := ∃ a, l[k]? = some a ∧ a.Has x

theorem mem_fst {α : Type} [DecidableEq α] {ls : List (List α)} {t : List α} {j : Nat} :
    j ∈ (matches' 0 ls t).map (·.1) ↔ ∃ l p, ls[j]? = some l ∧ p ∈ l ∧ p ∈ t := by
  simp only [List.mem_map, Prod.exists, exists_and_right, exists_eq_right]
  constructor
  · rintro ⟨i, h⟩
    obtain ⟨d, l, p, e, h1, h2, h3⟩ := (mem_matches ls 0 j i).1 h
    rw [Nat.zero_add] at e
    subst e
    exact ⟨l, p, h1, h2, List.mem_of_getElem? h3⟩
  · rintro ⟨l, p, h1, h2, h3⟩
    obtain ⟨i, hi⟩ := List.mem_iff_getElem?.1 h3
    exact ⟨i, (mem_matches ls 0 j i).2 ⟨j, l, p, by omega, h1, h2, hi⟩⟩

theorem mem_unmatched' {α : Type} [DecidableEq α] {ls : List (List α)} {t : List α} {x : α} :
    x ∈ unmatched t (matches' 0 ls t) ↔ x ∈ t ∧ ∀ l ∈ ls, x ∉ l := by
  rw [mem_unmatched]
  constructor
  · rintro ⟨i, h1, h2⟩
    refine ⟨List.mem_of_getElem? h1, fun l hl hx => ?_⟩
    obtain ⟨j, hj⟩ := List.mem_iff_getElem?.1 hl
    exact h2 j ((mem_matches ls 0 j i).2 ⟨j, l, x, by omega, hj, hx, h1⟩)
  · rintro ⟨h1, h2⟩
    obtain ⟨i, hi⟩ := List.mem_iff_getElem?.1 h1
    refine ⟨i, hi, fun k hk => ?_⟩
    obtain ⟨d, l, p, -, h3, h4, h5⟩ := (mem_matches ls 0 k i).1 hk
    have e : x = p := Option.some.inj (hi.symm.trans h5)
    subst e
    exact h2 l (List.mem_of_getElem? h3) h4

theorem unmatched_sublist {α : Type} (t : List α) (m : List (Nat × Nat)) : (unmatched t m).Sublist t := by
  unfold unmatched
  have h := (List.filter_sublist (l := t.zipIdx) (p := fun x => !(m.any fun y => y.2 == x.2))).map (·.1)
  rwa [List.zipIdx_map_fst] at h

theorem append_length (l : List Grp) (g : Nat) (ps : List (Nat × Nat)) (ss : List (Nat × Axis)) (ax : Option Axis) :
    (append l g ps ss ax).length = l.length := by
  unfold append
  split <;> simp

/-- What `append` adds. -/
def NewItem (ps : List (Nat × Nat)) (ss : List (Nat × Axis)) : Item → Prop
  | .pair a b => (a, b) ∈ ps
  | .self b ax => (b, ax) ∈ ss

theorem append_spec {l : List Grp} {g : Nat} (hg : g < l.length) (ps : List (Nat × Nat)) (ss : List (Nat × Axis))
    (ax : Option Axis) (k : Nat) (x : Item) :
    In (append l g ps ss ax) k x ↔ In l k x ∨ (k = g ∧ NewItem ps ss x) := by
  unfold append In
  rw [List.getElem?_eq_getElem hg]
  simp only
  by_cases hk : k = g
  · subst hk
    rw [List.getElem?_set_self hg, List.getElem?_eq_getElem hg]
    simp only [Option.some.injEq, exists_eq_left', true_and]
    cases x <;> simp [Grp.Has, NewItem]
  · rw [List.getElem?_set_ne (fun e => hk e.symm)]
    simp [hk]

/-- Group `j` has an item of `c`. -/
def Hit (l : List Grp) (c : Grp) (j : Nat) : Prop := ∃ x, In l j x ∧ c.Has x

theorem hit_iff {l : List Grp} {c : Grp} {j : Nat} :
    Hit l c j ↔ j ∈ (matches' 0 (l.map (·.pairs)) c.pairs).map (·.1) ∨
      j ∈ (matches' 0 (l.map (·.selfs)) c.selfs).map (·.1) := by
  rw [mem_fst, mem_fst]
  simp only [List.getElem?_map, Option.map_eq_some_iff]
  constructor
  · rintro ⟨x, ⟨a, ha, hx⟩, hc⟩
    cases x with
    | pair u v => exact Or.inl ⟨_, (u, v), ⟨a, ha, rfl⟩, hx, hc⟩
    | self b ax => exact Or.inr ⟨_, (b, ax), ⟨a, ha, rfl⟩, hx, hc⟩
  · rintro (⟨_, ⟨u, v⟩, ⟨a, ha, rfl⟩, h1, h2⟩ | ⟨_, ⟨b, ax⟩, ⟨a, ha, rfl⟩, h1, h2⟩)
    · exact ⟨.pair u v, ⟨a, ha, h1⟩, h2⟩
    · exact ⟨.self b ax, ⟨a, ha, h1⟩, h2⟩

theorem hit_lt {l : List Grp} {c : Grp} {j : Nat} (h : Hit l c j) : j < l.length := by
  obtain ⟨x, ⟨a, ha, -⟩, -⟩ := h
  exact (List.getElem?_eq_some_iff.1 ha).1

/-- The three branches with a match in one form. -/
theorem merge_cases (l : List Grp) (c : Grp) :
    ((∀ j, ¬ Hit l c j) ∧ merge l c = l ++ [c]) ∨
    ∃ (g : Nat) (js : List Nat) (ps : List (Nat × Nat)) (ss : List (Nat × Axis)) (ax : Option Axis), Hit l c g ∧ (∀ j, j ∈ js ↔ Hit l c j) ∧
      merge l c = append (js.foldl (moveInto g) l) g ps ss ax ∧ (ax = none ∨ ax = some c.axis) ∧
      (∀ p, p ∈ ps ↔ p ∈ c.pairs ∧ ∀ a ∈ l, p ∉ a.pairs) ∧ (∀ s, s ∈ ss ↔ s ∈ c.selfs ∧ ∀ a ∈ l, s ∉ a.selfs) ∧
      ps.Sublist c.pairs ∧ ss.Sublist c.selfs := by
  have hu1 : ∀ p, p ∈ unmatched c.pairs (matches' 0 (l.map (·.pairs)) c.pairs) ↔
      p ∈ c.pairs ∧ ∀ a ∈ l, p ∉ a.pairs := by
    intro p
    rw [mem_unmatched']
    simp
  have hu2 : ∀ p, p ∈ unmatched c.selfs (matches' 0 (l.map (·.selfs)) c.selfs) ↔
      p ∈ c.selfs ∧ ∀ a ∈ l, p ∉ a.selfs := by
    intro p
    rw [mem_unmatched']
    simp
  have hs1 := unmatched_sublist c.pairs (matches' 0 (l.map (·.pairs)) c.pairs)
  have hs2 := unmatched_sublist c.selfs (matches' 0 (l.map (·.selfs)) c.selfs)
  have hh := fun j => hit_iff (l := l) (c := c) (j := j)
  have h1 : matches' 0 (l.map (·.pairs)) c.pairs = [] → ∀ p, p ∈ c.pairs ↔ p ∈ c.pairs ∧ ∀ a ∈ l, p ∉ a.pairs := by
    intro e p
    rw [e] at hu1
    rw [← hu1 p, mem_unmatched]
    simp [List.mem_iff_getElem?]
  have h2 : matches' 0 (l.map (·.selfs)) c.selfs = [] → ∀ p, p ∈ c.selfs ↔ p ∈ c.selfs ∧ ∀ a ∈ l, p ∉ a.selfs := by
    intro e p
    rw [e] at hu2
    rw [← hu2 p, mem_unmatched]
    simp [List.mem_iff_getElem?]
  unfold merge
  generalize matches' 0 (l.map (·.pairs)) c.pairs = mp at *
  generalize matches' 0 (l.map (·.selfs)) c.selfs = ms at *
  match mp, ms with
  | [], [] =>
    left
    refine ⟨fun j h => ?_, rfl⟩
    have := (hh j).1 h
    simp at this
  | [], m :: ms =>
    right
    refine ⟨m.1, _, _, _, _, (hh _).2 (Or.inr (by simp)), fun j => ?_, rfl, Or.inr rfl, h1 rfl, hu2,
      List.Sublist.refl _, hs2⟩
    rw [hh j]
    simp
  | m :: mp, [] =>
    right
    refine ⟨m.1, _, _, _, _, (hh _).2 (Or.inl (by simp)), fun j => ?_, rfl, Or.inl rfl, hu1, h2 rfl, hs1,
      List.Sublist.refl _⟩
    rw [hh j]
    simp
  | n :: mp, m :: ms =>
    right
    refine ⟨m.1, ((m :: ms).map (·.1)) ++ (n :: mp).map (·.1), _, _, _, (hh _).2 (Or.inr (by simp)), fun j => ?_, ?_,
      Or.inr rfl, hu1, hu2, hs1, hs2⟩
    · rw [hh j, List.mem_append, or_comm]
    · simp only
      rw [List.foldl_append]

theorem merge_spec (l : List Grp) (c : Grp) :
    ((∀ j, ¬ Hit l c j) ∧ merge l c = l ++ [c]) ∨
    ∃ g, Hit l c g ∧ (merge l c).length = l.length ∧ ∀ k x, In (merge l c) k x ↔
      (k = g ∧ (c.Has x ∨ ∃ i, Hit l c i ∧ In l i x)) ∨ (k ≠ g ∧ ¬ Hit l c k ∧ In l k x) := by
  rcases merge_cases l c with h | ⟨g, js, ps, ss, ax, hg, hjs, e, -, hps, hss, -, -⟩
  · exact Or.inl h
  · right
    have hgl := hit_lt hg
    have hl := moveAll_length g js l
    refine ⟨g, hg, by rw [e, append_length, hl], fun k x => ?_⟩
    rw [e, append_spec (by rw [hl]; exact hgl)]
    have hm := moveAll_spec js l hgl (fun j hj => hit_lt ((hjs j).1 hj)) k x
    have hm' : In (js.foldl (moveInto g) l) k x ↔ _ := hm
    rw [hm']
    have hnew : NewItem ps ss x ↔ c.Has x ∧ ∀ j, ¬ In l j x := by
      have hj : ∀ {P : Grp → Prop}, (∀ a ∈ l, ¬ P a) ↔ ∀ j : Nat, ¬ ∃ a, l[j]? = some a ∧ P a := by
        intro P
        constructor
        · rintro h j ⟨a, ha, hp⟩
          exact h a (List.mem_of_getElem? ha) hp
        · intro h a ha hp
          obtain ⟨j, hj⟩ := List.mem_iff_getElem?.1 ha
          exact h j ⟨a, hj, hp⟩
      cases x with
      | pair u v =>
        simp only [NewItem, hps, Grp.Has, In]
        rw [hj (P := fun a => (u, v) ∈ a.pairs)]
      | self b a =>
        simp only [NewItem, hss, Grp.Has, In]
        rw [hj (P := fun g => (b, a) ∈ g.selfs)]
    rw [hnew]
    simp only [hjs]
    constructor
    · rintro ((⟨rfl, i, rfl | hi, h⟩ | ⟨h1, h2, h3⟩) | ⟨rfl, h, -⟩)
      · exact Or.inl ⟨rfl, Or.inr ⟨i, hg, h⟩⟩
      · exact Or.inl ⟨rfl, Or.inr ⟨i, hi, h⟩⟩
      · exact Or.inr ⟨h1, h2, h3⟩
      · exact Or.inl ⟨rfl, Or.inl h⟩
    · rintro (⟨rfl, h | ⟨i, hi, h⟩⟩ | ⟨h1, h2, h3⟩)
      · by_cases hx : ∃ j, In l j x
        · obtain ⟨j, hj⟩ := hx
          exact Or.inl (Or.inl ⟨rfl, j, Or.inr ⟨x, hj, h⟩, hj⟩)
        · exact Or.inr ⟨rfl, h, fun j hj => hx ⟨j, hj⟩⟩
      · exact Or.inl (Or.inl ⟨rfl, i, Or.inr hi, h⟩)
      · exact Or.inl (Or.inr ⟨h1, h2, h3⟩)

/-! ### Classes -/

theorem share_append {cs : List Con} {c : Con} {k l : Nat} (h : Share cs k l) : Share (cs ++ [c]) k l := by
  obtain ⟨a, b, x, h1, h2, h3⟩ := h
  refine ⟨a, b, x, ?_, ?_, h3⟩
  · rw [List.getElem?_append_left (List.getElem?_eq_some_iff.1 h1).1]
    exact h1
  · rw [List.getElem?_append_left (List.getElem?_eq_some_iff.1 h2).1]
    exact h2

theorem linked_append {cs : List Con} {c : Con} {k l : Nat} (h : Linked cs k l) : Linked (cs ++ [c]) k l := by
  induction h with
  | rel _ _ h1 => exact .rel _ _ (share_append h1)
  | refl => exact .refl _
  | symm _ _ _ ih => exact .symm _ _ ih
  | trans _ _ _ _ _ ih1 ih2 => exact .trans _ _ _ ih1 ih2

theorem get_snoc {cs : List Con} {c d : Con} {k : Nat} (h : (cs ++ [c])[k]? = some d) :
    (k < cs.length ∧ cs[k]? = some d) ∨ (k = cs.length ∧ d = c) := by
  by_cases hk : k < cs.length
  · rw [List.getElem?_append_left hk] at h
    exact Or.inl ⟨hk, h⟩
  · rw [List.getElem?_append_right (by omega)] at h
    have : k - cs.length = 0 := by
      have := (List.getElem?_eq_some_iff.1 h).1
      simpa using this
    rw [this] at h
    simp only [List.getElem?_cons_zero, Option.some.injEq] at h
    exact Or.inr ⟨by omega, h.symm⟩

theorem linked_const {cs : List Con} {f : Nat → Nat} (h : ∀ k l, Share cs k l → f k = f l) {k l : Nat}
    (hl : Linked cs k l) : f k = f l := by
  induction hl with
  | rel _ _ h1 => exact h _ _ h1
  | refl => rfl
  | symm _ _ _ ih => exact ih.symm
  | trans _ _ _ _ _ ih1 ih2 => exact ih1.trans ih2

theorem classes_merge {cs : List Con} {gs : List Grp} {owner : Nat → Nat} (h : Classes cs gs owner) (c : Con) :
    ∃ owner', Classes (cs ++ [c]) (merge gs c.grp) owner' ∧
      ((∀ j, ¬ Hit gs c.grp j) → owner' = fun k => if k < cs.length then owner k else gs.length) ∧
      (∀ k, k < cs.length → (owner' k = owner k ∨ (Hit gs c.grp (owner k) ∧ Hit gs c.grp (owner' k)))) ∧
      ∀ j, Hit gs c.grp j → Hit gs c.grp (owner' cs.length) := by
  have hown : ∀ k, k < cs.length → owner k < gs.length := by
    intro k hk
    obtain ⟨g, hg, -⟩ := h.has k cs[k] (List.getElem?_eq_getElem hk)
    exact (List.getElem?_eq_some_iff.1 hg).1
  have hin : ∀ k d x, cs[k]? = some d → d.Has x → In gs (owner k) x := by
    intro k d x hk hx
    obtain ⟨g, hg, hgx⟩ := h.has k d hk
    exact ⟨g, hg, hgx x hx⟩
  have honly : ∀ j x, In gs j x → ∃ k d, cs[k]? = some d ∧ owner k = j ∧ d.Has x := by
    rintro j x ⟨g, hg, hx⟩
    exact h.only j g x hg hx
  have honce : ∀ i j x, In gs i x → In gs j x → i = j := by
    rintro i j x ⟨g, hg, h1⟩ ⟨g', hg', h2⟩
    exact h.once i j g g' x hg hg' h1 h2
  have hlast : (cs ++ [c])[cs.length]? = some c := by simp
  have hold : ∀ {k : Nat} {d : Con}, cs[k]? = some d → (cs ++ [c])[k]? = some d := by
    intro k d hk
    rw [List.getElem?_append_left (List.getElem?_eq_some_iff.1 hk).1]
    exact hk
  rcases merge_spec gs c.grp with ⟨hno, e⟩ | ⟨g, hg, hlen, hspec⟩
  · refine ⟨fun k => if k < cs.length then owner k else gs.length, ?_, fun _ => rfl,
      fun k hk => by simp [hk], fun j hj => absurd hj (hno j)⟩
    have hno' : ∀ j x, In gs j x → ¬ c.Has x := fun j x h1 h2 => hno j ⟨x, h1, (has_grp c x).2 h2⟩
    rw [e]
    refine ⟨?_, ?_, ?_, ?_⟩
    · intro k d hk
      rcases get_snoc hk with ⟨h1, h2⟩ | ⟨rfl, rfl⟩
      · obtain ⟨g, hg, hx⟩ := h.has k d h2
        refine ⟨g, ?_, hx⟩
        simp only [h1, if_true]
        rw [List.getElem?_append_left (hown k h1)]
        exact hg
      · refine ⟨d.grp, ?_, fun x hx => (has_grp d x).2 hx⟩
        simp
    · intro j g x hj hx
      by_cases hjl : j < gs.length
      · rw [List.getElem?_append_left hjl] at hj
        obtain ⟨k, d, h1, h2, h3⟩ := h.only j g x hj hx
        refine ⟨k, d, hold h1, ?_, h3⟩
        simp only [(List.getElem?_eq_some_iff.1 h1).1, if_true]
        exact h2
      · rw [List.getElem?_append_right (by omega)] at hj
        have h0 : j - gs.length = 0 := by
          have := (List.getElem?_eq_some_iff.1 hj).1
          simpa using this
        rw [h0] at hj
        simp only [List.getElem?_cons_zero, Option.some.injEq] at hj
        subst hj
        refine ⟨cs.length, c, hlast, ?_, (has_grp c x).1 hx⟩
        simp only [Nat.lt_irrefl, if_false]
        omega
    · intro k l hk hl
      rw [List.length_append, List.length_singleton] at hk hl
      have hsh : ∀ k l, Share (cs ++ [c]) k l →
          (if k < cs.length then owner k else gs.length) = if l < cs.length then owner l else gs.length := by
        rintro k l ⟨a, b, x, h1, h2, h3, h4⟩
        rcases get_snoc h1 with ⟨k1, k2⟩ | ⟨rfl, rfl⟩ <;> rcases get_snoc h2 with ⟨l1, l2⟩ | ⟨rfl, rfl⟩
        · rw [if_pos k1, if_pos l1]
          exact (h.linked k l k1 l1).2 (.rel _ _ ⟨a, b, x, k2, l2, h3, h4⟩)
        · exact absurd h4 (hno' _ x (hin k a x k2 h3))
        · exact absurd h3 (hno' _ x (hin l b x l2 h4))
        · rfl
      constructor
      · intro e
        by_cases k1 : k < cs.length <;> by_cases l1 : l < cs.length
        · rw [if_pos k1, if_pos l1] at e
          exact linked_append ((h.linked k l k1 l1).1 e)
        · rw [if_pos k1, if_neg l1] at e
          have := hown k k1
          omega
        · rw [if_neg k1, if_pos l1] at e
          have := hown l l1
          omega
        · have : k = l := by omega
          subst this
          exact .refl _
      · intro hl
        exact linked_const hsh hl
    · intro i j a b x hi hj hax hbx
      have key : ∀ {i : Nat} {a : Grp}, (gs ++ [c.grp])[i]? = some a → a.Has x → In gs i x ∨ (i = gs.length ∧ c.Has x) := by
        intro i a hi hx
        by_cases hil : i < gs.length
        · rw [List.getElem?_append_left hil] at hi
          exact Or.inl ⟨a, hi, hx⟩
        · rw [List.getElem?_append_right (by omega)] at hi
          have h0 : i - gs.length = 0 := by
            have := (List.getElem?_eq_some_iff.1 hi).1
            simpa using this
          rw [h0] at hi
          simp only [List.getElem?_cons_zero, Option.some.injEq] at hi
          subst hi
          exact Or.inr ⟨by omega, (has_grp c x).1 hx⟩
      rcases key hi hax with h1 | ⟨h1, h1'⟩ <;> rcases key hj hbx with h2 | ⟨h2, h2'⟩
      · exact honce i j x h1 h2
      · exact absurd h2' (hno' _ x h1)
      · exact absurd h1' (hno' _ x h2)
      · omega
  · classical
    let o' : Nat → Nat := fun k => if k < cs.length then (if Hit gs c.grp (owner k) then g else owner k) else g
    have o1 : ∀ k, k < cs.length → Hit gs c.grp (owner k) → o' k = g := by
      intro k h1 h2
      simp only [o', h1, h2, if_true]
    have o2 : ∀ k, k < cs.length → ¬ Hit gs c.grp (owner k) → o' k = owner k := by
      intro k h1 h2
      simp only [o', h1, h2, if_true, if_false]
    have o3 : o' cs.length = g := by simp [o']
    refine ⟨o', ?_, fun hno => absurd hg (hno g), fun k hk => ?_, fun _ _ => o3 ▸ hg⟩
    · refine ⟨?_, ?_, ?_, ?_⟩
      · intro k d hk
        have hlt : o' k < (merge gs c.grp).length := by
          rw [hlen]
          rcases get_snoc hk with ⟨h1, -⟩ | ⟨rfl, -⟩
          · by_cases h2 : Hit gs c.grp (owner k)
            · rw [o1 k h1 h2]
              exact hit_lt hg
            · rw [o2 k h1 h2]
              exact hown k h1
          · rw [o3]
            exact hit_lt hg
        refine ⟨(merge gs c.grp)[o' k], List.getElem?_eq_getElem hlt, fun x hx => ?_⟩
        have hI : In (merge gs c.grp) (o' k) x := by
          rw [hspec]
          rcases get_snoc hk with ⟨h1, h2⟩ | ⟨rfl, rfl⟩
          · have hkx := hin k d x h2 hx
            by_cases h3 : Hit gs c.grp (owner k)
            · exact Or.inl ⟨o1 k h1 h3, Or.inr ⟨_, h3, hkx⟩⟩
            · rw [o2 k h1 h3]
              refine Or.inr ⟨?_, h3, hkx⟩
              rintro e
              exact h3 (e ▸ hg)
          · exact Or.inl ⟨o3, Or.inl ((has_grp d x).2 hx)⟩
        obtain ⟨a, ha, hax⟩ := hI
        rw [List.getElem?_eq_getElem hlt] at ha
        rw [Option.some.inj ha]
        exact hax
      · intro j a x hj hx
        have hI : In (merge gs c.grp) j x := ⟨a, hj, hx⟩
        rw [hspec] at hI
        rcases hI with ⟨rfl, h1 | ⟨i, h1, h2⟩⟩ | ⟨h1, h2, h3⟩
        · exact ⟨cs.length, c, hlast, o3, (has_grp c x).1 h1⟩
        · obtain ⟨k, d, k1, k2, k3⟩ := honly i x h2
          subst k2
          exact ⟨k, d, hold k1, o1 k (List.getElem?_eq_some_iff.1 k1).1 h1, k3⟩
        · obtain ⟨k, d, k1, k2, k3⟩ := honly j x h3
          subst k2
          exact ⟨k, d, hold k1, o2 k (List.getElem?_eq_some_iff.1 k1).1 h2, k3⟩
      · intro k l hk hl
        rw [List.length_append, List.length_singleton] at hk hl
        have hsh : ∀ k l, Share (cs ++ [c]) k l → o' k = o' l := by
          have key : ∀ k a x, k < cs.length → cs[k]? = some a → a.Has x → c.Has x → o' k = g := by
            intro k a x h1 h2 h3 h4
            exact o1 k h1 ⟨x, hin k a x h2 h3, (has_grp c x).2 h4⟩
          rintro k l ⟨a, b, x, h1, h2, h3, h4⟩
          rcases get_snoc h1 with ⟨k1, k2⟩ | ⟨rfl, rfl⟩ <;> rcases get_snoc h2 with ⟨l1, l2⟩ | ⟨rfl, rfl⟩
          · have e := (h.linked k l k1 l1).2 (.rel _ _ ⟨a, b, x, k2, l2, h3, h4⟩)
            simp only [o', k1, l1, if_true, e]
          · rw [o3, key k a x k1 k2 h3 h4]
          · rw [o3, key l b x l1 l2 h4 h3]
          · rfl
        have hlink : ∀ k, k < cs.length + 1 → o' k = g → Linked (cs ++ [c]) k cs.length := by
          intro k hk e
          by_cases k1 : k < cs.length
          · have hit : Hit gs c.grp (owner k) := by
              by_cases h2 : Hit gs c.grp (owner k)
              · exact h2
              · rw [o2 k k1 h2] at e
                exact e ▸ hg
            obtain ⟨x, hx, hcx⟩ := hit
            obtain ⟨p, d, p1, p2, p3⟩ := honly _ x hx
            have hkp := (h.linked k p k1 (List.getElem?_eq_some_iff.1 p1).1).1 p2.symm
            exact .trans _ _ _ (linked_append hkp)
              (.rel _ _ ⟨d, c, x, hold p1, hlast, p3, (has_grp c x).1 hcx⟩)
          · have : k = cs.length := by omega
            subst this
            exact .refl _
        constructor
        · intro e
          by_cases hkg : o' k = g
          · exact .trans _ _ _ (hlink k hk hkg) (.symm _ _ (hlink l hl (e ▸ hkg)))
          · have hlg : o' l ≠ g := e ▸ hkg
            have hlt : ∀ k, k < cs.length + 1 → o' k ≠ g → k < cs.length ∧ ¬ Hit gs c.grp (owner k) := by
              intro k hk hn
              have k1 : k < cs.length := by
                by_contra h1
                have : k = cs.length := by omega
                subst this
                exact hn o3
              exact ⟨k1, fun h2 => hn (o1 k k1 h2)⟩
            obtain ⟨k1, k2⟩ := hlt k hk hkg
            obtain ⟨l1, l2⟩ := hlt l hl hlg
            rw [o2 k k1 k2, o2 l l1 l2] at e
            exact linked_append ((h.linked k l k1 l1).1 e)
        · intro hl
          exact linked_const hsh hl
      · intro i j a b x hi hj hax hbx
        have h1 : In (merge gs c.grp) i x := ⟨a, hi, hax⟩
        have h2 : In (merge gs c.grp) j x := ⟨b, hj, hbx⟩
        rw [hspec] at h1 h2
        have aux : ∀ {i j : Nat}, (c.grp.Has x ∨ ∃ i, Hit gs c.grp i ∧ In gs i x) → ¬ Hit gs c.grp j →
            In gs j x → False := by
          rintro i j (h3 | ⟨k, h3, h4⟩) h5 h6
          · exact h5 ⟨x, h6, h3⟩
          · have := honce _ _ _ h4 h6
            subst this
            exact h5 h3
        rcases h1 with ⟨rfl, h1⟩ | ⟨h1, h1', h1''⟩ <;> rcases h2 with ⟨rfl, h2⟩ | ⟨h2, h2', h2''⟩
        · rfl
        · exact (aux (i := 0) h1 h2' h2'').elim
        · exact (aux (i := 0) h2 h1' h1'').elim
        · exact honce _ _ _ h1'' h2''
    · by_cases h2 : Hit gs c.grp (owner k)
      · right
        rw [o1 k hk h2]
        exact ⟨h2, hg⟩
      · exact Or.inl (o2 k hk h2)

theorem groups_snoc (cs : List Con) (c : Con) : groups (cs ++ [c]) = merge (groups cs) c.grp := by
  simp [groups]

theorem groups_classes (cs : List Con) : ∃ owner, Classes cs (groups cs) owner := by
  induction cs using List.reverseRecOn with
  | nil =>
    refine ⟨fun _ => 0, ?_, ?_, ?_, ?_⟩
    · intro k c h
      simp at h
    · intro j g x h
      simp [groups] at h
    · intro k l h
      simp at h
    · intro i j g h x h1
      simp [groups] at h1
  | append_singleton cs c ih =>
    obtain ⟨owner, h⟩ := ih
    rw [groups_snoc]
    obtain ⟨o, ho, -⟩ := classes_merge h c
    exact ⟨o, ho⟩

/-! ### No doubles -/

/-- Nothing twice, in one group or in two. -/
def Sep (l : List Grp) : Prop :=
  (∀ (k : Nat) (a : Grp), l[k]? = some a → a.pairs.Nodup ∧ a.selfs.Nodup) ∧ ∀ i j x, In l i x → In l j x → i = j

theorem sep_moveInto {g j : Nat} {l : List Grp} (h : Sep l) (hg : g < l.length) (hj : j < l.length) :
    Sep (moveInto g l j) := by
  refine ⟨?_, ?_⟩
  · intro k a hk
    unfold moveInto at hk
    by_cases e : j = g
    · rw [if_pos e] at hk
      exact h.1 k a hk
    · rw [if_neg e, List.getElem?_eq_getElem hg, List.getElem?_eq_getElem hj] at hk
      simp only at hk
      have h1 := h.1 g _ (List.getElem?_eq_getElem hg)
      have h2 := h.1 j _ (List.getElem?_eq_getElem hj)
      have hd : ∀ x : Item, ¬ (l[g].Has x ∧ l[j].Has x) := by
        rintro x ⟨hx, hy⟩
        exact e (h.2 j g x ⟨_, List.getElem?_eq_getElem hj, hy⟩ ⟨_, List.getElem?_eq_getElem hg, hx⟩)
      by_cases k1 : k = j
      · subst k1
        rw [List.getElem?_set_self (by simpa using hj)] at hk
        rw [← Option.some.inj hk]
        exact ⟨List.nodup_nil, List.nodup_nil⟩
      · rw [List.getElem?_set_ne (fun e => k1 e.symm)] at hk
        by_cases k2 : k = g
        · subst k2
          rw [List.getElem?_set_self hg] at hk
          rw [← Option.some.inj hk]
          refine ⟨List.Nodup.append h1.1 h2.1 ?_, List.Nodup.append h1.2 h2.2 ?_⟩
          · rintro ⟨u, v⟩ hx hy
            exact hd (.pair u v) ⟨hx, hy⟩
          · rintro ⟨u, v⟩ hx hy
            exact hd (.self u v) ⟨hx, hy⟩
        · rw [List.getElem?_set_ne (fun e => k2 e.symm)] at hk
          exact h.1 k a hk
  · intro i k x hi hk
    have hi' := (moveInto_spec hg hj i x).1 hi
    have hk' := (moveInto_spec hg hj k x).1 hk
    rcases hi' with ⟨rfl, hi'⟩ | ⟨i1, i2, hi'⟩ <;> rcases hk' with ⟨rfl, hk'⟩ | ⟨k1, k2, hk'⟩
    · rfl
    · rcases hi' with hi' | hi'
      · exact h.2 i k x hi' hk'
      · exact absurd (h.2 j k x hi' hk').symm k2
    · rcases hk' with hk' | hk'
      · exact h.2 i k x hi' hk'
      · exact absurd (h.2 j i x hk' hi').symm i2
    · exact h.2 i k x hi' hk'

theorem sep_moveAll {g : Nat} : ∀ (js : List Nat) (l : List Grp), Sep l → g < l.length → (∀ j ∈ js, j < l.length) →
    Sep (js.foldl (moveInto g) l)
  | [], _, h, _, _ => h
  | j :: js, l, h, hg, hj => by
    rw [List.foldl_cons]
    exact sep_moveAll js _ (sep_moveInto h hg (hj j (by simp))) (by rw [moveInto_length]; exact hg)
      (fun i hi => by rw [moveInto_length]; exact hj i (List.mem_cons_of_mem _ hi))

theorem sep_append {l : List Grp} {g : Nat} (hg : g < l.length) (h : Sep l) {ps : List (Nat × Nat)}
    {ss : List (Nat × Axis)} (hp : ps.Nodup) (hs : ss.Nodup) (hnew : ∀ x, NewItem ps ss x → ∀ j, ¬ In l j x)
    (ax : Option Axis) : Sep (append l g ps ss ax) := by
  refine ⟨?_, ?_⟩
  · intro k a hk
    unfold append at hk
    rw [List.getElem?_eq_getElem hg] at hk
    simp only at hk
    by_cases k1 : k = g
    · subst k1
      rw [List.getElem?_set_self hg] at hk
      rw [← Option.some.inj hk]
      have h1 := h.1 k _ (List.getElem?_eq_getElem hg)
      refine ⟨List.Nodup.append h1.1 hp ?_, List.Nodup.append h1.2 hs ?_⟩
      · rintro ⟨u, v⟩ hx hy
        exact hnew (.pair u v) hy k ⟨_, List.getElem?_eq_getElem hg, hx⟩
      · rintro ⟨u, v⟩ hx hy
        exact hnew (.self u v) hy k ⟨_, List.getElem?_eq_getElem hg, hx⟩
    · rw [List.getElem?_set_ne (fun e => k1 e.symm)] at hk
      exact h.1 k a hk
  · intro i j x hi hj
    rw [append_spec hg] at hi hj
    rcases hi with hi | ⟨rfl, hi⟩ <;> rcases hj with hj | ⟨rfl, hj⟩
    · exact h.2 i j x hi hj
    · exact absurd hi (hnew x hj i)
    · exact absurd hj (hnew x hi j)
    · rfl

theorem sep_merge {l : List Grp} {c : Grp} (h : Sep l) (hp : c.pairs.Nodup) (hs : c.selfs.Nodup) : Sep (merge l c) := by
  rcases merge_cases l c with ⟨hno, e⟩ | ⟨g, js, ps, ss, ax, hg, hjs, e, -, hps, hss, sp, ss'⟩
  · rw [e]
    have key : ∀ {i : Nat} {a : Grp}, (l ++ [c])[i]? = some a → l[i]? = some a ∨ (i = l.length ∧ a = c) := by
      intro i a hi
      by_cases hil : i < l.length
      · rw [List.getElem?_append_left hil] at hi
        exact Or.inl hi
      · rw [List.getElem?_append_right (by omega)] at hi
        have h0 : i - l.length = 0 := by
          have := (List.getElem?_eq_some_iff.1 hi).1
          simpa using this
        rw [h0] at hi
        simp only [List.getElem?_cons_zero, Option.some.injEq] at hi
        exact Or.inr ⟨by omega, hi.symm⟩
    refine ⟨?_, ?_⟩
    · intro k a hk
      rcases key hk with hk | ⟨-, rfl⟩
      · exact h.1 k a hk
      · exact ⟨hp, hs⟩
    · rintro i j x ⟨a, ha, hax⟩ ⟨b, hb, hbx⟩
      rcases key ha with ha' | ⟨rfl, ea⟩ <;> rcases key hb with hb' | ⟨rfl, eb⟩
      · exact h.2 i j x ⟨a, ha', hax⟩ ⟨b, hb', hbx⟩
      · exact absurd ⟨x, ⟨a, ha', hax⟩, eb ▸ hbx⟩ (hno i)
      · exact absurd ⟨x, ⟨b, hb', hbx⟩, ea ▸ hax⟩ (hno j)
      · rfl
  · rw [e]
    have hgl := hit_lt hg
    have hjl : ∀ j ∈ js, j < l.length := fun j hj => hit_lt ((hjs j).1 hj)
    refine sep_append (by rw [moveAll_length]; exact hgl) (sep_moveAll js l h hgl hjl) (hp.sublist sp)
      (hs.sublist ss') ?_ ax
    intro x hx j hj
    have hj' := (moveAll_spec js l hgl hjl j x).1 hj
    have : ∃ i, In l i x := by
      rcases hj' with ⟨-, i, -, h1⟩ | ⟨-, -, h1⟩
      · exact ⟨i, h1⟩
      · exact ⟨j, h1⟩
    obtain ⟨i, a, ha, hax⟩ := this
    cases x with
    | pair u v => exact ((hps _).1 hx).2 a (List.mem_of_getElem? ha) hax
    | self u v => exact ((hss _).1 hx).2 a (List.mem_of_getElem? ha) hax

theorem groups_sep {cs : List Con} (h : ∀ c ∈ cs, c.Ok) : Sep (groups cs) := by
  induction cs using List.reverseRecOn with
  | nil =>
    refine ⟨fun k a hk => by simp [groups] at hk, ?_⟩
    rintro i j x ⟨a, ha, -⟩
    simp [groups] at ha
  | append_singleton cs c ih =>
    rw [groups_snoc]
    have hc := h c (by simp)
    refine sep_merge (ih fun d hd => h d (by simp [hd])) hc.1 ?_
    refine hc.2.map ?_
    intro a b e
    exact congrArg Prod.fst e

/-! ### Axes -/

theorem moveInto_axis {g j : Nat} {l : List Grp} {ax : Axis} (hg : ∀ a, l[g]? = some a → a.axis = ax)
    (hj : ∀ a, l[j]? = some a → a.axis = ax) (k : Nat) :
    ((moveInto g l j)[k]?).map (·.axis) = (l[k]?).map (·.axis) := by
  unfold moveInto
  by_cases e : j = g
  · rw [if_pos e]
  · rw [if_neg e]
    cases h1 : l[g]? with
    | none => rfl
    | some a =>
      cases h2 : l[j]? with
      | none => rfl
      | some b =>
        simp only
        have hgl := (List.getElem?_eq_some_iff.1 h1).1
        have hjl := (List.getElem?_eq_some_iff.1 h2).1
        by_cases k1 : k = j
        · subst k1
          rw [List.getElem?_set_self (by simpa using hjl), h2]
          rfl
        · rw [List.getElem?_set_ne (fun e => k1 e.symm)]
          by_cases k2 : k = g
          · subst k2
            rw [List.getElem?_set_self hgl, h1, Option.map_some, Option.map_some, hg a h1, hj b h2]
          · rw [List.getElem?_set_ne (fun e => k2 e.symm)]

theorem axis_of_map {l m : List Grp} {k : Nat} (h : (l[k]?).map (·.axis) = (m[k]?).map (·.axis)) {ax : Axis}
    (hm : ∀ a, m[k]? = some a → a.axis = ax) : ∀ a, l[k]? = some a → a.axis = ax := by
  intro a ha
  rw [ha, Option.map_some] at h
  obtain ⟨b, hb, e⟩ := Option.map_eq_some_iff.1 h.symm
  rw [← e]
  exact hm b hb

theorem moveAll_axis {g : Nat} {ax : Axis} : ∀ (js : List Nat) (l : List Grp), (∀ a, l[g]? = some a → a.axis = ax) →
    (∀ j ∈ js, ∀ a, l[j]? = some a → a.axis = ax) → ∀ k : Nat,
    ((js.foldl (moveInto g) l)[k]?).map (·.axis) = (l[k]?).map (·.axis)
  | [], _, _, _, _ => rfl
  | j :: js, l, hg, hj, k => by
    have hm := fun i => moveInto_axis hg (hj j (by simp)) i
    rw [List.foldl_cons, moveAll_axis js _ (axis_of_map (hm g) hg)
      (fun i hi => axis_of_map (hm i) (hj i (List.mem_cons_of_mem _ hi))) k, hm k]

theorem merge_axis {l : List Grp} {c : Grp} (h : ∀ j, Hit l c j → ∀ a, l[j]? = some a → a.axis = c.axis) (k : Nat)
    (hk : k < l.length) : ((merge l c)[k]?).map (·.axis) = (l[k]?).map (·.axis) := by
  rcases merge_cases l c with ⟨-, e⟩ | ⟨g, js, ps, ss, ax, hg, hjs, e, hax, -⟩
  · rw [e, List.getElem?_append_left hk]
  · rw [e]
    have hm := fun i => moveAll_axis (ax := c.axis) js l (h g hg) (fun j hj => h j ((hjs j).1 hj)) i
    rw [← hm k]
    generalize hq : js.foldl (moveInto g) l = q at *
    unfold append
    cases h1 : q[g]? with
    | none => rfl
    | some a =>
      simp only
      by_cases k1 : k = g
      · subst k1
        rw [List.getElem?_set_self (List.getElem?_eq_some_iff.1 h1).1, h1, Option.map_some, Option.map_some]
        have ha := axis_of_map (hm k) (h k hg) a h1
        rcases hax with rfl | rfl
        · rfl
        · simp [ha]
      · rw [List.getElem?_set_ne (fun e => k1 e.symm)]

/-! ## The property -/

/-- **C99**: the groups are the classes of constraints linked by shared pairs or single blocks: each group has
what its constraints ask for, nothing else, and nothing is in two groups. -/
theorem C99_groups (cs : List Con) : ∃ owner, Classes cs (groups cs) owner := groups_classes cs

/-- **C99**: no pair and no single block is twice in a group. -/
theorem C99_once {cs : List Con} (h : ∀ c ∈ cs, c.pairs.Nodup ∧ c.selfs.Nodup) :
    ∀ g ∈ groups cs, g.pairs.Nodup ∧ g.selfs.Nodup := by
  intro g hg
  obtain ⟨k, hk⟩ := List.mem_iff_getElem?.1 hg
  exact (groups_sep h).1 k g hk

/-- **C99**: a group has the axis of all its constraints, if constraints that share a pair have the same axis. -/
theorem C99_axis_partial {cs : List Con} (h : ∀ c ∈ cs, ∀ d ∈ cs, ∀ p, p ∈ c.pairs → p ∈ d.pairs → c.axis = d.axis) :
    ∃ owner, Classes cs (groups cs) owner ∧
      ∀ k c g, cs[k]? = some c → (groups cs)[owner k]? = some g → g.axis = c.axis := by
  induction cs using List.reverseRecOn with
  | nil =>
    obtain ⟨owner, ho⟩ := groups_classes []
    exact ⟨owner, ho, fun k c g hk => by simp at hk⟩
  | append_singleton cs c ih =>
    obtain ⟨owner, ho, hax⟩ := ih fun c hc d hd => h c (by simp [hc]) d (by simp [hd])
    rw [groups_snoc]
    obtain ⟨o, ho', h1, h2, h3⟩ := classes_merge ho c
    refine ⟨o, ho', ?_⟩
    have hshare : ∀ d ∈ cs, ∀ x, d.Has x → c.Has x → d.axis = c.axis := by
      intro d hd x hx hy
      cases x with
      | pair u v => exact h d (by simp [hd]) c (by simp) (u, v) hx hy
      | self b ax => exact hx.2.symm.trans hy.2
    have hhit : ∀ j, Hit (groups cs) c.grp j → ∀ a, (groups cs)[j]? = some a → a.axis = c.grp.axis := by
      rintro j ⟨x, ⟨b, hb, hx⟩, hc⟩ a ha
      obtain ⟨k, d, k1, k2, k3⟩ := ho.only j b x hb hx
      subst k2
      rw [hax k d a k1 ha]
      exact hshare d (List.mem_of_getElem? k1) x k3 ((has_grp c x).1 hc)
    have hm := fun i hi => merge_axis (c := c.grp) hhit i hi
    intro k d g hk hg
    rcases get_snoc hk with ⟨k1, k2⟩ | ⟨rfl, rfl⟩
    · obtain ⟨a, ha, -⟩ := ho.has k d k2
      have hkl := (List.getElem?_eq_some_iff.1 ha).1
      have had := hax k d a k2 ha
      rcases h2 k k1 with e | ⟨e1, e2⟩
      · rw [e] at hg
        exact axis_of_map (hm _ hkl) (fun b hb => hax k d b k2 hb) g hg
      · have h4 : g.axis = c.axis := axis_of_map (hm _ (hit_lt e2)) (fun b hb => hhit _ e2 b hb) g hg
        have h5 : a.axis = c.axis := hhit _ e1 a ha
        rw [h4, ← h5, had]
    · by_cases hno : ∃ j, Hit (groups cs) d.grp j
      · obtain ⟨j, hj⟩ := hno
        have hh := h3 j hj
        exact axis_of_map (hm _ (hit_lt hh)) (fun b hb => hhit _ hh b hb) g hg
      · have hno' : ∀ j, ¬ Hit (groups cs) d.grp j := fun j hj => hno ⟨j, hj⟩
        rw [h1 hno'] at hg
        simp only [Nat.lt_irrefl, if_false] at hg
        rcases merge_cases (groups cs) d.grp with ⟨-, e⟩ | ⟨j, -, -, -, -, hj, -⟩
        · rw [e, List.getElem?_append_right (Nat.le_refl _)] at hg
          simp only [Nat.sub_self, List.getElem?_cons_zero, Option.some.injEq] at hg
          rw [← hg]
          rfl
        · exact absurd hj (hno' j)

/-- The blocks an item names. -/
def Item.blocks : Item → List Nat
  | .pair a b => [a, b]
  | .self b _ => [b]

/-- The group as the moves of the placer take it (C98). -/
def Grp.toMoves (g : Grp) : Verif.Moves.Group := ⟨g.pairs, g.selfs.map (·.1), g.axis⟩

/-- **C99**: when every block is named by at most one item, no block is in two groups or twice in one, as C98
needs it. -/
theorem C99_blocks_partial {cs : List Con} (h : ∀ c ∈ cs, c.pairs.Nodup ∧ c.selfs.Nodup)
    (hp : ∀ c ∈ cs, ∀ p ∈ c.pairs, p.1 ≠ p.2)
    (hb : ∀ c ∈ cs, ∀ d ∈ cs, ∀ x y, c.Has x → d.Has y → ∀ b, b ∈ x.blocks → b ∈ y.blocks → x = y) :
    (((groups cs).map Grp.toMoves).flatMap Verif.Moves.Group.members).Nodup := by
  obtain ⟨hs1, hs2⟩ := groups_sep h
  obtain ⟨owner, ho⟩ := groups_classes cs
  have hin : ∀ k x, In (groups cs) k x → ∃ c ∈ cs, c.Has x := by
    rintro k x ⟨g, hg, hx⟩
    obtain ⟨i, c, h1, -, h2⟩ := ho.only k g x hg hx
    exact ⟨c, List.mem_of_getElem? h1, h2⟩
  have huniq : ∀ i j x y b, In (groups cs) i x → In (groups cs) j y → b ∈ x.blocks → b ∈ y.blocks → x = y := by
    intro i j x y b h1 h2 h3 h4
    obtain ⟨c, hc, hcx⟩ := hin i x h1
    obtain ⟨d, hd, hdy⟩ := hin j y h2
    exact hb c hc d hd x y hcx hdy b h3 h4
  have hitem : ∀ g b, b ∈ (Grp.toMoves g).members → ∃ x, g.Has x ∧ b ∈ x.blocks := by
    intro g b hm
    rcases Verif.Moves.mem_members.1 hm with ⟨⟨u, v⟩, h1, rfl⟩ | ⟨⟨u, v⟩, h1, rfl⟩ | h1
    · exact ⟨.pair u v, h1, by simp [Item.blocks]⟩
    · exact ⟨.pair u v, h1, by simp [Item.blocks]⟩
    · obtain ⟨⟨u, ax⟩, h2, rfl⟩ := List.mem_map.1 h1
      exact ⟨.self u ax, h2, by simp [Item.blocks]⟩
  rw [List.nodup_flatMap]
  constructor
  · intro m hm
    obtain ⟨g, hg, rfl⟩ := List.mem_map.1 hm
    obtain ⟨k, hk⟩ := List.mem_iff_getElem?.1 hg
    obtain ⟨n1, n2⟩ := hs1 k g hk
    have hI : ∀ x, g.Has x → In (groups cs) k x := fun x hx => ⟨g, hk, hx⟩
    have u1 : ∀ (p q : Nat × Nat) (b : Nat), p ∈ g.pairs → q ∈ g.pairs → b ∈ [p.1, p.2] → b ∈ [q.1, q.2] → p = q := by
      intro p q b h1 h2 h3 h4
      have := huniq k k (.pair p.1 p.2) (.pair q.1 q.2) b (hI _ h1) (hI _ h2) h3 h4
      simp only [Item.pair.injEq] at this
      exact Prod.ext this.1 this.2
    unfold Verif.Moves.Group.members Grp.toMoves
    refine List.Nodup.append (List.Nodup.append ?_ ?_ ?_) ?_ ?_
    · refine List.Nodup.map_on ?_ n1
      intro p h1 q h2 e
      exact u1 p q p.1 h1 h2 (by simp) (by simp [e])
    · refine List.Nodup.map_on ?_ n1
      intro p h1 q h2 e
      exact u1 p q p.2 h1 h2 (by simp) (by simp [e])
    · intro b h1 h2
      obtain ⟨p, hp1, rfl⟩ := List.mem_map.1 h1
      obtain ⟨q, hq, e⟩ := List.mem_map.1 h2
      have := u1 p q p.1 hp1 hq (by simp) (by simp [e])
      subst this
      obtain ⟨c, hc, hcx⟩ := hin k (.pair p.1 p.2) (hI _ hp1)
      exact hp c hc p hcx e.symm
    · refine List.Nodup.map_on ?_ n2
      intro p h1 q h2 e
      have := huniq k k (.self p.1 p.2) (.self q.1 q.2) p.1 (hI _ h1) (hI _ h2) (by simp [Item.blocks])
        (by simp [Item.blocks, e])
      simp only [Item.self.injEq] at this
      exact Prod.ext this.1 this.2
    · intro b h1 h2
      obtain ⟨q, hq, e⟩ := List.mem_map.1 h2
      have : ∃ p ∈ g.pairs, b ∈ [p.1, p.2] := by
        rcases List.mem_append.1 h1 with h1 | h1
        · obtain ⟨p, hp1, rfl⟩ := List.mem_map.1 h1
          exact ⟨p, hp1, by simp⟩
        · obtain ⟨p, hp1, rfl⟩ := List.mem_map.1 h1
          exact ⟨p, hp1, by simp⟩
      obtain ⟨p, hp1, hbp⟩ := this
      have := huniq k k (.pair p.1 p.2) (.self q.1 q.2) b (hI _ hp1) (hI _ hq) hbp (by simp [Item.blocks, ← e])
      cases this
  · rw [List.pairwise_map, List.pairwise_iff_getElem]
    intro i j hi hj hij b h1 h2
    obtain ⟨x, hx, hbx⟩ := hitem _ b h1
    obtain ⟨y, hy, hby⟩ := hitem _ b h2
    have ix : In (groups cs) i x := ⟨_, List.getElem?_eq_getElem hi, hx⟩
    have iy : In (groups cs) j y := ⟨_, List.getElem?_eq_getElem hj, hy⟩
    have e := huniq i j x y b ix iy hbx hby
    subst e
    have := hs2 i j x ix iy
    omega

theorem groups_apart {cs : List Con} (h : ∀ (k l : Nat) (c d : Con) (x : Item), cs[k]? = some c → cs[l]? = some d → c.Has x → d.Has x → k = l) :
    groups cs = cs.map Con.grp := by
  induction cs using List.reverseRecOn with
  | nil => rfl
  | append_singleton cs c ih =>
    have ih' := ih (by
      intro k l a b x h1 h2
      refine h k l a b x ?_ ?_
      · rw [List.getElem?_append_left (List.getElem?_eq_some_iff.1 h1).1]
        exact h1
      · rw [List.getElem?_append_left (List.getElem?_eq_some_iff.1 h2).1]
        exact h2)
    rw [groups_snoc, ih', List.map_append, List.map_singleton]
    rcases merge_cases (cs.map Con.grp) c.grp with ⟨-, e⟩ | ⟨j, -, -, -, -, ⟨x, ⟨a, ha, hx⟩, hc⟩, -⟩
    · exact e
    · rw [List.getElem?_map, Option.map_eq_some_iff] at ha
      obtain ⟨d, hd, rfl⟩ := ha
      have hjl := (List.getElem?_eq_some_iff.1 hd).1
      have := h j cs.length d c x (by rw [List.getElem?_append_left hjl]; exact hd) (by simp)
        ((has_grp d x).1 hx) ((has_grp c x).1 hc)
      omega

/-- **C99**: the axis looked up for a block is that of the constraint naming it, if no two constraints share an item and
only this constraint names the block. -/
theorem C99_lookup_partial {cs : List Con}
    (h : ∀ (k l : Nat) (c d : Con) (x : Item), cs[k]? = some c → cs[l]? = some d → c.Has x → d.Has x → k = l)
    {k : Nat} {c : Con} {b : Nat} (hk : cs[k]? = some c) (hb : ∃ x, c.Has x ∧ b ∈ x.blocks)
    (honly : ∀ (l : Nat) (d : Con) (x : Item), cs[l]? = some d → d.Has x → b ∈ x.blocks → l = k) : axisOf cs b = some c.axis := by
  have hP : ∀ d : Con, ((∃ p ∈ d.grp.pairs, p.1 = b ∨ p.2 = b) ∨ ∃ s ∈ d.grp.selfs, s.1 = b) ↔
      ∃ x, d.Has x ∧ b ∈ x.blocks := by
    intro d
    constructor
    · rintro (⟨⟨u, v⟩, h1, h2⟩ | ⟨⟨u, ax⟩, h1, rfl⟩)
      · refine ⟨.pair u v, h1, ?_⟩
        rcases h2 with rfl | rfl <;> simp [Item.blocks]
      · exact ⟨.self u ax, (has_grp d (.self u ax)).1 h1, by simp [Item.blocks]⟩
    · rintro ⟨x, h1, h2⟩
      cases x with
      | pair u v =>
        simp only [Item.blocks, List.mem_cons, List.not_mem_nil, or_false] at h2
        exact Or.inl ⟨(u, v), h1, by tauto⟩
      | self u ax =>
        simp only [Item.blocks, List.mem_singleton] at h2
        exact Or.inr ⟨(u, ax), (has_grp d (.self u ax)).2 h1, h2.symm⟩
  have hg : groupOf cs b = some k := by
    unfold groupOf
    rw [groups_apart h]
    have hall : ∀ y ∈ ((cs.map Con.grp).zipIdx.filter fun x =>
        decide ((∃ p ∈ x.1.pairs, p.1 = b ∨ p.2 = b) ∨ ∃ s ∈ x.1.selfs, s.1 = b)), y.2 = k := by
      rintro ⟨g, i⟩ hy
      rw [List.mem_filter, List.mem_zipIdx_iff_getElem?, List.getElem?_map, Option.map_eq_some_iff,
        decide_eq_true_iff] at hy
      obtain ⟨⟨d, hd, e⟩, h2⟩ := hy
      simp only at hd e h2
      subst e
      obtain ⟨x, hx, hbx⟩ := (hP d).1 h2
      exact honly i d x hd hx hbx
    have hmem : (c.grp, k) ∈ ((cs.map Con.grp).zipIdx.filter fun x =>
        decide ((∃ p ∈ x.1.pairs, p.1 = b ∨ p.2 = b) ∨ ∃ s ∈ x.1.selfs, s.1 = b)) := by
      rw [List.mem_filter, List.mem_zipIdx_iff_getElem?, List.getElem?_map]
      refine ⟨by rw [hk]; rfl, ?_⟩
      rw [decide_eq_true_iff]
      exact (hP c).2 hb
    generalize ((cs.map Con.grp).zipIdx.filter fun x =>
      decide ((∃ p ∈ x.1.pairs, p.1 = b ∨ p.2 = b) ∨ ∃ s ∈ x.1.selfs, s.1 = b)) = L at *
    have hne : L ≠ [] := List.ne_nil_of_mem hmem
    rw [List.getLast?_eq_some_getLast hne, Option.map_some, hall _ (List.getLast_mem hne)]
  unfold axisOf
  rw [hg, Option.bind_some, hk]
  rfl

/-- Constraints over three pairs and a single block; the second and the third share the single block. -/
def exCs : List Con := [⟨[(0, 1)], [], .H⟩, ⟨[(2, 3)], [4], .V⟩, ⟨[(5, 6)], [4], .V⟩]

/-- The hypotheses can be met. -/
example : groups exCs = [⟨[(0, 1)], [], .H⟩, ⟨[(2, 3), (5, 6)], [(4, .V)], .V⟩] ∧
    (∀ c ∈ exCs, c.pairs.Nodup ∧ c.selfs.Nodup) ∧ (∀ c ∈ exCs, ∀ p ∈ c.pairs, p.1 ≠ p.2) ∧
    (∀ c ∈ exCs, ∀ d ∈ exCs, ∀ p, p ∈ c.pairs → p ∈ d.pairs → c.axis = d.axis) ∧
    groups [⟨[(0, 1)], [], .V⟩, ⟨[(2, 3)], [], .V⟩, ⟨[(0, 1), (2, 3)], [4], .V⟩] =
      [⟨[(0, 1), (2, 3)], [(4, .V)], .V⟩, ⟨[], [], .V⟩] := by
  refine ⟨by decide +kernel, by decide, by decide, ?_, by decide +kernel⟩
  intro c hc d hd p hp hq
  simp only [exCs, List.mem_cons, List.not_mem_nil, or_false] at hc hd
  rcases hc with rfl | rfl | rfl <;> rcases hd with rfl | rfl | rfl <;> simp_all

/-- The whole claim about axes. -/
def AxesKept : Prop := ∀ cs : List Con, ∀ c ∈ cs, ∃ g ∈ groups cs, (∀ x, c.Has x → g.Has x) ∧ g.axis = c.axis

/-- **C99 is violated**: of two constraints with the same pair and different axes one is lost. -/
theorem C99_violated_axis : ¬ AxesKept := by
  intro h
  obtain ⟨g, hg, -, hax⟩ := h [⟨[(0, 1)], [], .V⟩, ⟨[(0, 1)], [], .H⟩] ⟨[(0, 1)], [], .H⟩ (by simp)
  have e : groups [⟨[(0, 1)], [], .V⟩, ⟨[(0, 1)], [], .H⟩] = [⟨[(0, 1)], [], .V⟩] := by decide +kernel
  rw [e, List.mem_singleton] at hg
  subst hg
  cases hax

/-- The whole claim about blocks. -/
def BlocksOnce : Prop := ∀ cs : List Con, (∀ c ∈ cs, (c.pairs.map (·.1) ++ c.pairs.map (·.2) ++ c.selfs).Nodup) →
  (((groups cs).map Grp.toMoves).flatMap Verif.Moves.Group.members).Nodup

/-- **C99 is violated**: a block paired with two others is in two groups (see `C98_violated_shared` for what follows). -/
theorem C99_violated_block : ¬ BlocksOnce := by
  intro h
  have := h [⟨[(0, 1)], [3], .V⟩, ⟨[(0, 2)], [], .H⟩] (by decide)
  revert this
  decide +kernel

/-- The groups of this example are those of `C98_violated_shared`. -/
theorem shared_groups : (groups [⟨[(0, 1)], [3], .V⟩, ⟨[(0, 2)], [], .H⟩]).map Grp.toMoves =
    Verif.Moves.twoD.groups := by decide +kernel

/-- The whole claim about the axis looked up. -/
def LookupRight : Prop := ∀ cs : List Con, ∀ g ∈ groups cs, ∀ b ∈ (Grp.toMoves g).members,
  (∀ h ∈ groups cs, b ∈ (Grp.toMoves h).members → h = g) → axisOf cs b = some g.axis

/-- **C99 is violated**: the number of a group is used in the list of constraints; after two constraints are merged
it is that of another one. -/
theorem C99_violated_lookup : ¬ LookupRight := by
  intro h
  have := h [⟨[(0, 1)], [], .H⟩, ⟨[(0, 1)], [2], .H⟩, ⟨[(3, 4)], [], .V⟩] ⟨[(3, 4)], [], .V⟩ (by decide +kernel) 3
    (by decide) (by decide +kernel)
  revert this
  decide +kernel

end Verif.SymGroups

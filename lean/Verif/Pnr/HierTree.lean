import Mathlib.Data.List.Basic
import Mathlib.Data.List.Nodup
import Mathlib.Logic.Relation
import Mathlib.Data.Finset.Card
import Mathlib.Data.List.Count

/-!
# C107: the hierarchy of modules in the database of place and route

Model of the part of `PnRdatabase::semantic0` (`PlaceRouteHierFlow/PnRDB/PnRdatabase.cpp` 1534-1564) that links the blocks of the
modules to the modules they are instances of, and of `TraverseHierTree`, `TraverseDFS` (17-22, 85-94), the order in which the
modules are placed (`align/pnr/placer.py` 215-223) and routed (`align/pnr/router.py` 195-201).

Simplifications: a node has only its name, its blocks, its parents and the flag of the top module; a block has only the name of
its master and its child, `-1` if it has none. When `semantic0` runs, every block has exactly one instance
(`build_pnr_model.py` 91), so `instance.back()` is that instance. The sizes of the vectors do not change during the loops, so the
bounds of the loops are taken from the database before them. `topidx` (`PnRdatabase.h` 73), which is not initialised, is an
`Option`. The terminals of the nets are in `Verif/Pnr/Load.lean`.
-/

namespace Verif.HierTree

/-- A block: the master of its only instance, and `child`. -/
structure Block where
  master : String
  child : Int
deriving DecidableEq

/-- `PnRDB::hierNode`. -/
structure Node where
  name : String
  blocks : List Block
  parent : List Nat
  isTop : Bool
deriving DecidableEq

structure DB where
  tree : List Node
  topidx : Option Nat
deriving DecidableEq

/-! ## `semantic0` -/

/-- 1538-1542: no block has a child. -/
def reset (t : List Node) : List Node := t.map fun n => { n with blocks := n.blocks.map fun b => { b with child := -1 } }

/-- 1550-1557: `j` becomes a parent, unless it is one. -/
def addParent (j : Nat) (ps : List Nat) : List Nat := if j ∈ ps then ps else ps ++ [j]

/-- 1548-1558: block `k` of node `j` is compared with node `i`. -/
def link (t : List Node) (i j k : Nat) : List Node :=
  if (do let n ← t[j]?; let b ← n.blocks[k]?; some b.master) = (do let n ← t[i]?; some n.name) then
    (t.modify j fun n => { n with blocks := n.blocks.modify k fun b => { b with child := (i : Int) } }).modify i
      fun n => { n with parent := addParent j n.parent }
  else t

/-- 1561-1564: the top module. -/
def markTop (topcell : String) (d : DB) (i : Nat) : DB :=
  if (d.tree[i]?.map fun n => n.name) = some topcell then
    { tree := d.tree.modify i fun n => { n with isTop := true }, topidx := some i }
  else d

/-- The number of blocks of node `j`. -/
def nblocks (t : List Node) (j : Nat) : Nat := ((t[j]?.map fun n => n.blocks.length)).getD 0

/-- 1545-1564 for node `i`. -/
def visitNode (t0 : List Node) (topcell : String) (d : DB) (i : Nat) : DB :=
  markTop topcell { d with tree := (List.range t0.length).foldl (fun t j =>
    (List.range (nblocks t0 j)).foldl (fun t k => link t i j k) t) d.tree } i

/-- 1534-1564. -/
def semantic0 (topcell : String) (d : DB) : DB :=
  (List.range d.tree.length).foldl (visitNode d.tree topcell) { d with tree := reset d.tree }

/-! ## `TraverseHierTree` -/

inductive Color
  | white | gray | black
deriving DecidableEq

structure St where
  color : List Color
  q : List Nat
deriving DecidableEq

/-- `TraverseDFS` (85-94). The first argument bounds the depth of the recursion; `none` is an index out of range, or the end of
the recursion. -/
def dfs (t : List Node) : Nat → Nat → St → Option St
  | 0, _, _ => none
  | f + 1, idx, s => do
    let n ← t[idx]?
    let s ← n.blocks.foldlM (fun (s : St) (b : Block) =>
      if b.child ≠ -1 ∧ s.color[b.child.toNat]? = some .white then dfs t f b.child.toNat s else some s)
      { s with color := s.color.set idx .gray }
    some { color := s.color.set idx .black, q := s.q ++ [idx] }

/-- `TraverseHierTree` (17-22). -/
def traverse (d : DB) : Option (List Nat) := do
  let top ← d.topidx
  let s ← dfs d.tree (d.tree.length + 1) top { color := d.tree.map fun _ => .white, q := [] }
  some s.q

/-! ## Specification -/

/-- The names of the modules, in order, with the masters of their blocks. -/
def shape (t : List Node) : List (String × List String) := t.map fun n => (n.name, n.blocks.map (·.master))

/-- Module `j` of a hierarchy has an instance of module `i`. -/
def Uses (sh : List (String × List String)) (j i : Nat) : Prop :=
  ∃ (a b : String × List String), sh[j]? = some a ∧ sh[i]? = some b ∧ b.1 ∈ a.2

/-- The links of a database are those of the hierarchy. -/
structure Linked (sh : List (String × List String)) (t : List Node) : Prop where
  /-- Names and masters are kept. -/
  same : shape t = sh
  /-- The child of a block is a module with the name of its master, if there is one. -/
  child : ∀ (j k : Nat) (n : Node) (b : Block), t[j]? = some n → n.blocks[k]? = some b →
    (b.child = -1 ∧ ∀ m ∈ t, m.name ≠ b.master) ∨ ∃ (i : Nat) (m : Node), b.child = i ∧ t[i]? = some m ∧ m.name = b.master
  /-- The parents of a module are those with an instance of it, each once. -/
  parent : ∀ (i : Nat) (n : Node), t[i]? = some n → (∀ j, j ∈ n.parent ↔ Uses sh j i) ∧ n.parent.Nodup

/-! ## Linking -/

theorem shape_get {t : List Node} {j : Nat} {a : String × List String} : (shape t)[j]? = some a ↔
    ∃ n, t[j]? = some n ∧ a = (n.name, n.blocks.map (·.master)) := by
  simp only [shape, List.getElem?_map, Option.map_eq_some_iff]
  constructor
  · rintro ⟨n, h, rfl⟩
    exact ⟨n, h, rfl⟩
  · rintro ⟨n, h, rfl⟩
    exact ⟨n, h, rfl⟩

/-- Block `k` of node `j` has the name of node `i` as master. -/
def Match (sh : List (String × List String)) (i j k : Nat) : Prop :=
  ∃ (a b : String × List String), sh[j]? = some a ∧ sh[i]? = some b ∧ a.2[k]? = some b.1

/-- What the triples done so far have made of the database. -/
structure Inv (sh : List (String × List String)) (done : List (Nat × Nat × Nat)) (t : List Node) : Prop where
  same : shape t = sh
  child : ∀ (j k : Nat) (n : Node) (b : Block), t[j]? = some n → n.blocks[k]? = some b →
    (b.child = -1 ∧ ∀ i, (i, j, k) ∈ done → ¬ Match sh i j k) ∨ ∃ i : Nat, b.child = i ∧ Match sh i j k
  parent : ∀ (i : Nat) (n : Node), t[i]? = some n →
    (∀ j, j ∈ n.parent ↔ ∃ k, (i, j, k) ∈ done ∧ Match sh i j k) ∧ n.parent.Nodup

theorem mem_addParent {j x : Nat} {ps : List Nat} : x ∈ addParent j ps ↔ x ∈ ps ∨ x = j := by
  unfold addParent
  split
  · constructor
    · exact Or.inl
    · rintro (h | rfl) <;> assumption
  · simp

theorem nodup_addParent {j : Nat} {ps : List Nat} (h : ps.Nodup) : (addParent j ps).Nodup := by
  unfold addParent
  split
  · exact h
  · rename_i hj
    rw [List.nodup_append]
    refine ⟨h, by simp, ?_⟩
    intro a ha b hb
    simp only [List.mem_singleton] at hb
    subst hb
    rintro rfl
    exact hj ha

theorem reset_inv {t : List Node} (h : ∀ n ∈ t, n.parent = []) : Inv (shape t) [] (reset t) := by
  refine ⟨?_, ?_, ?_⟩
  · simp [shape, reset, Function.comp_def]
  · intro j k n b hn hb
    simp only [reset, List.getElem?_map, Option.map_eq_some_iff] at hn
    obtain ⟨n0, -, rfl⟩ := hn
    simp only [List.getElem?_map, Option.map_eq_some_iff] at hb
    obtain ⟨b0, -, rfl⟩ := hb
    exact Or.inl ⟨rfl, by simp⟩
  · intro i n hn
    simp only [reset, List.getElem?_map, Option.map_eq_some_iff] at hn
    obtain ⟨n0, h0, rfl⟩ := hn
    have := h n0 (List.mem_of_getElem? h0)
    simp [this]

theorem match_iff {t : List Node} {i j k : Nat} :
    Match (shape t) i j k ↔ ∃ m, (do let n ← t[j]?; let b ← n.blocks[k]?; some b.master) = some m ∧
      (do let n ← t[i]?; some n.name) = some m := by
  unfold Match
  constructor
  · rintro ⟨a, b, ha, hb, hk⟩
    obtain ⟨n, hn, rfl⟩ := shape_get.1 ha
    obtain ⟨n', hn', rfl⟩ := shape_get.1 hb
    simp only [List.getElem?_map, Option.map_eq_some_iff] at hk
    obtain ⟨x, hx, hxm⟩ := hk
    exact ⟨n'.name, by simp [hn, hx, hxm], by simp [hn']⟩
  · rintro ⟨m, h1, h2⟩
    cases hn : t[j]? with
    | none => simp [hn] at h1
    | some n =>
      cases hb : n.blocks[k]? with
      | none => simp [hn, hb] at h1
      | some b =>
        cases hn' : t[i]? with
        | none => simp [hn'] at h2
        | some n' =>
          simp only [hn, hb, hn', Option.bind_eq_bind, Option.bind_some, Option.some.injEq] at h1 h2
          refine ⟨_, _, shape_get.2 ⟨n, hn, rfl⟩, shape_get.2 ⟨n', hn', rfl⟩, ?_⟩
          simp [hb, h1, h2]

theorem link_inv {sh : List (String × List String)} {done : List (Nat × Nat × Nat)} {t : List Node} (h : Inv sh done t)
    {i j k : Nat} (hj : ∃ n, t[j]? = some n ∧ k < n.blocks.length) : Inv sh (done ++ [(i, j, k)]) (link t i j k) := by
  obtain ⟨nj, hnj, hk⟩ := hj
  have hm := match_iff (t := t) (i := i) (j := j) (k := k)
  rw [h.same] at hm
  unfold link
  by_cases hc : (do let n ← t[j]?; let b ← n.blocks[k]?; some b.master) = (do let n ← t[i]?; some n.name)
  · rw [if_pos hc]
    have hmatch : Match sh i j k := by
      rw [hm]
      refine ⟨nj.blocks[k].master, ?_, ?_⟩
      · simp [hnj, hk]
      · rw [← hc]; simp [hnj, hk]
    have hget : ∀ x, ((t.modify j fun n => { n with blocks := n.blocks.modify k fun b => { b with child := (i : Int) } }).modify i
        fun n => { n with parent := addParent j n.parent })[x]? = (t[x]?).map fun (n : Node) =>
          { n with
            blocks := if j = x then n.blocks.modify k fun b => { b with child := (i : Int) } else n.blocks
            parent := if i = x then addParent j n.parent else n.parent } := by
      intro x
      rw [List.getElem?_modify, List.getElem?_modify]
      cases t[x]? with
      | none => rfl
      | some n =>
        by_cases h1 : i = x <;> by_cases h2 : j = x <;> simp [h1, h2]
    refine ⟨?_, ?_, ?_⟩
    · rw [← h.same]
      apply List.ext_getElem?
      intro x
      simp only [shape, List.getElem?_map]
      rw [hget]
      cases t[x]? with
      | none => rfl
      | some n =>
        simp only [Option.map_some, Option.some.injEq, Prod.mk.injEq, true_and]
        split
        · apply List.ext_getElem?
          intro y
          simp only [List.getElem?_map, List.getElem?_modify]
          cases n.blocks[y]? with
          | none => rfl
          | some b => by_cases hy : k = y <;> simp [hy]
        · rfl
    · intro x y n b hn hb
      rw [hget] at hn
      simp only [Option.map_eq_some_iff] at hn
      obtain ⟨n0, h0, rfl⟩ := hn
      dsimp only at hb
      by_cases hx : j = x
      · subst hx
        rw [if_pos rfl, List.getElem?_modify] at hb
        cases hb0 : n0.blocks[y]? with
        | none => simp [hb0] at hb
        | some b0 =>
          rw [hb0] at hb
          by_cases hy : k = y
          · subst hy
            simp only [if_pos, Option.map_eq_map, Option.map_some, Option.some.injEq] at hb
            subst hb
            exact Or.inr ⟨i, rfl, hmatch⟩
          · simp only [if_neg hy, Option.map_eq_map, Option.map_some, Option.some.injEq] at hb
            subst hb
            rcases h.child j y n0 b0 h0 hb0 with ⟨h1, h2⟩ | h1
            · refine Or.inl ⟨h1, ?_⟩
              intro i' hi'
              simp only [List.mem_append, List.mem_singleton, Prod.mk.injEq] at hi'
              rcases hi' with hi' | ⟨-, -, hy'⟩
              · exact h2 i' hi'
              · exact absurd hy'.symm hy
            · exact Or.inr h1
      · rw [if_neg hx] at hb
        rcases h.child x y n0 b h0 hb with ⟨h1, h2⟩ | h1
        · refine Or.inl ⟨h1, ?_⟩
          intro i' hi'
          simp only [List.mem_append, List.mem_singleton, Prod.mk.injEq] at hi'
          rcases hi' with hi' | ⟨-, hx', -⟩
          · exact h2 i' hi'
          · exact absurd hx'.symm hx
        · exact Or.inr h1
    · intro x n hn
      rw [hget] at hn
      simp only [Option.map_eq_some_iff] at hn
      obtain ⟨n0, h0, rfl⟩ := hn
      obtain ⟨h1, h2⟩ := h.parent x n0 h0
      dsimp only
      by_cases hx : i = x
      · subst hx
        rw [if_pos rfl]
        refine ⟨?_, nodup_addParent h2⟩
        intro y
        rw [mem_addParent, h1 y]
        constructor
        · rintro (⟨k', hk', hm'⟩ | rfl)
          · exact ⟨k', List.mem_append_left _ hk', hm'⟩
          · exact ⟨k, by simp, hmatch⟩
        · rintro ⟨k', hk', hm'⟩
          simp only [List.mem_append, List.mem_singleton, Prod.mk.injEq] at hk'
          rcases hk' with hk' | ⟨-, rfl, -⟩
          · exact Or.inl ⟨k', hk', hm'⟩
          · exact Or.inr rfl
      · rw [if_neg hx]
        refine ⟨?_, h2⟩
        intro y
        rw [h1 y]
        constructor
        · rintro ⟨k', hk', hm'⟩
          exact ⟨k', List.mem_append_left _ hk', hm'⟩
        · rintro ⟨k', hk', hm'⟩
          simp only [List.mem_append, List.mem_singleton, Prod.mk.injEq] at hk'
          rcases hk' with hk' | ⟨hx', -, -⟩
          · exact ⟨k', hk', hm'⟩
          · exact absurd hx'.symm hx
  · rw [if_neg hc]
    have hno : ¬ Match sh i j k := by
      rw [hm]
      rintro ⟨m, h1, h2⟩
      exact hc (h1.trans h2.symm)
    refine ⟨h.same, ?_, ?_⟩
    · intro x y n b hn hb
      rcases h.child x y n b hn hb with ⟨h1, h2⟩ | h1
      · refine Or.inl ⟨h1, ?_⟩
        intro i' hi'
        simp only [List.mem_append, List.mem_singleton, Prod.mk.injEq] at hi'
        rcases hi' with hi' | ⟨rfl, rfl, rfl⟩
        · exact h2 i' hi'
        · exact hno
      · exact Or.inr h1
    · intro x n hn
      obtain ⟨h1, h2⟩ := h.parent x n hn
      refine ⟨?_, h2⟩
      intro y
      rw [h1 y]
      constructor
      · rintro ⟨k', hk', hm'⟩
        exact ⟨k', List.mem_append_left _ hk', hm'⟩
      · rintro ⟨k', hk', hm'⟩
        simp only [List.mem_append, List.mem_singleton, Prod.mk.injEq] at hk'
        rcases hk' with hk' | ⟨rfl, rfl, rfl⟩
        · exact ⟨k', hk', hm'⟩
        · exact absurd hm' hno

theorem nblocks_of_shape {t : List Node} {j k : Nat} : k < nblocks t j ↔ ∃ a, (shape t)[j]? = some a ∧ k < a.2.length := by
  unfold nblocks
  constructor
  · intro h
    cases hn : t[j]? with
    | none => simp [hn] at h
    | some n => exact ⟨_, shape_get.2 ⟨n, hn, rfl⟩, by simpa [hn] using h⟩
  · rintro ⟨a, ha, hk⟩
    obtain ⟨n, hn, rfl⟩ := shape_get.1 ha
    simpa [hn] using hk

theorem nblocks_get {t t0 : List Node} (h : shape t = shape t0) {j k : Nat} (hk : k < nblocks t0 j) :
    ∃ n, t[j]? = some n ∧ k < n.blocks.length := by
  obtain ⟨a, ha, hk⟩ := nblocks_of_shape.1 hk
  rw [← h] at ha
  obtain ⟨n, hn, rfl⟩ := shape_get.1 ha
  exact ⟨n, hn, by simpa using hk⟩

theorem blocks_inv {t0 : List Node} {i j : Nat} : ∀ (m : Nat) {done : List (Nat × Nat × Nat)} {t : List Node},
    m ≤ nblocks t0 j → Inv (shape t0) done t →
    Inv (shape t0) (done ++ (List.range m).map fun k => (i, j, k)) ((List.range m).foldl (fun t k => link t i j k) t) := by
  intro m
  induction m with
  | zero => intro done t _ h; simpa using h
  | succ m ih =>
    intro done t hm h
    have := ih (by omega) h
    rw [List.range_succ, List.foldl_append, List.map_append, ← List.append_assoc]
    exact link_inv this (nblocks_get this.same hm)

theorem nodes_inv {t0 : List Node} {i : Nat} : ∀ (m : Nat) {done : List (Nat × Nat × Nat)} {t : List Node},
    Inv (shape t0) done t →
    Inv (shape t0) (done ++ (List.range m).flatMap fun j => (List.range (nblocks t0 j)).map fun k => (i, j, k))
      ((List.range m).foldl (fun t j => (List.range (nblocks t0 j)).foldl (fun t k => link t i j k) t) t) := by
  intro m
  induction m with
  | zero => intro done t h; simpa using h
  | succ m ih =>
    intro done t h
    rw [List.range_succ, List.foldl_append, List.flatMap_append, ← List.append_assoc]
    simpa using blocks_inv (i := i) (nblocks t0 m) le_rfl (ih h)

theorem top_inv {sh : List (String × List String)} {done : List (Nat × Nat × Nat)} {topcell : String} {d : DB}
    (h : Inv sh done d.tree) (i : Nat) : Inv sh done (markTop topcell d i).tree := by
  unfold markTop
  split
  · have hget : ∀ x, (d.tree.modify i fun n => { n with isTop := true })[x]? = (d.tree[x]?).map fun (n : Node) =>
        { n with isTop := if i = x then true else n.isTop } := by
      intro x
      rw [List.getElem?_modify]
      cases d.tree[x]? with
      | none => rfl
      | some n => by_cases h1 : i = x <;> simp [h1]
    refine ⟨?_, ?_, ?_⟩
    · rw [← h.same]
      apply List.ext_getElem?
      intro x
      simp only [shape, List.getElem?_map]
      rw [hget]
      cases d.tree[x]? <;> rfl
    · intro x y n b hn hb
      rw [hget] at hn
      simp only [Option.map_eq_some_iff] at hn
      obtain ⟨n0, h0, rfl⟩ := hn
      exact h.child x y n0 b h0 hb
    · intro x n hn
      rw [hget] at hn
      simp only [Option.map_eq_some_iff] at hn
      obtain ⟨n0, h0, rfl⟩ := hn
      exact h.parent x n0 h0
  · exact h

/-- The top module found so far. -/
def TopInv (sh : List (String × List String)) (topcell : String) (m : Nat) (d : DB) : Prop :=
  (∀ i, d.topidx = some i → (∃ a, sh[i]? = some a ∧ a.1 = topcell)) ∧
  (∀ i a, i < m → sh[i]? = some a → a.1 = topcell → d.topidx ≠ none) ∧
  (∀ i n, d.tree[i]? = some n → (n.isTop = true ↔ i < m ∧ n.name = topcell))

theorem semantic_inv {t0 : List Node} {topcell : String} (h : ∀ n ∈ t0, n.parent = []) (hf : ∀ n ∈ t0, n.isTop = false) :
    ∀ (m : Nat), Inv (shape t0) ((List.range m).flatMap fun i => (List.range t0.length).flatMap fun j =>
        (List.range (nblocks t0 j)).map fun k => (i, j, k))
      ((List.range m).foldl (visitNode t0 topcell) { tree := reset t0, topidx := none }).tree ∧
      TopInv (shape t0) topcell m ((List.range m).foldl (visitNode t0 topcell) { tree := reset t0, topidx := none }) := by
  intro m
  induction m with
  | zero =>
    refine ⟨by simpa using reset_inv h, by simp, by simp, ?_⟩
    intro i n hn
    simp only [List.range_zero, List.foldl_nil, reset, List.getElem?_map, Option.map_eq_some_iff] at hn
    obtain ⟨n0, h0, rfl⟩ := hn
    simp [hf n0 (List.mem_of_getElem? h0)]
  | succ m ih =>
    obtain ⟨ih, it1, it2, it3⟩ := ih
    rw [List.range_succ, List.foldl_append, List.flatMap_append]
    simp only [List.foldl_cons, List.foldl_nil, List.flatMap_cons, List.flatMap_nil, List.append_nil]
    generalize hd : (List.range m).foldl (visitNode t0 topcell) { tree := reset t0, topidx := none } = d at *
    have hn := nodes_inv (i := m) t0.length ih
    refine ⟨top_inv (d := { d with tree := _ }) hn m, ?_⟩
    have htop : ∀ (x : Nat), (((List.range t0.length).foldl (fun t j =>
        (List.range (nblocks t0 j)).foldl (fun t k => link t m j k) t) d.tree)[x]?.map fun (n : Node) => n.isTop) =
        d.tree[x]?.map fun (n : Node) => n.isTop := by
      have hl : ∀ (t : List Node) (j k x : Nat), ((link t m j k)[x]?.map fun n => n.isTop) = t[x]?.map fun n => n.isTop := by
        intro t j k x
        unfold link
        split
        · rw [List.getElem?_modify, List.getElem?_modify]
          cases t[x]? with
          | none => rfl
          | some n => by_cases h1 : m = x <;> by_cases h2 : j = x <;> simp [h1, h2]
        · rfl
      have hl2 : ∀ (l : List Nat) (t : List Node) (j x : Nat),
          ((l.foldl (fun t k => link t m j k) t)[x]?.map fun n => n.isTop) = t[x]?.map fun n => n.isTop := by
        intro l
        induction l with
        | nil => intro t j x; rfl
        | cons a l ihl => intro t j x; rw [List.foldl_cons, ihl, hl]
      have hl3 : ∀ (l : List Nat) (t : List Node) (x : Nat),
          ((l.foldl (fun t j => (List.range (nblocks t0 j)).foldl (fun t k => link t m j k) t) t)[x]?.map fun n => n.isTop) =
            t[x]?.map fun n => n.isTop := by
        intro l
        induction l with
        | nil => intro t x; rfl
        | cons a l ihl => intro t x; rw [List.foldl_cons, ihl, hl2]
      exact fun x => hl3 _ _ x
    unfold visitNode
    generalize hT : (List.range t0.length).foldl (fun t j =>
      (List.range (nblocks t0 j)).foldl (fun t k => link t m j k) t) d.tree = T at *
    have hname : ∀ (x : Nat) (n : Node), T[x]? = some n → ∃ a, (shape t0)[x]? = some a ∧ a.1 = n.name := by
      intro x n hx
      exact ⟨_, by rw [← hn.same]; exact shape_get.2 ⟨n, hx, rfl⟩, rfl⟩
    have hname' : ∀ (x : Nat) (n : Node), d.tree[x]? = some n → ∃ a, (shape t0)[x]? = some a ∧ a.1 = n.name := by
      intro x n hx
      exact ⟨_, by rw [← ih.same]; exact shape_get.2 ⟨n, hx, rfl⟩, rfl⟩
    have hold : ∀ (i : Nat) (n : Node), T[i]? = some n → (n.isTop = true ↔ i < m ∧ n.name = topcell) := by
      intro i n hi
      have h1 := htop i
      rw [hi] at h1
      cases h0 : d.tree[i]? with
      | none => simp [h0] at h1
      | some n0 =>
        simp only [h0, Option.map_some, Option.some.injEq] at h1
        obtain ⟨a, ha, hae⟩ := hname i n hi
        obtain ⟨a', ha', hae'⟩ := hname' i n0 h0
        rw [ha] at ha'
        obtain rfl := Option.some.inj ha'
        rw [h1, it3 i n0 h0, ← hae', ← hae]
    unfold markTop
    dsimp only
    by_cases hc : (T[m]?.map fun n => n.name) = some topcell
    · rw [if_pos hc]
      simp only [Option.map_eq_some_iff] at hc
      obtain ⟨nm, hnm, hnn⟩ := hc
      refine ⟨?_, ?_, ?_⟩
      · intro i hi
        simp only [Option.some.injEq] at hi
        subst hi
        obtain ⟨a, ha, hae⟩ := hname m nm hnm
        exact ⟨a, ha, hae.trans hnn⟩
      · intro i a _ _ _
        simp
      · intro i n hi
        dsimp only at hi
        rw [List.getElem?_modify] at hi
        cases h0 : T[i]? with
        | none => simp [h0] at hi
        | some n0 =>
          rw [h0] at hi
          by_cases him : m = i
          · subst him
            simp only [if_pos, Option.map_eq_map, Option.map_some, Option.some.injEq] at hi
            subst hi
            rw [hnm] at h0
            obtain rfl := Option.some.inj h0
            simp [hnn]
          · simp only [if_neg him, Option.map_eq_map, Option.map_some, Option.some.injEq] at hi
            subst hi
            rw [hold i n0 h0]
            constructor
            · rintro ⟨h1, h2⟩
              exact ⟨by omega, h2⟩
            · rintro ⟨h1, h2⟩
              exact ⟨by omega, h2⟩
    · rw [if_neg hc]
      have hcm : ∀ (n : Node), T[m]? = some n → n.name ≠ topcell := by
        intro n h1 h2
        exact hc (by simp [h1, h2])
      refine ⟨it1, ?_, ?_⟩
      · intro i a hi ha hae
        by_cases him : i = m
        · subst him
          rw [← hn.same] at ha
          obtain ⟨n, h1, rfl⟩ := shape_get.1 ha
          exact absurd hae (hcm n h1)
        · exact it2 i a (by omega) ha hae
      · intro i n hi
        dsimp only at hi
        rw [hold i n hi]
        constructor
        · rintro ⟨h1, h2⟩
          exact ⟨by omega, h2⟩
        · rintro ⟨h1, h2⟩
          refine ⟨?_, h2⟩
          by_contra hlt
          have : i = m := by omega
          subst this
          exact hcm n hi h2

theorem semantic_done {d : DB} {topcell : String} (ht : d.topidx = none) (h : ∀ n ∈ d.tree, n.parent = [])
    (hf : ∀ n ∈ d.tree, n.isTop = false) : Linked (shape d.tree) (semantic0 topcell d).tree ∧
      TopInv (shape d.tree) topcell d.tree.length (semantic0 topcell d) := by
  have hd : semantic0 topcell d = (List.range d.tree.length).foldl (visitNode d.tree topcell) { tree := reset d.tree, topidx := none } := by
    unfold semantic0
    rw [ht]
  obtain ⟨hi, hti⟩ := semantic_inv (topcell := topcell) h hf d.tree.length
  rw [← hd] at hi hti
  refine ⟨?_, hti⟩
  generalize (semantic0 topcell d).tree = t at *
  have hdone : ∀ i j k, Match (shape d.tree) i j k → (i, j, k) ∈ (List.range d.tree.length).flatMap fun i =>
      (List.range d.tree.length).flatMap fun j => (List.range (nblocks d.tree j)).map fun k => (i, j, k) := by
    rintro i j k ⟨a, b, ha, hb, hk⟩
    simp only [List.mem_flatMap, List.mem_range, List.mem_map, Prod.mk.injEq]
    obtain ⟨hil, -⟩ := List.getElem?_eq_some_iff.1 hb
    obtain ⟨hjl, -⟩ := List.getElem?_eq_some_iff.1 ha
    obtain ⟨hkl, -⟩ := List.getElem?_eq_some_iff.1 hk
    refine ⟨i, by simpa [shape] using hil, j, by simpa [shape] using hjl, k, nblocks_of_shape.2 ⟨a, ha, hkl⟩, rfl, rfl, rfl⟩
  refine ⟨hi.same, ?_, ?_⟩
  · intro j k n b hn hb
    have hj : (shape d.tree)[j]? = some (n.name, n.blocks.map (·.master)) := by
      rw [← hi.same]; exact shape_get.2 ⟨n, hn, rfl⟩
    rcases hi.child j k n b hn hb with ⟨h1, h2⟩ | ⟨i, h1, a, b', ha, hb', hk⟩
    · refine Or.inl ⟨h1, ?_⟩
      intro m hm hne
      obtain ⟨i, hmi⟩ := List.mem_iff_getElem?.1 hm
      have hM : Match (shape d.tree) i j k := by
        refine ⟨_, (m.name, m.blocks.map (·.master)), hj, ?_, ?_⟩
        · rw [← hi.same]; exact shape_get.2 ⟨m, hmi, rfl⟩
        · simp [hb, hne]
      exact h2 i (hdone i j k hM) hM
    · right
      rw [hj] at ha
      obtain rfl := Option.some.inj ha
      rw [← hi.same] at hb'
      obtain ⟨m, hm, rfl⟩ := shape_get.1 hb'
      refine ⟨i, m, h1, hm, ?_⟩
      simpa [hb] using hk.symm
  · intro i n hn
    obtain ⟨h1, h2⟩ := hi.parent i n hn
    refine ⟨?_, h2⟩
    intro j
    rw [h1 j]
    constructor
    · rintro ⟨k, -, a, b, ha, hb, hk⟩
      exact ⟨a, b, ha, hb, List.mem_of_getElem? hk⟩
    · rintro ⟨a, b, ha, hb, hk⟩
      obtain ⟨k, hk⟩ := List.mem_iff_getElem?.1 hk
      exact ⟨k, hdone i j k ⟨a, b, ha, hb, hk⟩, a, b, ha, hb, hk⟩

/-- **C107** The blocks of the modules are linked to the modules they are instances of: names and masters are as before, the child
of a block is a module with the name of its master, or `-1` if there is none, and the parents of a module are the modules with an
instance of it, each once. -/
theorem C107_links (d : DB) (topcell : String) (ht : d.topidx = none) (h : ∀ n ∈ d.tree, n.parent = [])
    (hf : ∀ n ∈ d.tree, n.isTop = false) : Linked (shape d.tree) (semantic0 topcell d).tree :=
  (semantic_done ht h hf).1

/-- **C107** The top module is found: if there is a module with the given name, then `topidx` is the index of one, and exactly the
modules of that name are marked. -/
theorem C107_top (d : DB) (topcell : String) (ht : d.topidx = none) (h : ∀ n ∈ d.tree, n.parent = [])
    (hf : ∀ n ∈ d.tree, n.isTop = false) :
    ((∃ n ∈ d.tree, n.name = topcell) ↔ ∃ i, (semantic0 topcell d).topidx = some i) ∧
    (∀ i, (semantic0 topcell d).topidx = some i → ∃ n, d.tree[i]? = some n ∧ n.name = topcell) ∧
    ∀ n ∈ (semantic0 topcell d).tree, n.isTop = true ↔ n.name = topcell := by
  obtain ⟨hl, h1, h2, h3⟩ := semantic_done (topcell := topcell) ht h hf
  have h4 : ∀ i, (semantic0 topcell d).topidx = some i → ∃ n, d.tree[i]? = some n ∧ n.name = topcell := by
    intro i hi
    obtain ⟨a, ha, hae⟩ := h1 i hi
    obtain ⟨n, hn, rfl⟩ := shape_get.1 ha
    exact ⟨n, hn, hae⟩
  refine ⟨⟨?_, ?_⟩, h4, ?_⟩
  · rintro ⟨n, hn, hne⟩
    obtain ⟨i, hi⟩ := List.mem_iff_getElem?.1 hn
    obtain ⟨hil, -⟩ := List.getElem?_eq_some_iff.1 hi
    exact Option.ne_none_iff_exists'.1 (h2 i _ hil (shape_get.2 ⟨n, hi, rfl⟩) hne)
  · rintro ⟨i, hi⟩
    obtain ⟨n, hn, hne⟩ := h4 i hi
    exact ⟨n, List.mem_of_getElem? hn, hne⟩
  · intro n hn
    obtain ⟨i, hi⟩ := List.mem_iff_getElem?.1 hn
    rw [h3 i n hi]
    have hlen : (semantic0 topcell d).tree.length = d.tree.length := by
      have := congrArg List.length hl.same
      simpa [shape] using this
    obtain ⟨hil, -⟩ := List.getElem?_eq_some_iff.1 hi
    constructor
    · exact fun h => h.2
    · exact fun h => ⟨by omega, h⟩

/-! ## Traversal -/

/-- The children of node `i`. -/
def Edge (t : List Node) (i c : Nat) : Prop := ∃ n b, t[i]? = some n ∧ b ∈ n.blocks ∧ b.child = (c : Int)

/-- All children are nodes. -/
def Valid (t : List Node) : Prop := ∀ n ∈ t, ∀ b ∈ n.blocks, b.child = -1 ∨ ∃ c : Nat, b.child = c ∧ c < t.length

abbrev Reach (t : List Node) : Nat → Nat → Prop := Relation.ReflTransGen (Edge t)

def whites (s : St) : Nat := s.color.count .white

theorem count_set {l : List Color} {i : Nat} {c : Color} (h : l[i]? = some .white) (hc : c ≠ .white) :
    (l.set i c).count .white + 1 = l.count .white := by
  induction l generalizing i with
  | nil => simp at h
  | cons a l ih =>
    cases i with
    | zero =>
      simp only [List.getElem?_cons_zero, Option.some.injEq] at h
      subst h
      simp [hc]
    | succ i =>
      simp only [List.getElem?_cons_succ] at h
      have := ih h
      simp only [List.set_cons_succ, List.count_cons]
      omega

/-- What a run of `TraverseDFS` from one state to another does: the nodes it appends were white and become black, the others keep
their colours; they are reachable from `roots`; their children are not white afterwards, and come before them unless they are on
the way to them. -/
structure Run (t : List Node) (roots : Nat → Prop) (s s' : St) (new : List Nat) : Prop where
  q : s'.q = s.q ++ new
  len : s'.color.length = s.color.length
  nodup : new.Nodup
  was : ∀ v ∈ new, s.color[v]? = some .white
  now : ∀ v ∈ new, s'.color[v]? = some .black
  keep : ∀ v, v ∉ new → s'.color[v]? = s.color[v]?
  reach : ∀ v ∈ new, ∃ r, roots r ∧ Reach t r v
  before : ∀ l v r, new = l ++ v :: r → ∀ c, Edge t v c → c ∈ l ∨ s.color[c]? = some .black ∨ Reach t c v
  closed : ∀ v ∈ new, ∀ c, Edge t v c → s'.color[c]? ≠ some .white

theorem Run.refl {t : List Node} {roots : Nat → Prop} {s : St} : Run t roots s s [] where
  q := by simp
  len := rfl
  nodup := List.nodup_nil
  was := by simp
  now := by simp
  keep := fun _ _ => rfl
  reach := by simp
  before := by intro l v r h; simp at h
  closed := by simp

theorem Run.mono {t : List Node} {p q : Nat → Prop} (hpq : ∀ x, p x → q x) {s s' : St} {new : List Nat} (h : Run t p s s' new) :
    Run t q s s' new :=
  { h with reach := fun v hv => by obtain ⟨r, h1, h2⟩ := h.reach v hv; exact ⟨r, hpq r h1, h2⟩ }

theorem append_split {α : Type} {a b l r : List α} {v : α} (h : a ++ b = l ++ v :: r) :
    (∃ r', a = l ++ v :: r') ∨ ∃ l', l = a ++ l' ∧ b = l' ++ v :: r := by
  induction a generalizing l with
  | nil => exact Or.inr ⟨l, rfl, h⟩
  | cons x a ih =>
    cases l with
    | nil =>
      simp only [List.cons_append, List.nil_append, List.cons.injEq] at h
      exact Or.inl ⟨a, by simp [h.1]⟩
    | cons y l =>
      simp only [List.cons_append, List.cons.injEq] at h
      rcases ih h.2 with ⟨r', hr⟩ | ⟨l', h1, h2⟩
      · exact Or.inl ⟨r', by simp [h.1, hr]⟩
      · exact Or.inr ⟨l', by simp [h.1, h1], h2⟩

theorem Run.trans {t : List Node} {p : Nat → Prop} {s s' s'' : St} {a b : List Nat} (h : Run t p s s' a) (h' : Run t p s' s'' b) :
    Run t p s s'' (a ++ b) := by
  have hdis : ∀ v ∈ a, v ∉ b := by
    intro v ha hb
    have h1 := h.now v ha
    rw [h'.was v hb] at h1
    cases h1
  refine ⟨by rw [h'.q, h.q, List.append_assoc], h'.len.trans h.len, ?_, ?_, ?_, ?_, ?_, ?_, ?_⟩
  · rw [List.nodup_append]
    refine ⟨h.nodup, h'.nodup, ?_⟩
    rintro x hx y hy rfl
    exact hdis x hx hy
  · intro v hv
    rcases List.mem_append.1 hv with hv | hv
    · exact h.was v hv
    · have h1 := h'.was v hv
      rwa [h.keep v (fun ha => hdis v ha hv)] at h1
  · intro v hv
    rcases List.mem_append.1 hv with hv | hv
    · rw [h'.keep v (hdis v hv)]; exact h.now v hv
    · exact h'.now v hv
  · intro v hv
    simp only [List.mem_append, not_or] at hv
    rw [h'.keep v hv.2, h.keep v hv.1]
  · intro v hv
    rcases List.mem_append.1 hv with hv | hv
    · exact h.reach v hv
    · exact h'.reach v hv
  · intro l v r hs c hc
    rcases append_split hs with ⟨r', hr⟩ | ⟨l', h1, h2⟩
    · exact h.before l v r' hr c hc
    · rcases h'.before l' v r h2 c hc with h3 | h3 | h3
      · exact Or.inl (by rw [h1]; exact List.mem_append_right _ h3)
      · by_cases hca : c ∈ a
        · exact Or.inl (by rw [h1]; exact List.mem_append_left _ hca)
        · rw [h.keep c hca] at h3
          exact Or.inr (Or.inl h3)
      · exact Or.inr (Or.inr h3)
  · intro v hv c hc
    rcases List.mem_append.1 hv with hv | hv
    · by_cases hcb : c ∈ b
      · rw [h'.now c hcb]; simp
      · rw [h'.keep c hcb]; exact h.closed v hv c hc
    · exact h'.closed v hv c hc

/-- One call on a white node. `hg`: the gray nodes are on the way to it. -/
theorem dfs_run {t : List Node} (hv : Valid t) : ∀ (f idx : Nat) (s : St), s.color.length = t.length →
    s.color[idx]? = some .white → whites s ≤ f → (∀ g, s.color[g]? = some .gray → Reach t g idx) →
    ∃ s' new, dfs t f idx s = some s' ∧ Run t (· = idx) s s' (new ++ [idx]) := by
  intro f
  induction f with
  | zero =>
    intro idx s _ hw hf
    have : Color.white ∈ s.color := List.mem_of_getElem? hw
    have := List.count_pos_iff.2 this
    unfold whites at hf
    omega
  | succ f ih =>
    intro idx s hl hw hf hg
    obtain ⟨hi, -⟩ := List.getElem?_eq_some_iff.1 hw
    have hn : t[idx]? = some t[idx] := List.getElem?_eq_getElem (by omega)
    generalize t[idx] = n at hn
    have hbl : ∀ b ∈ n.blocks, b.child = -1 ∨ ∃ c : Nat, b.child = c ∧ c < t.length := hv n (List.mem_of_getElem? hn)
    -- the loop over the blocks
    have loop : ∀ (bs : List Block) (s1 : St), (∀ b ∈ bs, b ∈ n.blocks) → s1.color.length = t.length → whites s1 ≤ f →
        (∀ g, s1.color[g]? = some .gray → Reach t g idx) →
        ∃ s' new, bs.foldlM (fun (s : St) (b : Block) =>
          if b.child ≠ -1 ∧ s.color[b.child.toNat]? = some .white then dfs t f b.child.toNat s else some s) s1 = some s' ∧
          Run t (Edge t idx) s1 s' new ∧ whites s' ≤ f ∧ ∀ b ∈ bs, ∀ c : Nat, b.child = c → s'.color[c]? ≠ some .white := by
      intro bs
      induction bs with
      | nil =>
        intro s1 _ _ h2 _
        exact ⟨s1, [], rfl, Run.refl, h2, by simp⟩
      | cons b bs ihb =>
        intro s1 hb h1 h2 h3
        have hbn : b ∈ n.blocks := hb b (by simp)
        -- one step
        have step : ∃ s2 new, (if b.child ≠ -1 ∧ s1.color[b.child.toNat]? = some .white then dfs t f b.child.toNat s1 else some s1)
            = some s2 ∧ Run t (Edge t idx) s1 s2 new ∧ whites s2 ≤ f ∧ ∀ c : Nat, b.child = c → s2.color[c]? ≠ some .white := by
          by_cases hc : b.child ≠ -1 ∧ s1.color[b.child.toNat]? = some .white
          · rw [if_pos hc]
            obtain ⟨hc1, hc2⟩ := hc
            rcases hbl b hbn with h | ⟨c, hcc, hcl⟩
            · exact absurd h hc1
            · rw [hcc] at hc2 ⊢
              simp only [Int.toNat_natCast] at hc2 ⊢
              have he : Edge t idx c := ⟨n, b, hn, hbn, hcc⟩
              obtain ⟨s2, new, hs2, hr⟩ := ih c s1 h1 hc2 h2 (fun g hgg => (h3 g hgg).tail he)
              refine ⟨s2, new ++ [c], hs2, hr.mono (by rintro x rfl; exact he), ?_, ?_⟩
              · -- fewer white nodes
                have hle : ∀ (m : List Nat) (u u' : List Color), u'.length = u.length →
                    (∀ v, v ∉ m → u'[v]? = u[v]?) → (∀ v ∈ m, u'[v]? = some .black) →
                    u'.count .white ≤ u.count .white := by
                  intro m u u' hlen hk hb'
                  clear * - hlen hk hb'
                  induction u generalizing u' m with
                  | nil =>
                    simp only [List.length_nil, List.length_eq_zero_iff] at hlen
                    simp [hlen]
                  | cons x u ihu =>
                    cases u' with
                    | nil => simp at hlen
                    | cons y u' =>
                      simp only [List.length_cons, Nat.add_right_cancel_iff] at hlen
                      have := ihu ((m.filter (0 < ·)).map (· - 1)) u' hlen
                        (by
                          intro v hvm
                          have := hk (v + 1) (by
                            intro hm
                            apply hvm
                            simp only [List.mem_map, List.mem_filter, decide_eq_true_eq]
                            exact ⟨v + 1, ⟨hm, by omega⟩, by omega⟩)
                          simpa using this)
                        (by
                          intro v hvm
                          simp only [List.mem_map, List.mem_filter, decide_eq_true_eq] at hvm
                          obtain ⟨w, ⟨hw, hw0⟩, rfl⟩ := hvm
                          have := hb' w hw
                          obtain ⟨w, rfl⟩ : ∃ w', w = w' + 1 := ⟨w - 1, by omega⟩
                          simpa using this)
                      have h0 : y = .white → x = .white := by
                        intro hy
                        by_cases h0 : 0 ∈ m
                        · have := hb' 0 h0
                          simp only [List.getElem?_cons_zero, Option.some.injEq] at this
                          rw [hy] at this
                          cases this
                        · have := hk 0 h0
                          simp only [List.getElem?_cons_zero, Option.some.injEq] at this
                          rw [← this]; exact hy
                      simp only [List.count_cons]
                      by_cases hy : y = .white
                      · simp [hy, h0 hy]; omega
                      · have : (y == Color.white) = false := by simpa using hy
                        rw [this]
                        simp only [Bool.false_eq_true, if_false]
                        omega
                exact (hle _ _ _ hr.len hr.keep hr.now).trans h2
              · intro c' hcc'
                have : c' = c := by omega
                subst this
                rw [hr.now c' (by simp)]
                simp
          · rw [if_neg hc]
            refine ⟨s1, [], rfl, Run.refl, h2, ?_⟩
            intro c hcc hcw
            apply hc
            rw [hcc]
            exact ⟨by omega, by simpa using hcw⟩
        obtain ⟨s2, new, hs2, hr, hw2, hch⟩ := step
        have hg2 : ∀ g, s2.color[g]? = some .gray → Reach t g idx := by
          intro g hgg
          by_cases hgn : g ∈ new
          · rw [hr.now g hgn] at hgg; cases hgg
          · rw [hr.keep g hgn] at hgg; exact h3 g hgg
        obtain ⟨s3, new', hs3, hr', hw3, hch'⟩ := ihb s2 (fun x hx => hb x (by simp [hx])) (hr.len.trans h1) hw2 hg2
        refine ⟨s3, new ++ new', ?_, hr.trans hr', hw3, ?_⟩
        · rw [List.foldlM_cons, hs2]
          exact hs3
        · intro b' hb' c hcc
          simp only [List.mem_cons] at hb'
          rcases hb' with rfl | hb'
          · by_cases hcn : c ∈ new'
            · rw [hr'.now c hcn]; simp
            · rw [hr'.keep c hcn]; exact hch c hcc
          · exact hch' b' hb' c hcc
    have hw1 : whites { s with color := s.color.set idx .gray } ≤ f := by
      have := count_set (c := .gray) hw (by simp)
      unfold whites at *
      dsimp only
      omega
    obtain ⟨s2, new, hs2, hr, -, hch⟩ := loop n.blocks { s with color := s.color.set idx .gray } (fun _ h => h) (by simpa using hl) hw1
      (by
        intro g hgg
        dsimp only at hgg
        by_cases hgi : g = idx
        · subst hgi; exact Relation.ReflTransGen.refl
        · rw [List.getElem?_set_ne (by omega)] at hgg
          exact hg g hgg)
    have hset : ∀ (l : List Color) (c : Color) (v : Nat), idx < l.length →
        (l.set idx c)[v]? = if v = idx then some c else l[v]? := by
      intro l c v hlt
      by_cases hvi : v = idx
      · subst hvi; simp [hlt]
      · rw [List.getElem?_set_ne (by omega), if_neg hvi]
    have hni : idx ∉ new := by
      intro hin
      have := hr.was idx hin
      rw [hset _ _ _ hi, if_pos rfl] at this
      cases this
    have hl2 : idx < s2.color.length := by
      rw [hr.len]; simpa using hi
    have hcol : ∀ v, ({ color := s2.color.set idx .black, q := s2.q ++ [idx] } : St).color[v]? =
        if v = idx then some .black else s2.color[v]? := fun v => hset _ _ _ hl2
    refine ⟨{ color := s2.color.set idx .black, q := s2.q ++ [idx] }, new, ?_, ?_⟩
    · simp only [dfs, hn, hs2, Option.bind_eq_bind, Option.bind_some]
    · have hchn : ∀ c, Edge t idx c → s2.color[c]? ≠ some .white := by
        rintro c ⟨n', b, hn', hb, hc⟩
        rw [hn] at hn'
        obtain rfl := Option.some.inj hn'
        exact hch b hb c hc
      refine ⟨?_, ?_, ?_, ?_, ?_, ?_, ?_, ?_, ?_⟩
      · simp only [hr.q, List.append_assoc]
      · simp only [List.length_set, hr.len]
      · rw [List.nodup_append]
        refine ⟨hr.nodup, by simp, ?_⟩
        intro a ha b hb
        simp only [List.mem_singleton] at hb
        subst hb
        rintro rfl
        exact hni ha
      · intro v hv
        simp only [List.mem_append, List.mem_singleton] at hv
        rcases hv with hv | rfl
        · have := hr.was v hv
          rw [hset _ _ _ hi, if_neg (by rintro rfl; exact hni hv)] at this
          exact this
        · exact hw
      · intro v hv
        rw [hcol]
        simp only [List.mem_append, List.mem_singleton] at hv
        by_cases hvi : v = idx
        · rw [if_pos hvi]
        · rw [if_neg hvi]
          exact hr.now v (hv.resolve_right hvi)
      · intro v hv
        simp only [List.mem_append, List.mem_singleton, not_or] at hv
        rw [hcol, if_neg hv.2, hr.keep v hv.1, hset _ _ _ hi, if_neg hv.2]
      · intro v hv
        simp only [List.mem_append, List.mem_singleton] at hv
        rcases hv with hv | rfl
        · obtain ⟨r, hr1, hr2⟩ := hr.reach v hv
          exact ⟨idx, rfl, Relation.ReflTransGen.head hr1 hr2⟩
        · exact ⟨v, rfl, Relation.ReflTransGen.refl⟩
      · intro l v r hs c hc
        rcases append_split hs with ⟨r', hr'⟩ | ⟨l', h1, h2⟩
        · rcases hr.before l v r' hr' c hc with h3 | h3 | h3
          · exact Or.inl h3
          · right
            left
            rw [hset _ _ _ hi] at h3
            by_cases hci : c = idx
            · rw [if_pos hci] at h3; cases h3
            · rwa [if_neg hci] at h3
          · exact Or.inr (Or.inr h3)
        · have hv1 : l' = [] ∧ v = idx := by
            cases l' with
            | nil => simp only [List.nil_append, List.cons.injEq] at h2; exact ⟨rfl, h2.1.symm⟩
            | cons x l' => simp at h2
          obtain ⟨rfl, rfl⟩ := hv1
          have hcw := hchn c hc
          by_cases hcn : c ∈ new
          · left; rw [h1]; simpa using hcn
          · right
            have hk := hr.keep c hcn
            rw [hset _ _ _ hi] at hk
            by_cases hci : c = v
            · right; subst hci; exact Relation.ReflTransGen.refl
            · rw [if_neg hci] at hk
              have hcl : c < t.length := by
                obtain ⟨n', b, hn', hb, hcc⟩ := hc
                rcases hv n' (List.mem_of_getElem? hn') b hb with h | ⟨c', h, hlt⟩
                · omega
                · omega
              have hget : s.color[c]? = some s.color[c] := List.getElem?_eq_getElem (by omega)
              rw [hk] at hcw
              generalize s.color[c] = col at hget
              cases col with
              | white => exact absurd hget hcw
              | gray => exact Or.inr (hg c hget)
              | black => exact Or.inl hget
      · intro v hv c hc
        rw [hcol]
        by_cases hci : c = idx
        · rw [if_pos hci]; simp
        · rw [if_neg hci]
          simp only [List.mem_append, List.mem_singleton] at hv
          rcases hv with hv | rfl
          · exact hr.closed v hv c hc
          · exact hchn c hc

theorem traverse_run {d : DB} (hv : Valid d.tree) {top : Nat} (ht : d.topidx = some top) (hl : top < d.tree.length) :
    ∃ new s s', traverse d = some (new ++ [top]) ∧ Run d.tree (· = top) s s' (new ++ [top]) ∧
      ∀ v, v < d.tree.length → s.color[v]? = some .white := by
  have hw : ∀ v, v < d.tree.length → (d.tree.map fun _ => Color.white)[v]? = some .white := by
    intro v hv
    simp [hv]
  obtain ⟨s', new, hs, hr⟩ := dfs_run hv (d.tree.length + 1) top { color := d.tree.map fun _ => .white, q := [] } (by simp)
    (hw top hl) (by unfold whites; have := List.count_le_length (a := Color.white) (l := d.tree.map fun _ => Color.white); simp at *)
    (by
      intro g hgg
      have := List.mem_of_getElem? hgg
      simp at this)
  refine ⟨new, _, s', ?_, hr, hw⟩
  simp only [traverse, ht, hs, Option.bind_eq_bind, Option.bind_some, hr.q]
  simp

/-- A path of instances from one module down to another. -/
def Below (sh : List (String × List String)) : Nat → Nat → Prop := Relation.ReflTransGen (Uses sh)

theorem nodup_names {sh : List (String × List String)} (h : (sh.map Prod.fst).Nodup) {i j : Nat} {a b : String × List String}
    (hi : sh[i]? = some a) (hj : sh[j]? = some b) (hab : a.1 = b.1) : i = j := by
  obtain ⟨hil, -⟩ := List.getElem?_eq_some_iff.1 hi
  apply (List.getElem?_inj (by simpa using hil) h).1
  simp [hi, hj, hab]

theorem edge_uses {sh : List (String × List String)} {t : List Node} (h : Linked sh t) {j i : Nat} (he : Edge t j i) : Uses sh j i := by
  obtain ⟨n, b, hn, hb, hc⟩ := he
  obtain ⟨k, hk⟩ := List.mem_iff_getElem?.1 hb
  rcases h.child j k n b hn hk with ⟨h1, -⟩ | ⟨i', m, h1, h2, h3⟩
  · omega
  · have : i' = i := by omega
    subst this
    refine ⟨_, _, by rw [← h.same]; exact shape_get.2 ⟨n, hn, rfl⟩, by rw [← h.same]; exact shape_get.2 ⟨m, h2, rfl⟩, ?_⟩
    simp only [List.mem_map]
    exact ⟨b, hb, h3.symm⟩

theorem uses_edge {sh : List (String × List String)} {t : List Node} (h : Linked sh t) (hnd : (sh.map Prod.fst).Nodup)
    {j i : Nat} (hu : Uses sh j i) : Edge t j i := by
  obtain ⟨a, b, ha, hb, hm⟩ := hu
  rw [← h.same] at ha
  obtain ⟨n, hn, rfl⟩ := shape_get.1 ha
  simp only [List.mem_map] at hm
  obtain ⟨x, hx, hxm⟩ := hm
  obtain ⟨k, hk⟩ := List.mem_iff_getElem?.1 hx
  have hb' := hb
  rw [← h.same] at hb'
  obtain ⟨m, hm', rfl⟩ := shape_get.1 hb'
  refine ⟨n, x, hn, hx, ?_⟩
  rcases h.child j k n x hn hk with ⟨-, h2⟩ | ⟨i', m', h1, h2, h3⟩
  · exact absurd hxm.symm (h2 m (List.mem_of_getElem? hm'))
  · have : i' = i := nodup_names hnd (by rw [← h.same]; exact shape_get.2 ⟨m', h2, rfl⟩) hb (by dsimp only; rw [h3, hxm])
    subst this
    exact h1

theorem linked_valid {sh : List (String × List String)} {t : List Node} (h : Linked sh t) : Valid t := by
  intro n hn b hb
  obtain ⟨j, hj⟩ := List.mem_iff_getElem?.1 hn
  obtain ⟨k, hk⟩ := List.mem_iff_getElem?.1 hb
  rcases h.child j k n b hj hk with ⟨h1, -⟩ | ⟨i, m, h1, h2, -⟩
  · exact Or.inl h1
  · obtain ⟨hl, -⟩ := List.getElem?_eq_some_iff.1 h2
    exact Or.inr ⟨i, h1, hl⟩

theorem reach_below {sh : List (String × List String)} {t : List Node} (h : Linked sh t) (hnd : (sh.map Prod.fst).Nodup) {i j : Nat} :
    Reach t i j ↔ Below sh i j := by
  constructor
  · intro hr
    exact Relation.ReflTransGen.mono (fun _ _ => edge_uses h) _ _ hr
  · intro hr
    exact Relation.ReflTransGen.mono (fun _ _ => uses_edge h hnd) _ _ hr

/-- **C107** For every hierarchy of modules with distinct names, one of them the top module, the traversal ends, and gives exactly the
modules below the top module, each once, and the top module last. If no module is an instance below itself, every module comes after
all the modules it has instances of. -/
theorem C107_order (d : DB) (topcell : String) (ht : d.topidx = none) (h : ∀ n ∈ d.tree, n.parent = [])
    (hf : ∀ n ∈ d.tree, n.isTop = false) (hnd : (d.tree.map (·.name)).Nodup) (top : Nat) (n : Node) (hn : d.tree[top]? = some n)
    (hname : n.name = topcell) : ∃ q, traverse (semantic0 topcell d) = some (q ++ [top]) ∧ (q ++ [top]).Nodup ∧
      (∀ i, i ∈ q ++ [top] ↔ Below (shape d.tree) top i) ∧
      ((∀ i j, Uses (shape d.tree) i j → ¬ Below (shape d.tree) j i) →
        ∀ l i r, q ++ [top] = l ++ i :: r → ∀ c, Uses (shape d.tree) i c → c ∈ l) := by
  obtain ⟨hl, h1, h2, -⟩ := semantic_done (topcell := topcell) ht h hf
  have hnd' : ((shape d.tree).map Prod.fst).Nodup := by
    simpa [shape, Function.comp_def] using hnd
  have hlen : (semantic0 topcell d).tree.length = d.tree.length := by
    have := congrArg List.length hl.same
    simpa [shape] using this
  obtain ⟨htl, -⟩ := List.getElem?_eq_some_iff.1 hn
  have htop : (semantic0 topcell d).topidx = some top := by
    obtain ⟨i, hi⟩ := Option.ne_none_iff_exists'.1 (h2 top _ htl (shape_get.2 ⟨n, hn, rfl⟩) hname)
    obtain ⟨a, ha, hae⟩ := h1 i hi
    have : i = top := nodup_names hnd' ha (shape_get.2 ⟨n, hn, rfl⟩) (by rw [hae, ← hname])
    rw [hi, this]
  obtain ⟨q, s, s', hq, hr, hw⟩ := traverse_run (linked_valid hl) htop (by omega)
  refine ⟨q, hq, hr.nodup, ?_, ?_⟩
  · intro i
    rw [← reach_below hl hnd']
    constructor
    · intro hi
      obtain ⟨r, rfl, hri⟩ := hr.reach i hi
      exact hri
    · intro hri
      induction hri with
      | refl => simp
      | tail hab hbc ih =>
        rename_i b c
        by_contra hc
        have hcl : c < (semantic0 topcell d).tree.length := by
          obtain ⟨n', x, hn', hx, hxc⟩ := hbc
          rcases linked_valid hl n' (List.mem_of_getElem? hn') x hx with hh | ⟨c', hh, hlt⟩
          · omega
          · omega
        have := hr.closed b ih c hbc
        rw [hr.keep c hc] at this
        exact this (hw c hcl)
  · intro hac l i r hs c hc
    have hce := uses_edge hl hnd' hc
    rcases hr.before l i r hs c hce with h3 | h3 | h3
    · exact h3
    · have hcl : c < (semantic0 topcell d).tree.length := by
        obtain ⟨n', x, hn', hx, hxc⟩ := hce
        rcases linked_valid hl n' (List.mem_of_getElem? hn') x hx with hh | ⟨c', hh, hlt⟩
        · omega
        · omega
      rw [hw c hcl] at h3
      cases h3
    · exact absurd ((reach_below hl hnd').1 h3) (hac i c hc)

/-! ## A concrete case -/

/-- A module with two instances of an amplifier, which has an instance of a mirror, and one of the mirror; one module is not used. -/
def chip : DB :=
  { tree := [⟨"chip", [⟨"amp", 0⟩, ⟨"mirror", 0⟩, ⟨"amp", 0⟩, ⟨"nmos", 0⟩], [], false⟩, ⟨"mirror", [⟨"nmos", 0⟩], [], false⟩,
      ⟨"unused", [⟨"mirror", 0⟩], [], false⟩, ⟨"amp", [⟨"mirror", 0⟩, ⟨"nmos", 0⟩], [], false⟩],
    topidx := none }

example : traverse (semantic0 "chip" chip) = some [1, 3, 0] := by decide +kernel

example : (semantic0 "chip" chip).tree.map (·.parent) = [[], [0, 2, 3], [], [0]] ∧
    (semantic0 "chip" chip).tree.map (·.blocks.map (·.child)) = [[3, 1, 3, -1], [-1], [1], [1, -1]] := by decide +kernel

example : chip.topidx = none ∧ (∀ n ∈ chip.tree, n.parent = []) ∧ (∀ n ∈ chip.tree, n.isTop = false) ∧
    (chip.tree.map (·.name)).Nodup := by decide +kernel

/-- No module of the example is an instance below itself: an instance always has a smaller rank. -/
example : ∀ i j, Uses (shape chip.tree) i j → ¬ Below (shape chip.tree) j i := by
  have hu : ∀ i j, Uses (shape chip.tree) i j → (i = 0 ∧ (j = 1 ∨ j = 3)) ∨ (i = 2 ∧ j = 1) ∨ (i = 3 ∧ j = 1) := by
    rintro i j ⟨a, b, ha, hb, hm⟩
    have hi : i < 4 := by simpa [shape, chip] using (List.getElem?_eq_some_iff.1 ha).1
    have hj : j < 4 := by simpa [shape, chip] using (List.getElem?_eq_some_iff.1 hb).1
    have : (i = 0 ∨ i = 1 ∨ i = 2 ∨ i = 3) ∧ (j = 0 ∨ j = 1 ∨ j = 2 ∨ j = 3) := by omega
    obtain ⟨rfl | rfl | rfl | rfl, rfl | rfl | rfl | rfl⟩ := this <;>
      simp [shape, chip] at ha hb <;> subst ha <;> subst hb <;> simp at hm ⊢
  let rank : Nat → Nat := fun i => if i = 0 then 2 else if i = 1 then 0 else 1
  have hr : ∀ i j, Uses (shape chip.tree) i j → rank j < rank i := by
    intro i j h
    rcases hu i j h with ⟨rfl, rfl | rfl⟩ | ⟨rfl, rfl⟩ | ⟨rfl, rfl⟩ <;> simp [rank]
  have hb : ∀ i j, Below (shape chip.tree) i j → rank j ≤ rank i := by
    intro i j h
    induction h with
    | refl => exact le_rfl
    | tail _ h2 ih => exact (Nat.le_of_lt (hr _ _ h2)).trans ih
  intro i j h hb'
  have h1 := hr i j h
  have h2 := hb j i hb'
  omega

end Verif.HierTree

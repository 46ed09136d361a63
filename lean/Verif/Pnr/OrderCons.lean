import Verif.Pnr.KeepOrder
import Verif.Pnr.ConstDb
import Verif.Pnr.Route

/-!
# The order constraints the placer works with

Model of the part of the constructor of `design` (`PlaceRouteHierFlow/placer/design.cpp` 336-377) that makes
`Ordering_Constraints` and `Abut_Constraints`, orders of two blocks, from the lists of the user; vertical orders are also
given to mirror images and to aligned blocks.
-/

namespace Verif.OrderCons

open Verif.Moves (Axis)
open Verif.CheckSeq (Sym Align)
open Verif.KeepOrder (Image)

/-- What is read of the design: mirror images (`counterpart`, -1 is `none`), alignments and the heights of the first variants
(`Blocks[b][0].height`). -/
structure Des where
  cp : Nat → Option Nat
  aligns : List Align
  hgt : Nat → Nat

/-- The orders made from two neighbours of a list (339-369). -/
def two (D : Des) (ax : Axis) (a b : Nat) : List ((Nat × Nat) × Axis) :=
  let ma := D.cp a
  let mb := D.cp b
  let va := ma ≠ none ∧ ma ≠ some a
  let vb := mb ≠ none ∧ mb ≠ some b
  [((a, b), ax)] ++
  (if va ∧ mb ≠ some a ∧ ax = .V then [((ma.getD 0, b), ax)] else []) ++
  (if vb ∧ mb ≠ some a ∧ ax = .V then [((a, mb.getD 0), ax)] else []) ++
  (if va ∧ vb ∧ mb ≠ some a ∧ ax = .V then [((ma.getD 0, mb.getD 0), ax)] else []) ++
  (if ax = .V then D.aligns.flatMap fun u =>
    (if u.hor = true ∧ a ∈ u.blocks then
      (u.blocks.filter fun c => decide (c ≠ a ∧ D.hgt a ≥ D.hgt c)).map fun c => ((c, b), ax) else []) ++
    (if u.hor = true ∧ b ∈ u.blocks then
      (u.blocks.filter fun c => decide (c ≠ b ∧ D.hgt b ≥ D.hgt c)).map fun c => ((a, c), ax) else [])
  else [])

/-- `for (i = 0; i < size() - 1; i++)`; for an empty list `size() - 1` wraps around. -/
def neighbours : List Nat → Option (List (Nat × Nat))
  | [] => none
  | a :: l => some ((a :: l).zip l)

/-- `Ordering_Constraints` (337-371). -/
def ordering (D : Des) (orders : List (List Nat × Axis)) : Option (List ((Nat × Nat) × Axis)) :=
  (orders.mapM fun o => (neighbours o.1).map fun l => l.flatMap fun x => two D o.2 x.1 x.2).map List.flatten

/-- `Abut_Constraints` (373-377). -/
def abutting (abuts : List (List Nat × Axis)) : Option (List ((Nat × Nat) × Axis)) :=
  (abuts.mapM fun o => (neighbours o.1).map fun l => l.map fun x => (x, o.2)).map List.flatten

/-! ## Specification -/

/-- Lower left corners and sizes of the blocks. -/
structure Pl where
  x : Nat → Int
  y : Nat → Int
  w : Nat → Int
  h : Nat → Int

/-- `a` is left of `b`, or above it. -/
def Pl.Ordered (P : Pl) (ax : Axis) (a b : Nat) : Prop :=
  (ax = .H → P.x a + P.w a ≤ P.x b) ∧ (ax = .V → P.y b + P.h b ≤ P.y a)

/-- The blocks of a list are in order. -/
def Pl.Orders (P : Pl) (orders : List (List Nat × Axis)) : Prop := ∀ o ∈ orders, o.1.Pairwise (P.Ordered o.2)

/-- The orders of two blocks hold. -/
def Pl.All (P : Pl) (os : List ((Nat × Nat) × Axis)) : Prop := ∀ o ∈ os, P.Ordered o.2 o.1.1 o.1.2

/-- A group is symmetric. -/
def Pl.Mirrored (P : Pl) (g : Sym) : Prop := ∃ m, (∀ a b, (a, b) ∈ g.pairs → P.w a = P.w b ∧ P.h a = P.h b ∧
    (g.axis = .V → P.y a = P.y b ∧ P.x a + P.x b + P.w a = m) ∧ (g.axis = .H → P.x a = P.x b ∧ P.y a + P.y b + P.h a = m)) ∧
  ∀ s ∈ g.selfs, (g.axis = .V → 2 * P.x s + P.w s = m) ∧ (g.axis = .H → 2 * P.y s + P.h s = m)

/-- Blocks in a row have their lower edges (centres, upper edges) on a line, those in a column their left edges (centres, right
edges). -/
def Pl.Aligned (P : Pl) (u : Align) : Prop := ∀ a ∈ u.blocks, ∀ b ∈ u.blocks,
  (u.hor = true → (u.line = 0 → P.y a = P.y b) ∧ (u.line = 1 → 2 * P.y a + P.h a = 2 * P.y b + P.h b) ∧
    (u.line ≠ 0 ∧ u.line ≠ 1 → P.y a + P.h a = P.y b + P.h b)) ∧
  (u.hor = false → (u.line = 0 → P.x a = P.x b) ∧ (u.line = 1 → 2 * P.x a + P.w a = 2 * P.x b + P.w b) ∧
    (u.line ≠ 0 ∧ u.line ≠ 1 → P.x a + P.w a = P.x b + P.w b))

/-! ## Proofs -/

/-- Orders of neighbours of a list. -/
theorem mem_neighbours {l : List Nat} {r : List (Nat × Nat)} (h : neighbours l = some r) {a b : Nat} (hx : (a, b) ∈ r) :
    ∃ u v, l = u ++ a :: b :: v := by
  cases l with
  | nil => simp [neighbours] at h
  | cons c l =>
    simp only [neighbours, Option.some.injEq] at h
    subst h
    induction l generalizing c with
    | nil => simp at hx
    | cons d l ih =>
      rw [List.zip_cons_cons, List.mem_cons] at hx
      rcases hx with hx | hx
      · rw [Prod.mk.injEq] at hx
        obtain ⟨rfl, rfl⟩ := hx
        exact ⟨[], l, rfl⟩
      · obtain ⟨u, v, e⟩ := ih d hx
        exact ⟨c :: u, v, by rw [e]; rfl⟩

theorem neighbours_mem (u v : List Nat) (a b : Nat) : ∃ l, neighbours (u ++ a :: b :: v) = some l ∧ (a, b) ∈ l := by
  have : ∀ (u : List Nat) (c : Nat), (a, b) ∈ (c :: (u ++ a :: b :: v)).zip (u ++ a :: b :: v) := by
    intro u
    induction u with
    | nil => intro c; simp
    | cons d u ih =>
      intro c
      rw [List.cons_append, List.zip_cons_cons]
      exact List.mem_cons_of_mem _ (ih d)
  cases u with
  | nil => exact ⟨_, rfl, by simp⟩
  | cons c u => exact ⟨_, rfl, this u c⟩

theorem mem_ordering {D : Des} {orders : List (List Nat × Axis)} {r : List ((Nat × Nat) × Axis)}
    (h : ordering D orders = some r) {x : (Nat × Nat) × Axis} :
    x ∈ r ↔ ∃ o ∈ orders, ∃ l, neighbours o.1 = some l ∧ ∃ y ∈ l, x ∈ two D o.2 y.1 y.2 := by
  unfold ordering at h
  rw [Option.map_eq_some_iff] at h
  obtain ⟨rs, h1, rfl⟩ := h
  have hf := Verif.Route.mapM_forall₂.1 h1
  rw [List.mem_flatten]
  constructor
  · rintro ⟨s, hs, hx⟩
    obtain ⟨o, ho, e⟩ := Verif.Route.forall₂_right hf s hs
    rw [Option.map_eq_some_iff] at e
    obtain ⟨l, hl, rfl⟩ := e
    rw [List.mem_flatMap] at hx
    exact ⟨o, ho, l, hl, hx⟩
  · rintro ⟨o, ho, l, hl, y, hy, hx⟩
    obtain ⟨s, hs, e⟩ := Verif.Route.forall₂_left hf o ho
    rw [hl, Option.map_some, Option.some.injEq] at e
    subst e
    exact ⟨_, hs, List.mem_flatMap.2 ⟨y, hy, hx⟩⟩

/-- What the constraints of the user and the choice of variants demand. -/
structure Sat (D : Des) (sym : List Sym) (orders : List (List Nat × Axis)) (P : Pl) : Prop where
  orders : P.Orders orders
  sym : ∀ g ∈ sym, P.Mirrored g
  aligns : ∀ u ∈ D.aligns, P.Aligned u

theorem same_row {sym : List Sym} {P : Pl} (hs : ∀ g ∈ sym, P.Mirrored g) {a m : Nat}
    (h : ∃ g ∈ sym, g.axis = .V ∧ Image g a m) : P.y a = P.y m ∧ P.h a = P.h m := by
  obtain ⟨g, hg, hax, hi⟩ := h
  obtain ⟨_, h1, -⟩ := hs g hg
  rcases hi with hi | hi | ⟨rfl, -⟩
  · have := h1 _ _ hi
    exact ⟨(this.2.2.1 hax).1, this.2.1⟩
  · have := h1 _ _ hi
    exact ⟨(this.2.2.1 hax).1.symm, this.2.1.symm⟩
  · exact ⟨rfl, rfl⟩

/-- In a row the lower block is not lower at its foot and not higher at its top. -/
theorem inside_row {P : Pl} {u : Align} (h : P.Aligned u) (hh : u.hor = true) {a b : Nat} (ha : a ∈ u.blocks) (hb : b ∈ u.blocks)
    (hle : P.h b ≤ P.h a) : P.y a ≤ P.y b ∧ P.y b + P.h b ≤ P.y a + P.h a := by
  obtain ⟨h0, h1, h2⟩ := (h a ha b hb).1 hh
  by_cases e0 : u.line = 0
  · have := h0 e0
    omega
  · by_cases e1 : u.line = 1
    · have := h1 e1
      omega
    · have := h2 ⟨e0, e1⟩
      omega

/-- **C102** (part): the orders of mirror images and aligned blocks follow from the constraints of the user, if the blocks in
vertical orders that have an image are in groups with a vertical axis and the chosen variants of aligned blocks compare as the
first ones do.  Without the first the orders may be impossible (`C102_violated_axis`), without the second they exclude
placements (`C102_violated_variant`). -/
theorem C102_implied_partial {D : Des} {sym : List Sym} {orders : List (List Nat × Axis)} {r : List ((Nat × Nat) × Axis)}
    (h : ordering D orders = some r) {P : Pl} (hP : Sat D sym orders P)
    (hax : ∀ l, (l, Axis.V) ∈ orders → ∀ a ∈ l, ∀ m, D.cp a = some m → ∃ g ∈ sym, g.axis = .V ∧ Image g a m)
    (hv : ∀ u ∈ D.aligns, u.hor = true → ∀ a ∈ u.blocks, ∀ b ∈ u.blocks, D.hgt b ≤ D.hgt a → P.h b ≤ P.h a) :
    P.All r := by
  rintro ⟨⟨c, d⟩, bx⟩ hx
  obtain ⟨⟨l, ax⟩, ho, n, hn, ⟨a, b⟩, hy, hx⟩ := (mem_ordering h).1 hx
  obtain ⟨u, v, e⟩ := mem_neighbours hn hy
  simp only at e hx
  have hab : P.Ordered ax a b := by
    have := hP.orders _ ho
    rw [e] at this
    have := (List.pairwise_append.1 this).2.1
    exact (List.pairwise_cons.1 this).1 b List.mem_cons_self
  have hla : a ∈ l := by rw [e]; simp
  have hlb : b ∈ l := by rw [e]; simp
  simp only [two, List.mem_append] at hx
  rcases hx with (((hx | hx) | hx) | hx) | hx
  · rw [List.mem_singleton, Prod.mk.injEq, Prod.mk.injEq] at hx
    obtain ⟨⟨rfl, rfl⟩, rfl⟩ := hx
    exact hab
  · split_ifs at hx with hc
    · obtain ⟨⟨h1, -⟩, -, rfl⟩ := hc
      obtain ⟨m, hm⟩ := Option.ne_none_iff_exists'.1 h1
      simp only [hm, Option.getD_some, List.mem_singleton, Prod.mk.injEq] at hx
      obtain ⟨⟨rfl, rfl⟩, rfl⟩ := hx
      have := same_row hP.sym (hax l ho a hla _ hm)
      have h2 := hab.2 rfl
      refine ⟨fun h => (by cases h), fun _ => ?_⟩
      simp only
      omega
    · cases hx
  · split_ifs at hx with hc
    · obtain ⟨⟨h1, -⟩, -, rfl⟩ := hc
      obtain ⟨m, hm⟩ := Option.ne_none_iff_exists'.1 h1
      simp only [hm, Option.getD_some, List.mem_singleton, Prod.mk.injEq] at hx
      obtain ⟨⟨rfl, rfl⟩, rfl⟩ := hx
      have := same_row hP.sym (hax l ho b hlb _ hm)
      have h2 := hab.2 rfl
      refine ⟨fun h => (by cases h), fun _ => ?_⟩
      simp only
      omega
    · cases hx
  · split_ifs at hx with hc
    · obtain ⟨⟨h1, -⟩, ⟨h2, -⟩, -, rfl⟩ := hc
      obtain ⟨m, hm⟩ := Option.ne_none_iff_exists'.1 h1
      obtain ⟨k, hk⟩ := Option.ne_none_iff_exists'.1 h2
      simp only [hm, hk, Option.getD_some, List.mem_singleton, Prod.mk.injEq] at hx
      obtain ⟨⟨rfl, rfl⟩, rfl⟩ := hx
      have e1 := same_row hP.sym (hax l ho a hla _ hm)
      have e2 := same_row hP.sym (hax l ho b hlb _ hk)
      have h2 := hab.2 rfl
      refine ⟨fun h => (by cases h), fun _ => ?_⟩
      simp only
      omega
    · cases hx
  · split_ifs at hx with hc
    · subst hc
      rw [List.mem_flatMap] at hx
      obtain ⟨w, hw, hx⟩ := hx
      have h2 := hab.2 rfl
      rw [List.mem_append] at hx
      rcases hx with hx | hx
      · split_ifs at hx with hu
        · rw [List.mem_map] at hx
          obtain ⟨k, hk, hx⟩ := hx
          rw [List.mem_filter, decide_eq_true_iff] at hk
          rw [Prod.mk.injEq, Prod.mk.injEq] at hx
          obtain ⟨⟨rfl, rfl⟩, rfl⟩ := hx
          have := inside_row (hP.aligns w hw) hu.1 hu.2 hk.1 (hv w hw hu.1 _ hu.2 _ hk.1 hk.2.2)
          refine ⟨fun h => (by cases h), fun _ => ?_⟩
          simp only
          omega
        · cases hx
      · split_ifs at hx with hu
        · rw [List.mem_map] at hx
          obtain ⟨k, hk, hx⟩ := hx
          rw [List.mem_filter, decide_eq_true_iff] at hk
          rw [Prod.mk.injEq, Prod.mk.injEq] at hx
          obtain ⟨⟨rfl, rfl⟩, rfl⟩ := hx
          have := inside_row (hP.aligns w hw) hu.1 hu.2 hk.1 (hv w hw hu.1 _ hu.2 _ hk.1 hk.2.2)
          refine ⟨fun h => (by cases h), fun _ => ?_⟩
          simp only
          omega
        · cases hx
    · cases hx

theorem chain {P : Pl} {ax : Axis} (hw : ∀ b, 0 ≤ P.w b) (hh : ∀ b, 0 ≤ P.h b) : ∀ (l : List Nat) (a : Nat),
    (∀ x ∈ (a :: l).zip l, P.Ordered ax x.1 x.2) → (a :: l).Pairwise (P.Ordered ax)
  | [], a, _ => by simp
  | b :: l, a, h => by
    rw [List.zip_cons_cons] at h
    have h1 := h _ List.mem_cons_self
    have h2 := chain hw hh l b (fun x hx => h x (List.mem_cons_of_mem _ hx))
    rw [List.pairwise_cons]
    refine ⟨?_, h2⟩
    intro c hc
    rcases List.mem_cons.1 hc with rfl | hc
    · exact h1
    · have h3 := (List.pairwise_cons.1 h2).1 c hc
      have := hw b
      have := hh b
      constructor <;> intro e
      · have := h1.1 e
        have := h3.1 e
        simp only at *
        omega
      · have := h1.2 e
        have := h3.2 e
        simp only at *
        omega

/-- **C102**: nothing of the orders is lost: a placement that keeps the orders of two blocks has all lists of the user in
order. -/
theorem C102_complete {D : Des} {orders : List (List Nat × Axis)} {r : List ((Nat × Nat) × Axis)}
    (h : ordering D orders = some r) {P : Pl} (hw : ∀ b, 0 ≤ P.w b) (hh : ∀ b, 0 ≤ P.h b) (hP : P.All r) : P.Orders orders := by
  rintro ⟨l, ax⟩ ho
  cases l with
  | nil => simp
  | cons a l =>
    refine chain hw hh l a ?_
    intro x hx
    have : (x, ax) ∈ r := (mem_ordering h).2 ⟨_, ho, _, rfl, x, hx, by
      simp only [two, List.mem_append]
      exact Or.inl (Or.inl (Or.inl (Or.inl List.mem_cons_self)))⟩
    exact hP _ this

/-- **C102**: orders are made for all lists that are not empty; horizontal ones give the orders of neighbours and nothing else,
and so do abutted blocks. -/
theorem C102_some (D : Des) (orders : List (List Nat × Axis)) :
    ((ordering D orders).isSome ↔ ∀ o ∈ orders, o.1 ≠ []) ∧ ((abutting orders).isSome ↔ ∀ o ∈ orders, o.1 ≠ []) ∧
    (∀ r, ordering D orders = some r → ∀ a b, ((a, b), Axis.H) ∈ r ↔ ∃ u v, (u ++ a :: b :: v, Axis.H) ∈ orders) ∧
    ∀ r, abutting orders = some r → ∀ a b ax, ((a, b), ax) ∈ r ↔ ∃ u v, (u ++ a :: b :: v, ax) ∈ orders := by
  have hz := neighbours_mem
  have hn : ∀ l : List Nat, (neighbours l).isSome ↔ l ≠ [] := by
    intro l
    cases l <;> simp [neighbours]
  refine ⟨?_, ?_, ?_, ?_⟩
  · unfold ordering
    rw [Option.isSome_map, Verif.ConstDb.mapM_isSome_iff]
    exact forall₂_congr fun o _ => by rw [Option.isSome_map, hn]
  · unfold abutting
    rw [Option.isSome_map, Verif.ConstDb.mapM_isSome_iff]
    exact forall₂_congr fun o _ => by rw [Option.isSome_map, hn]
  · intro r h a b
    rw [mem_ordering h]
    constructor
    · rintro ⟨⟨l, ax⟩, ho, n, hl, ⟨c, d⟩, hy, hx⟩
      simp only [two, List.mem_append] at hx
      have hax : ax = .H := by
        rcases hx with (((hx | hx) | hx) | hx) | hx
        · simp only [List.mem_singleton, Prod.mk.injEq] at hx
          exact hx.2.symm
        · split_ifs at hx with hc
          · simp only [List.mem_singleton, Prod.mk.injEq] at hx
            exact hx.2.symm
          · cases hx
        · split_ifs at hx with hc
          · simp only [List.mem_singleton, Prod.mk.injEq] at hx
            exact hx.2.symm
          · cases hx
        · split_ifs at hx with hc
          · simp only [List.mem_singleton, Prod.mk.injEq] at hx
            exact hx.2.symm
          · cases hx
        · split_ifs at hx with hc
          · exfalso
            subst hc
            simp only [List.mem_flatMap, List.mem_append] at hx
            obtain ⟨u, -, hx | hx⟩ := hx <;> split_ifs at hx
            · simp at hx
            · cases hx
            · simp at hx
            · cases hx
          · cases hx
      subst hax
      simp only [reduceCtorEq, and_false, if_false, List.mem_singleton, Prod.mk.injEq, and_true, List.not_mem_nil, or_false] at hx
      obtain ⟨rfl, rfl⟩ := hx
      obtain ⟨u, v, e⟩ := mem_neighbours hl hy
      exact ⟨u, v, e ▸ ho⟩
    · rintro ⟨u, v, ho⟩
      obtain ⟨l, h1, h2⟩ := hz u v a b
      refine ⟨_, ho, l, h1, _, h2, ?_⟩
      simp [two]
  · intro r h a b ax
    unfold abutting at h
    rw [Option.map_eq_some_iff] at h
    obtain ⟨rs, h1, rfl⟩ := h
    have hf := Verif.Route.mapM_forall₂.1 h1
    rw [List.mem_flatten]
    constructor
    · rintro ⟨s, hs, hx⟩
      obtain ⟨⟨l, ax'⟩, ho, e⟩ := Verif.Route.forall₂_right hf s hs
      rw [Option.map_eq_some_iff] at e
      obtain ⟨n, hn, rfl⟩ := e
      rw [List.mem_map] at hx
      obtain ⟨x, hx, e⟩ := hx
      rw [Prod.mk.injEq] at e
      obtain ⟨rfl, rfl⟩ := e
      obtain ⟨u, v, e⟩ := mem_neighbours hn hx
      exact ⟨u, v, e ▸ ho⟩
    · rintro ⟨u, v, ho⟩
      obtain ⟨l, h1, h2⟩ := hz u v a b
      obtain ⟨s, hs, e⟩ := Verif.Route.forall₂_left hf _ ho
      simp only [h1, Option.map_some, Option.some.injEq] at e
      subst e
      exact ⟨_, hs, List.mem_map.2 ⟨_, h2, rfl⟩⟩

/-- **C102**: a vertical order of two blocks holds for their mirror images too, unless one is the image of the other: all four
orders are made. -/
theorem C102_images {D : Des} {orders : List (List Nat × Axis)} {r : List ((Nat × Nat) × Axis)}
    (h : ordering D orders = some r) {u v : List Nat} {a b c d : Nat} (ho : (u ++ a :: b :: v, Axis.V) ∈ orders)
    (hc : D.cp a = some c) (hd : D.cp b = some d) (hda : d ≠ a) :
    ((a, b), Axis.V) ∈ r ∧ ((c, b), Axis.V) ∈ r ∧ ((a, d), Axis.V) ∈ r ∧ ((c, d), Axis.V) ∈ r := by
  obtain ⟨l, h1, h2⟩ := neighbours_mem u v a b
  have key : ∀ x, x ∈ two D .V a b → x ∈ r := fun x hx => (mem_ordering h).2 ⟨_, ho, l, h1, _, h2, hx⟩
  have k0 : ((a, b), Axis.V) ∈ r := key _ (by simp [two])
  by_cases ea : c = a
  · by_cases eb : d = b
    · subst ea eb
      exact ⟨k0, k0, k0, k0⟩
    · subst ea
      have k1 : ((c, d), Axis.V) ∈ r := key _ (by simp [two, hc, hd, hda, eb])
      exact ⟨k0, k0, k1, k1⟩
  · by_cases eb : d = b
    · subst eb
      have k1 : ((c, d), Axis.V) ∈ r := key _ (by simp [two, hc, hd, hda, ea])
      exact ⟨k0, k1, k0, k1⟩
    · exact ⟨k0, key _ (by simp [two, hc, hd, hda, ea]), key _ (by simp [two, hc, hd, hda, eb]),
        key _ (by simp [two, hc, hd, hda, ea, eb])⟩

/-- **C102**: a vertical order of two blocks holds for the blocks in a row with one of them that are not taller. -/
theorem C102_rows {D : Des} {orders : List (List Nat × Axis)} {r : List ((Nat × Nat) × Axis)}
    (h : ordering D orders = some r) {u v : List Nat} {a b : Nat} (ho : (u ++ a :: b :: v, Axis.V) ∈ orders) {w : Align}
    (hw : w ∈ D.aligns) (hh : w.hor = true) {c : Nat} (hc : c ∈ w.blocks) :
    (a ∈ w.blocks → D.hgt c ≤ D.hgt a → ((c, b), Axis.V) ∈ r) ∧ (b ∈ w.blocks → D.hgt c ≤ D.hgt b → ((a, c), Axis.V) ∈ r) := by
  obtain ⟨l, h1, h2⟩ := neighbours_mem u v a b
  have key : ∀ x, x ∈ two D .V a b → x ∈ r := fun x hx => (mem_ordering h).2 ⟨_, ho, l, h1, _, h2, hx⟩
  have k0 : ((a, b), Axis.V) ∈ r := key _ (by simp [two])
  constructor <;> intro hm hle
  · by_cases e : c = a
    · subst e
      exact k0
    · refine key _ ?_
      simp only [two, List.mem_append, if_true, List.mem_flatMap]
      refine Or.inr ⟨w, hw, Or.inl ?_⟩
      rw [if_pos ⟨hh, hm⟩, List.mem_map]
      exact ⟨c, List.mem_filter.2 ⟨hc, by simpa using ⟨e, hle⟩⟩, rfl⟩
  · by_cases e : c = b
    · subst e
      exact k0
    · refine key _ ?_
      simp only [two, List.mem_append, if_true, List.mem_flatMap]
      refine Or.inr ⟨w, hw, Or.inr ?_⟩
      rw [if_pos ⟨hh, hm⟩, List.mem_map]
      exact ⟨c, List.mem_filter.2 ⟨hc, by simpa using ⟨e, hle⟩⟩, rfl⟩

/-! ### Examples and violations -/

/-- A pair with a vertical axis above a block that is in a row with a taller one. -/
def exD : Des := ⟨fun b => if b = 0 then some 1 else if b = 1 then some 0 else none, [⟨true, 0, [2, 3]⟩],
  fun b => if b = 3 then 1 else 2⟩

def exP : Pl := ⟨fun b => (b : Int) * 10, fun b => if b ≤ 1 then 2 else 0, fun _ => 10, fun b => if b = 3 then 1 else 2⟩

example : ordering exD [([0, 2], .V), ([2, 3], .H)] =
      some [((0, 2), .V), ((1, 2), .V), ((0, 3), .V), ((2, 3), .H)] ∧
    Sat exD [⟨[(0, 1)], [], .V⟩] [([0, 2], .V), ([2, 3], .H)] exP := by
  refine ⟨by decide +kernel, ?_, ?_, ?_⟩
  · unfold Pl.Orders Pl.Ordered
    decide
  · intro g hg
    rw [List.mem_singleton] at hg
    subst hg
    refine ⟨20, ?_, by simp⟩
    intro a b hab
    simp only [List.mem_singleton, Prod.mk.injEq] at hab
    obtain ⟨rfl, rfl⟩ := hab
    exact ⟨rfl, rfl, fun _ => ⟨rfl, rfl⟩, fun h => (by cases h)⟩
  · unfold Pl.Aligned
    decide

/-- A pair above and below a single block on a horizontal axis. -/
def axD : Des := ⟨fun b => if b = 0 then some 1 else if b = 1 then some 0 else if b = 2 then some 2 else none, [], fun _ => 1⟩

/-- **C102** violated: for a pair with a horizontal axis the mirror image of the block above `2` is below it, but it is ordered
above too.  The constraints of the user can be met, those made from them cannot. -/
theorem C102_violated_axis : ∃ (D : Des) (sym : List Sym) (orders : List (List Nat × Axis)) (r : List ((Nat × Nat) × Axis)),
    ordering D orders = some r ∧ (∃ P, Sat D sym orders P ∧ ∀ b, 0 < P.h b ∧ 0 < P.w b) ∧
    (∀ a m, D.cp a = some m ↔ ∃ g ∈ sym, Image g a m) ∧
    ¬ ∃ P, Sat D sym orders P ∧ P.All r ∧ ∀ b, 0 < P.h b := by
  refine ⟨axD, [⟨[(0, 1)], [2], .H⟩], [([0, 2], .V)], [((0, 2), .V), ((1, 2), .V)], by decide +kernel, ?_, ?_, ?_⟩
  · refine ⟨⟨fun _ => 0, fun b => if b = 0 then 2 else if b = 1 then 0 else 1, fun _ => 1, fun _ => 1⟩, ⟨?_, ?_, ?_⟩, ?_⟩
    · unfold Pl.Orders Pl.Ordered
      decide
    · intro g hg
      rw [List.mem_singleton] at hg
      subst hg
      refine ⟨3, ?_, ?_⟩
      · intro a b hab
        simp only [List.mem_singleton, Prod.mk.injEq] at hab
        obtain ⟨rfl, rfl⟩ := hab
        exact ⟨rfl, rfl, fun h => (by cases h), fun _ => ⟨rfl, rfl⟩⟩
      · intro s hs
        rw [List.mem_singleton] at hs
        subst hs
        exact ⟨fun h => (by cases h), fun _ => rfl⟩
    · intro u hu
      cases hu
    · intro b
      exact ⟨Int.one_pos, Int.one_pos⟩
  · intro a m
    unfold axD Image
    simp only [List.mem_singleton, exists_eq_left, Prod.mk.injEq]
    constructor
    · intro h
      split_ifs at h with h1 h2 h3 <;> simp only [Option.some.injEq, reduceCtorEq] at h <;> omega
    · intro h
      split_ifs with h1 h2 h3 <;> (try simp only [Option.some.injEq]) <;> omega
  · rintro ⟨P, hP, hr, hh⟩
    obtain ⟨m, h1, h2⟩ := hP.sym _ List.mem_cons_self
    have e1 := (h1 0 1 (by simp)).2.2.2 rfl
    have e0 := (h1 0 1 (by simp)).2.1
    have e2 := (h2 2 (by simp)).2 rfl
    have o1 := (hr ((0, 2), .V) (by simp)).2 rfl
    have o2 := (hr ((1, 2), .V) (by simp)).2 rfl
    have p0 := hh 0
    have p2 := hh 2
    simp only at o1 o2
    omega

/-- Two blocks with their upper edges on a line, the first one above `2`. -/
def varD : Des := ⟨fun _ => none, [⟨true, 2, [0, 1]⟩], fun b => if b = 0 then 2 else 1⟩

/-- **C102** violated: the heights compared are those of the first variants.  With other variants chosen a placement that meets all
constraints of the user does not meet those made from them. -/
theorem C102_violated_variant : ∃ (D : Des) (orders : List (List Nat × Axis)) (r : List ((Nat × Nat) × Axis)) (P : Pl),
    ordering D orders = some r ∧ Sat D [] orders P ∧ (∀ b, 0 < P.h b ∧ 0 < P.w b) ∧ ¬ P.All r := by
  refine ⟨varD, [([0, 2], .V)], [((0, 2), .V), ((1, 2), .V)],
    ⟨fun b => if b = 1 then 1 else 0, fun b => if b = 0 then 4 else 0, fun _ => 1, fun b => if b = 1 then 5 else 1⟩,
    by decide +kernel, ⟨?_, ?_, ?_⟩, ?_, ?_⟩
  · unfold Pl.Orders Pl.Ordered
    decide
  · intro g hg
    cases hg
  · unfold Pl.Aligned
    decide
  · intro b
    refine ⟨?_, Int.one_pos⟩
    simp only
    split_ifs <;> decide
  · intro h
    have := (h ((1, 2), .V) (by simp)).2 rfl
    revert this
    decide

end Verif.OrderCons

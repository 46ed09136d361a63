import Mathlib.Data.List.Dedup
import Mathlib.Tactic.ByContra

/-!
# C154: the metals and vias found for a power net

`router/Graph.cpp`: `adjust_line`, `collect_vdd_gnd`, `collect_vdd_gnd_via` and the loop of `CreatePower_Grid` 131-217, `CheckActive` 409-437.

Simplifications: neighbours are given as places in the list of vertices, after `total2graph`; one that is not there is passed over. Widths are left out, as they depend on the layer only. The set of vias is a list
without repetitions (the order of the set compares layer and both coordinates, so it takes two vias for the same only if they are). The set of metals is C148.
-/

namespace Verif.PowerCollect

/-! ## The code -/

/-- A vertex: metal, place, net (1 power, 0 ground), active, neighbours to the north, south, east and west, the one below and the one above. -/
structure V where
  layer : Nat
  x : Int
  y : Int
  power : Int
  active : Bool
  side : List Nat
  down : Option Nat
  up : Option Nat

structure Seg where
  layer : Nat
  x0 : Int
  y0 : Int
  x1 : Int
  y1 : Int
deriving DecidableEq

structure Via where
  layer : Nat
  x : Int
  y : Int
deriving DecidableEq

/-- `adjust_line` (131-150). -/
def line (a b : V) : Seg :=
  if a.x = b.x then
    if a.y ≤ b.y then ⟨a.layer, a.x, a.y, b.x, b.y⟩ else ⟨a.layer, b.x, b.y, a.x, a.y⟩
  else if a.x ≤ b.x then ⟨a.layer, a.x, a.y, b.x, b.y⟩ else ⟨a.layer, b.x, b.y, a.x, a.y⟩

/-- `collect_vdd_gnd` (152-170) for one net and one vertex. -/
def sideMetals (vs : List V) (net : Int) (a : V) : List Seg :=
  a.side.flatMap fun j => (vs[j]?.toList).flatMap fun b => if b.active = true ∧ a.power = net ∧ b.power = net then [line a b] else []

/-- `CheckActive`. -/
def checkActive (vs : List V) (a : V) : Bool := a.side.any fun j => vs[j]?.toList.any fun b => b.active

/-- `collect_vdd_gnd_via` (172-199) for one net and one vertex. -/
def stackVias (vs : List V) (net : Int) (a : V) : List Via :=
  (a.down.toList ++ a.up.toList).flatMap fun j => (vs[j]?.toList).flatMap fun b =>
    if b.active = true ∧ a.power = net ∧ b.power = net ∧ checkActive vs b = true ∧ checkActive vs a = true then [⟨if a.layer < b.layer then a.layer else b.layer, a.x, a.y⟩] else []

/-- The loop over the vertices (201-217). -/
def metals (vs : List V) (net : Int) : List Seg := vs.flatMap fun a => if a.active then sideMetals vs net a else []
def vias (vs : List V) (net : Int) : List Via := (vs.flatMap fun a => if a.active then stackVias vs net a else []).dedup

/-! ## What the properties say -/

/-- Both vertices are active and belong to the net. -/
def BothOf (net : Int) (a b : V) : Prop := (a.active = true ∧ a.power = net) ∧ b.active = true ∧ b.power = net

/-- The metal goes from one vertex to the other, from left to right or from bottom to top. -/
def Joins (s : Seg) (a b : V) : Prop :=
  s.layer = a.layer ∧ ((s.x0, s.y0, s.x1, s.y1) = (a.x, a.y, b.x, b.y) ∨ (s.x0, s.y0, s.x1, s.y1) = (b.x, b.y, a.x, a.y)) ∧ (s.x0 < s.x1 ∨ (s.x0 = s.x1 ∧ s.y0 ≤ s.y1))

/-- A neighbour on the same layer, and one below or above. -/
def Beside (vs : List V) (a b : V) : Prop := ∃ j ∈ a.side, vs[j]? = some b
def Stacked (vs : List V) (a b : V) : Prop := ∃ j, (a.down = some j ∨ a.up = some j) ∧ vs[j]? = some b

/-! ## Proofs -/

theorem line_iff (a b : V) (s : Seg) : s = line a b ↔ Joins s a b := by
  obtain ⟨l, x0, y0, x1, y1⟩ := s
  unfold line Joins
  simp only [Prod.mk.injEq]
  by_cases h1 : a.x = b.x
  · rw [if_pos h1]
    by_cases h2 : a.y ≤ b.y
    · rw [if_pos h2]; simp only [Seg.mk.injEq]; omega
    · rw [if_neg h2]; simp only [Seg.mk.injEq]; omega
  · rw [if_neg h1]
    by_cases h2 : a.x ≤ b.x
    · rw [if_pos h2]; simp only [Seg.mk.injEq]; omega
    · rw [if_neg h2]; simp only [Seg.mk.injEq]; omega

theorem check_iff (vs : List V) (a : V) : checkActive vs a = true ↔ ∃ b, Beside vs a b ∧ b.active = true := by
  unfold checkActive Beside
  simp only [List.any_eq_true, Option.mem_toList]
  constructor
  · rintro ⟨j, hj, b, hb, h⟩; exact ⟨b, ⟨j, hj, hb⟩, h⟩
  · rintro ⟨b, ⟨j, hj, hb⟩, h⟩; exact ⟨j, hj, b, hb, h⟩

/-! ## The theorems -/

/-- C154: the metals found for a net are those between two neighbours on a layer that are active and of the net. -/
theorem C154_metals (vs : List V) (net : Int) (s : Seg) : s ∈ metals vs net ↔ ∃ a ∈ vs, ∃ b, Beside vs a b ∧ BothOf net a b ∧ Joins s a b := by
  unfold metals sideMetals Beside BothOf
  rw [List.mem_flatMap]
  refine exists_congr fun a => and_congr_right fun _ => ?_
  constructor
  · intro h
    by_cases ha : a.active = true
    · rw [if_pos ha] at h
      obtain ⟨j, hj, h⟩ := List.mem_flatMap.1 h
      obtain ⟨b, hb, h⟩ := List.mem_flatMap.1 h
      rw [Option.mem_toList] at hb
      split at h
      · rename_i hc
        exact ⟨b, ⟨j, hj, hb⟩, ⟨⟨ha, hc.2.1⟩, hc.1, hc.2.2⟩, (line_iff a b s).1 (List.mem_singleton.1 h)⟩
      · simp at h
    · rw [if_neg ha] at h
      simp at h
  · rintro ⟨b, ⟨j, hj, hb⟩, ⟨⟨ha, hp⟩, hba, hbp⟩, hs⟩
    rw [if_pos ha]
    refine List.mem_flatMap.2 ⟨j, hj, List.mem_flatMap.2 ⟨b, by rw [Option.mem_toList]; exact hb, ?_⟩⟩
    rw [if_pos ⟨hba, hp, hbp⟩]
    exact List.mem_singleton.2 ((line_iff a b s).2 hs)

/-- C154: the vias found for a net, each once, join two vertices one above the other that are active and of the net, on the lower of their layers, if each has an active neighbour on its layer. -/
theorem C154_vias_partial (vs : List V) (net : Int) : (vias vs net).Nodup ∧ ∀ v, v ∈ vias vs net ↔ ∃ a ∈ vs, ∃ b, Stacked vs a b ∧ BothOf net a b
    ∧ (∃ c, Beside vs a c ∧ c.active = true) ∧ (∃ c, Beside vs b c ∧ c.active = true) ∧ v.layer = min a.layer b.layer ∧ v.x = a.x ∧ v.y = a.y := by
  refine ⟨List.nodup_dedup _, fun v => ?_⟩
  unfold vias stackVias Stacked BothOf
  rw [List.mem_dedup, List.mem_flatMap]
  refine exists_congr fun a => and_congr_right fun _ => ?_
  have hmin : ∀ b : V, (if a.layer < b.layer then a.layer else b.layer) = min a.layer b.layer := by
    intro b
    split <;> omega
  constructor
  · intro h
    by_cases ha : a.active = true
    · rw [if_pos ha] at h
      obtain ⟨j, hj, h⟩ := List.mem_flatMap.1 h
      obtain ⟨b, hb, h⟩ := List.mem_flatMap.1 h
      rw [Option.mem_toList] at hb
      rw [List.mem_append, Option.mem_toList, Option.mem_toList] at hj
      split at h
      · rename_i hc
        obtain ⟨c1, c2, c3, c4, c5⟩ := hc
        have hv := List.mem_singleton.1 h
        refine ⟨b, ⟨j, hj, hb⟩, ⟨⟨ha, c2⟩, c1, c3⟩, (check_iff vs a).1 c5, (check_iff vs b).1 c4, ?_⟩
        rw [hv]
        exact ⟨hmin b, rfl, rfl⟩
      · simp at h
    · rw [if_neg ha] at h
      simp at h
  · rintro ⟨b, ⟨j, hj, hb⟩, ⟨⟨ha, hp⟩, hba, hbp⟩, h1, h2, e1, e2, e3⟩
    rw [if_pos ha]
    refine List.mem_flatMap.2 ⟨j, by rw [List.mem_append, Option.mem_toList, Option.mem_toList]; exact hj, List.mem_flatMap.2 ⟨b, by rw [Option.mem_toList]; exact hb, ?_⟩⟩
    rw [if_pos ⟨hba, hp, hbp, (check_iff vs b).2 h2, (check_iff vs a).2 h1⟩, List.mem_singleton]
    obtain ⟨l, x, y⟩ := v
    simp only at e1 e2 e3
    rw [hmin b, e1, e2, e3]

/-- A vertex of net 1 with a neighbour on its layer and one above it, whose only neighbour on its layer is of net 0. -/
def exVs : List V := [⟨1, 0, 0, 1, true, [1], none, some 2⟩, ⟨1, 10, 0, 1, true, [0], none, none⟩, ⟨2, 0, 0, 1, true, [3], some 0, none⟩, ⟨2, 0, 10, 0, true, [2], none, none⟩]

/-- C154: a via need not have metal of its net on both layers: the active neighbour may be of the other net. -/
theorem C154_violated : (⟨1, 0, 0⟩ : Via) ∈ vias exVs 1 ∧ ∀ s ∈ metals exVs 1, s.layer ≠ 2 := by decide +kernel

end Verif.PowerCollect

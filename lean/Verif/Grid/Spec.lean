import Verif.Grid.Model

/-! # Specification vocabulary for grids

A grid is a finite pattern of coordinates repeated forever with the distance between its last and its first
coordinate. -/

namespace Verif.Grid

/-- Coordinates of the pattern. -/
def Grid.coords {α : Type} (g : Grid α) : List Int := g.grid.map Prod.fst

/-- `x` is a line of the infinite grid with pattern `first :: rest`, whose last coordinate is `last`. -/
def IsLine (pts : List Int) (first last x : Int) : Prop :=
  ∃ c ∈ pts, ∃ q : Int, x = c + q * (last - first)

/-- A pattern in which every coordinate is between the first and the last one, which differ. -/
structure Bounded {α : Type} (g : Grid α) (first last : Int) : Prop where
  head : g.coords.head? = some first
  getLast : g.coords.getLast? = some last
  lt : first < last
  ge : ∀ c ∈ g.coords, first ≤ c
  le : ∀ c ∈ g.coords, c ≤ last

/-- A strictly increasing pattern with at least two coordinates. -/
structure Increasing {α : Type} (g : Grid α) (first last : Int) : Prop where
  head : g.coords.head? = some first
  getLast : g.coords.getLast? = some last
  two : 2 ≤ g.grid.length
  sorted : g.coords.Pairwise (· < ·)

/-- A flat index is legal when its position within the pattern is a legal index. -/
def LegalFlat {α : Type} (g : Grid α) (v : Int) : Prop :=
  ∃ q : Int, ∃ i ∈ g.legalIndices, v = q * ((g.grid.length : Int) - 1) + i

/-- The flat index of a tuple index. -/
def flat {α : Type} (g : Grid α) (idx : Int × Int) : Int := idx.1 * ((g.grid.length : Int) - 1) + idx.2

end Verif.Grid

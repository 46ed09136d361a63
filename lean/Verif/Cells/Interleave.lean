import Verif.Cells.Variants

/-!
# C50: interleaved arrays

Model of `interleave_pattern` (`align/pdk/finfet/transistor_array.py` 450-463) and of the steps from the
number of units to the array (`align/primitive/main.py` 62-64, transistor_array.py 156-161, 217, 251-255).
-/

namespace Verif.Cells

/-! ## Model -/

/-- `list(islice(cycle(row), n))` (463); an empty row gives nothing. -/
def cycleTake (row : List Char) (n : Nat) : List Char :=
  (List.range n).filterMap fun x => row[x % row.length]?

/-- `interleave_pattern` (450-463); `none`: the assertion on the template fails. -/
def interleavePattern (nRow nCol : Nat) (template : List (List Char)) : Option (List (List Char)) :=
  if template.length = 0 then none
  else some ((List.range nRow).map fun y => cycleTake (template.getD (y % template.length) []) nCol)

/-- The default template `["AB","BA"]`. -/
def defaultTemplate : List (List Char) := [['A', 'B'], ['B', 'A']]

/-- The array of two devices with `m` units each for a requested size (main.py 62-63, transistor_array.py
156-161, 217): the columns are doubled, the size legalised for `2*m` cells. -/
def dualArray (m xCells yCells : Nat) : Option (List (List Char)) :=
  (validateArray (2 * m) yCells (2 * xCells)).bind fun rc =>
    if rc.1 * rc.2 = 2 * m then interleavePattern rc.1 rc.2 defaultTemplate else none

/-! ## Specification -/

/-- The number of cells that belong to device `c`. -/
def cellsOf (c : Char) (a : List (List Char)) : Nat := (a.map (List.count c)).sum

/-- The array has `r` rows of `c` cells each. -/
def Shape (a : List (List Char)) (r c : Nat) : Prop := a.length = r ∧ ∀ row ∈ a, row.length = c

/-! ## Proofs -/

/-- The device in row `y` and column `x` of a checkerboard. -/
def board (y x : Nat) : Char := if (x + y) % 2 = 0 then 'A' else 'B'

theorem cycleTake_default (y n : Nat) :
    cycleTake (defaultTemplate.getD (y % defaultTemplate.length) []) n = (List.range n).map (board y) := by
  unfold cycleTake
  rw [← List.filterMap_eq_map]
  apply List.filterMap_congr
  intro x _
  have hy : y % 2 = 0 ∨ y % 2 = 1 := by omega
  have hx : x % 2 = 0 ∨ x % 2 = 1 := by omega
  rcases hy with hy | hy <;> rcases hx with hx | hx <;>
    simp [defaultTemplate, board, hy, hx, Nat.add_mod]

theorem interleave_default (nRow nCol : Nat) :
    interleavePattern nRow nCol defaultTemplate =
      some ((List.range nRow).map fun y => (List.range nCol).map (board y)) := by
  have : ¬ defaultTemplate.length = 0 := by decide
  simp only [interleavePattern, this, if_false, Option.some.injEq]
  apply List.map_congr_left
  intro y _
  exact cycleTake_default y nCol

theorem count_row (y n : Nat) :
    ((List.range n).map (board y)).count 'A' = (n + (if y % 2 = 0 then 1 else 0)) / 2 ∧
    ((List.range n).map (board y)).count 'B' = (n + (if y % 2 = 0 then 0 else 1)) / 2 := by
  induction n with
  | zero => split <;> simp
  | succ n ih =>
    rw [List.range_succ, List.map_append, List.count_append, List.count_append, ih.1, ih.2]
    have hb : board y n = if (n + y) % 2 = 0 then 'A' else 'B' := rfl
    simp only [List.map_cons, List.map_nil, hb]
    by_cases h : (n + y) % 2 = 0
    · rw [if_pos h]
      have h1 : List.count 'A' ['A'] = 1 := by decide
      have h2 : List.count 'B' ['A'] = 0 := by decide
      rw [h1, h2]
      constructor <;> split <;> omega
    · rw [if_neg h]
      have h1 : List.count 'A' ['B'] = 0 := by decide
      have h2 : List.count 'B' ['B'] = 1 := by decide
      rw [h1, h2]
      constructor <;> split <;> omega

theorem count_rows (r c : Nat) :
    cellsOf 'A' ((List.range r).map fun y => (List.range c).map (board y)) =
      (r / 2) * c + (if r % 2 = 0 then 0 else (c + 1) / 2) ∧
    cellsOf 'B' ((List.range r).map fun y => (List.range c).map (board y)) =
      (r / 2) * c + (if r % 2 = 0 then 0 else c / 2) := by
  induction r with
  | zero => simp [cellsOf]
  | succ r ih =>
    unfold cellsOf at ih ⊢
    rw [List.range_succ, List.map_append, List.map_append, List.map_append, List.sum_append, List.sum_append,
      ih.1, ih.2]
    simp only [List.map_cons, List.map_nil, List.sum_cons, List.sum_nil, Nat.add_zero,
      (count_row r c).1, (count_row r c).2]
    rcases Nat.mod_two_eq_zero_or_one r with h | h
    · have h1 : (r + 1) % 2 = 1 := by omega
      have h2 : (r + 1) / 2 = r / 2 := by omega
      simp [h, h1, h2]
    · have h1 : (r + 1) % 2 = 0 := by omega
      have h2 : (r + 1) / 2 = r / 2 + 1 := by omega
      simp only [h, h1, h2, Nat.add_mul, Nat.one_mul, if_true]
      constructor <;> · simp; omega

/-- **C50, the interleaving.**  An array of `2*m` cells has `m` of each device, whatever the numbers of
rows and columns. -/
theorem C50_equal {m r c : Nat} (h : r * c = 2 * m) :
    ∃ a, interleavePattern r c defaultTemplate = some a ∧ Shape a r c ∧
      cellsOf 'A' a = m ∧ cellsOf 'B' a = m := by
  refine ⟨_, interleave_default r c, ⟨by simp, by simp⟩, ?_⟩
  rw [(count_rows r c).1, (count_rows r c).2]
  rcases Nat.mod_two_eq_zero_or_one r with hr | hr
  · obtain ⟨k, rfl⟩ : ∃ k, r = 2 * k := ⟨r / 2, by omega⟩
    have : k * c = m := by
      have : 2 * (k * c) = 2 * m := by rw [← h]; ring
      omega
    simp [this]
  · obtain ⟨k, rfl⟩ : ∃ k, r = 2 * k + 1 := ⟨r / 2, by omega⟩
    have hc : c % 2 = 0 := by
      have : c = 2 * m - 2 * (k * c) := by
        have : 2 * (k * c) + c = 2 * m := by rw [← h]; ring
        omega
      omega
    obtain ⟨j, rfl⟩ : ∃ j, c = 2 * j := ⟨c / 2, by omega⟩
    have h1 : (2 * k + 1) / 2 = k := by omega
    have h2 : (2 * k + 1) % 2 = 1 := by omega
    have h3 : (2 * j + 1) / 2 = j := by omega
    have : 2 * (k * (2 * j) + j) = 2 * m := by rw [← h]; ring
    simp only [h1, h2, h3]
    simp
    omega

/-- **C50.**  For `m > 0` units each and any requested size, the generated array has exactly `m` cells of
each device; a request for a factorisation of `m` (C49) is honoured with twice as many columns. -/
theorem C50_array {m xCells yCells : Nat} (hm : 0 < m) :
    ∃ a r c, dualArray m xCells yCells = some a ∧ Shape a r c ∧ cellsOf 'A' a = m ∧ cellsOf 'B' a = m ∧
      (xCells * yCells = m → r = yCells ∧ c = 2 * xCells) := by
  obtain ⟨⟨r, c, hv⟩, hp, hk⟩ := (⟨(C49_validate (2 * m) yCells (2 * xCells)).1 (by omega),
    (C49_validate (2 * m) yCells (2 * xCells)).2⟩ : _ ∧ _ ∧ _)
  have hrc := hp r c hv
  obtain ⟨a, ha, hs, h1, h2⟩ := C50_equal hrc
  refine ⟨a, r, c, ?_, hs, h1, h2, ?_⟩
  · simp [dualArray, hv, hrc, ha]
  · intro hx
    have := hk (by rw [← hx]; ring)
    rw [hv] at this
    simp only [Option.some.injEq, Prod.mk.injEq] at this
    exact this

example : dualArray 3 3 1 = some ["ABABAB".toList] ∧ dualArray 3 1 3 =
    some ["AB".toList, "BA".toList, "AB".toList] := by decide +kernel

/-- **C63.**  With even numbers of rows and columns the array has a common centroid: turning it by 180
degrees about its center maps each device to itself. -/
theorem C63_common_centroid {r c : Nat} (hr : r % 2 = 0) (hc : c % 2 = 0) {a : List (List Char)}
    (h : interleavePattern r c defaultTemplate = some a) : a.reverse.map List.reverse = a := by
  rw [interleave_default, Option.some.injEq] at h
  subst h
  apply List.ext_getElem
  · simp
  · intro y h1 h2
    simp only [List.length_map, List.length_range] at h2
    apply List.ext_getElem
    · simp
    · intro x h3 h4
      simp only [List.getElem_map, List.length_map, List.length_range, List.getElem_range] at h4
      simp only [List.getElem_map, List.getElem_reverse, List.length_map, List.length_range,
        List.getElem_range, board]
      have : (c - 1 - x + (r - 1 - y)) % 2 = (x + y) % 2 := by omega
      rw [this]

example : interleavePattern 2 4 defaultTemplate = some ["ABAB".toList, "BABA".toList] := by decide +kernel

/-- **C63 needs both numbers even.**  With one row of two cells, or of four, the devices are exchanged
by the turn. -/
theorem C63_needs_even : ∃ a b, interleavePattern 1 4 defaultTemplate = some a ∧
    a.reverse.map List.reverse ≠ a ∧ interleavePattern 4 1 defaultTemplate = some b ∧
    b.reverse.map List.reverse ≠ b := by
  refine ⟨_, _, interleave_default 1 4, ?_, interleave_default 4 1, ?_⟩ <;> decide +kernel

end Verif.Cells

import Verif.Grid.Spec
import Mathlib.Tactic.Ring
import Mathlib.Tactic.Linarith

namespace Verif.Grid

variable {α : Type}

theorem Bounded.two {g : Grid α} {f l : Int} (h : Bounded g f l) : 2 ≤ g.grid.length := by
  obtain ⟨hh, hl, hlt, -, -⟩ := h
  unfold Grid.coords at hh hl
  match hg : g.grid with
  | [] => simp [hg] at hh
  | [a] => simp [hg] at hh hl; omega
  | _ :: _ :: _ => simp

theorem Increasing.bounded {g : Grid α} {f l : Int} (h : Increasing g f l) : Bounded g f l := by
  obtain ⟨hh, hl, h2, hs⟩ := h
  have hlen : g.coords.length = g.grid.length := by simp [Grid.coords]
  have h0 : 0 < g.coords.length := by omega
  have hf : g.coords[0] = f := by
    rw [List.head?_eq_getElem?, List.getElem?_eq_getElem h0] at hh; simpa using hh
  have hl' : g.coords[g.coords.length - 1]'(by omega) = l := by
    rw [List.getLast?_eq_getElem?, List.getElem?_eq_getElem (by omega)] at hl; simpa using hl
  have hp := List.pairwise_iff_getElem.mp hs
  refine ⟨hh, hl, ?_, ?_, ?_⟩
  · have := hp 0 (g.coords.length - 1) h0 (by omega) (by omega); omega
  · intro c hc
    obtain ⟨i, hi, rfl⟩ := List.getElem_of_mem hc
    rcases Nat.eq_zero_or_pos i with rfl | hpos
    · omega
    · have := hp 0 i h0 hi hpos; omega
  · intro c hc
    obtain ⟨i, hi, rfl⟩ := List.getElem_of_mem hc
    rcases Nat.lt_or_ge i (g.coords.length - 1) with hlt | hge
    · have := hp i (g.coords.length - 1) hi (by omega) hlt; omega
    · have : i = g.coords.length - 1 := by omega
      subst this; omega

/-- The facts about a grid used everywhere below. -/
theorem period_eq {g : Grid α} {f l : Int} (hh : g.coords.head? = some f)
    (hl : g.coords.getLast? = some l) : g.period = some (l - f) := by
  unfold Grid.coords at hh hl
  rw [List.head?_map] at hh
  rw [List.getLast?_map] at hl
  unfold Grid.period
  cases h1 : g.grid.getLast? with
  | none => simp [h1] at hl
  | some a =>
    cases h2 : g.grid.head? with
    | none => simp [h2] at hh
    | some b => simp [h1, h2] at hl hh; simp [hl, hh]

/-- Coordinates of a flat index written as `q * n + i`. -/
theorem valueFlat_split {g : Grid α} {f l : Int} (hh : g.coords.head? = some f)
    (hl : g.coords.getLast? = some l) (h2 : 2 ≤ g.grid.length) (q : Int) (i : Nat)
    (hi : i + 1 < g.grid.length) :
    g.valueFlat (q * g.n + i) false
      = some ((g.grid[i]'(by omega)).1 + q * (l - f), (g.grid[i]'(by omega)).2) := by
  have hn : g.n > 0 := by simp only [Grid.n]; omega
  have hn0 : (0 : Int) ≤ g.n := by omega
  have hdiv : (q * g.n + i).fdiv g.n = q := by
    rw [Int.fdiv_eq_ediv_of_nonneg _ hn0, Int.add_comm, Int.add_mul_ediv_right _ _ (by omega),
      Int.ediv_eq_zero_of_lt (by omega) (by simp only [Grid.n]; omega)]
    omega
  have hmod : (q * g.n + i).fmod g.n = i := by
    rw [Int.fmod_eq_emod_of_nonneg _ hn0, Int.add_comm, Int.add_mul_emod_self_right,
      Int.emod_eq_of_lt (by omega) (by simp only [Grid.n]; omega)]
  simp only [Grid.valueFlat, hn, if_true, hdiv, hmod, Bool.false_and, Int.toNat_natCast,
    period_eq hh hl]
  rw [List.getElem?_eq_getElem (by omega)]
  simp

/-- Every flat index splits. -/
theorem flat_split {g : Grid α} (h2 : 2 ≤ g.grid.length) (v : Int) :
    ∃ q : Int, ∃ i : Nat, i + 1 < g.grid.length ∧ v = q * g.n + i := by
  have hn : g.n > 0 := by simp only [Grid.n]; omega
  refine ⟨v / g.n, (v % g.n).toNat, ?_, ?_⟩
  · have := Int.emod_lt_of_pos v hn
    have h3 := Int.emod_nonneg v (show g.n ≠ 0 by omega)
    simp only [Grid.n] at *
    omega
  · have h3 := Int.emod_nonneg v (show g.n ≠ 0 by omega)
    rw [Int.toNat_of_nonneg h3]
    have := Int.mul_ediv_add_emod v g.n
    linarith [Int.mul_comm g.n (v / g.n)]

theorem value_tuple {g : Grid α} {f l : Int} (hh : g.coords.head? = some f)
    (hl : g.coords.getLast? = some l) (h2 : 2 ≤ g.grid.length) (q : Int) (i : Nat)
    (hi : i < g.grid.length) :
    ∃ a, g.value (q, i) false = some ((g.grid[i]).1 + q * (l - f), a) := by
  unfold Grid.value
  by_cases hlast : i + 1 < g.grid.length
  · exact ⟨_, valueFlat_split hh hl h2 q i hlast⟩
  · have hin : (i : Int) = g.n := by simp only [Grid.n]; omega
    have := valueFlat_split hh hl h2 (q + 1) 0 (by omega)
    refine ⟨(g.grid[0]'(by omega)).2, ?_⟩
    · rw [show (q * g.n + ((i : Nat) : Int)) = (q + 1) * g.n + ((0 : Nat) : Int) by
        rw [hin]; push_cast; ring]
      rw [this]
      simp only [Option.some.injEq, Prod.mk.injEq, and_true]
      have hil : i = g.grid.length - 1 := by omega
      have hF : (g.grid[0]'(by omega)).1 = f := by
        rw [Grid.coords, List.head?_map, List.head?_eq_getElem?,
          List.getElem?_eq_getElem (by omega)] at hh
        simpa using hh
      have hL : (g.grid[i]'(by omega)).1 = l := by
        rw [Grid.coords, List.getLast?_map, List.getLast?_eq_getElem?,
          List.getElem?_eq_getElem (by omega)] at hl
        subst hil
        simpa using hl
      rw [hF, hL]; ring

/-- The scan of a sorted list stops at the first entry that reaches the remainder. -/
theorem scan_spec (offset r q : Int) (prev : Nat) (L : List (Nat × Int))
    (hex : ∃ e ∈ L, r ≤ e.2 - offset) :
    ∃ (A : List (Nat × Int)) (e : Nat × Int) (B : List (Nat × Int)), L = A ++ e :: B ∧ (∀ a ∈ A, a.2 - offset < r) ∧ r ≤ e.2 - offset ∧
      scan offset r q prev L =
        if e.2 - offset = r then some ((q, (e.1 : Int)), (q, (e.1 : Int)))
        else some ((q, (((A.getLast?.map Prod.fst).getD prev : Nat) : Int)), (q, (e.1 : Int))) := by
  induction L generalizing prev with
  | nil => simp at hex
  | cons x L ih =>
    obtain ⟨idx, val⟩ := x
    by_cases h1 : val - offset = r
    · exact ⟨[], (idx, val), L, rfl, by simp, by simp; omega, by simp [scan, h1]⟩
    · by_cases h2 : val - offset > r
      · exact ⟨[], (idx, val), L, rfl, by simp, by simp; omega, by simp [scan, h1, h2]⟩
      · have hex' : ∃ e ∈ L, r ≤ e.2 - offset := by
          obtain ⟨e, he, hr⟩ := hex
          rcases List.mem_cons.mp he with rfl | he
          · simp only at hr; omega
          · exact ⟨e, he, hr⟩
        obtain ⟨A, e, B, hL, hA, he, hs⟩ := ih idx hex'
        refine ⟨(idx, val) :: A, e, B, by simp [hL], ?_, he, ?_⟩
        · intro a ha
          rcases List.mem_cons.mp ha with rfl | ha
          · simp only; omega
          · exact hA a ha
        · simp only [scan, h1, h2, if_false, hs]
          congr 3
          cases hA' : A.getLast? with
          | none =>
            have : A = [] := by simpa using hA'
            subst this; simp
          | some y =>
            have hne : A ≠ [] := by rintro rfl; simp at hA'
            rw [List.getLast?_cons, hA']; simp

theorem mem_monotonicGrid {g : Grid α} (e : Nat × Int) :
    e ∈ g.monotonicGrid ↔ ∃ h : e.1 < g.grid.length, (g.grid[e.1]).1 = e.2 := by
  unfold Grid.monotonicGrid
  rw [mem_pySort, List.mem_map]
  constructor
  · rintro ⟨⟨v, i⟩, hm, rfl⟩
    obtain ⟨-, h2, h3⟩ := List.mem_zipIdx hm
    simp at h2 h3
    exact ⟨h2, by simp [h3]⟩
  · rintro ⟨h, he⟩
    refine ⟨(g.grid[e.1], e.1), ?_, ?_⟩
    · rw [List.mem_zipIdx_iff_getElem?]; simp [h]
    · simp [he]

theorem monotonicGrid_sorted (g : Grid α) : g.monotonicGrid.Pairwise (fun a b => a.2 ≤ b.2) := by
  have := pySort_pairwise (le := fun (a b : Nat × Int) => decide (a.2 ≤ b.2))
    (by intro a b c; simp; omega) (by intro a b; simp; omega)
    (g.grid.zipIdx.map fun (v, i) => (i, v.1))
  exact this.imp (by intro a b h; simpa using h)

end Verif.Grid

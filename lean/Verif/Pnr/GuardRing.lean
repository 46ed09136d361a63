import Mathlib.Tactic.Ring
import Mathlib.Tactic.Linarith

/-!
# C126, C127: the guard ring around a block

`guard_ring/GuardRing.cpp` 1-178 and the first lines of `movehierNode` (238-239): copies of a primitive cell are put around a block, and the block is moved
into their middle.

Simplifications: integers do not overflow; the quotient of two `double`s that is rounded up (73-75) is exact; all divisions are of numbers that are not
negative for the data of `Sane`, so that the division of C++ rounds down. Left out: the contacts, pins and
names stored with a cell (181-234), and that everything inside the block is moved by `wcell_shift` (240-392).
-/

namespace Verif.GuardRing

/-! ## The code -/

/-- What is read of the primitive cell `GUARD_RING`: its size and the first contact of its first pin (12-28). -/
structure Cell where
  w : Int
  h : Int
  llx : Int
  lly : Int
  urx : Int
  ury : Int

/-- What is read of the design rules: the space (46-47) and the grid (73-75, 132-133). -/
structure Rules where
  xspace : Int
  yspace : Int
  gx : Int
  gy : Int

/-- `pcell_metal_size` (13-16). -/
def Cell.mw (c : Cell) : Int := c.urx - c.llx
def Cell.mh (c : Cell) : Int := c.ury - c.lly

/-- `minimal` (21-25, 46-49). -/
def minW (c : Cell) (R : Rules) : Int := R.xspace + (c.w - c.urx)
def minH (c : Cell) (R : Rules) : Int := R.yspace + (c.h - c.ury)

/-- `ceil(a / m)` (73-75). -/
def ceilDiv (a m : Int) : Int := (a + (m - 1)) / m

/-- `x_number` with the corners (73-74). -/
def xNumber (c : Cell) (R : Rules) (W : Int) : Int := ceilDiv (W + 2 * minW c R + R.gx) c.mw + 2

/-- `y_number` without the corners (75). -/
def yNumber (c : Cell) (R : Rules) (H : Int) : Int := ceilDiv (H + 2 * minH c R + R.gy) c.mh

/-- `southwest` (80-83). -/
def swX (c : Cell) (R : Rules) (W : Int) : Int :=
  0 - minW c R - c.mw - (((xNumber c R W - 2) * c.mw - (W + 2 * minW c R)) / 2)
def swY (c : Cell) (R : Rules) (H : Int) : Int :=
  0 - minH c R - c.mh - ((yNumber c R H * c.mh - (H + 2 * minH c R)) / 2)

/-- The loop `for (i = 1; i < n; i++)`. -/
def steps (n : Int) : List Int := (List.range (n - 1).toNat).map fun (k : Nat) => (k : Int) + 1

/-- `temp_point` after a loop. -/
def lastOf (l : List (Int × Int)) (p : Int × Int) : Int × Int := l.getLast?.getD p

def south (mw : Int) (sw : Int × Int) (xn : Int) : List (Int × Int) := (steps xn).map fun i => (sw.1 + i * mw, sw.2)
def east (mh : Int) (se : Int × Int) (yn : Int) : List (Int × Int) := (steps (yn + 2)).map fun i => (se.1, se.2 + i * mh)
def north (mw : Int) (ne : Int × Int) (xn : Int) : List (Int × Int) := (steps xn).map fun i => (ne.1 - i * mw, ne.2)
def west (mh : Int) (nw : Int × Int) (yn : Int) : List (Int × Int) := (steps (yn + 1)).map fun i => (nw.1, nw.2 - i * mh)

/-- `stored_point_ll` (85-121). -/
def walk (mw mh : Int) (sw : Int × Int) (xn yn : Int) : List (Int × Int) :=
  let s := south mw sw xn
  let se := lastOf s sw
  let e := east mh se yn
  let ne := lastOf e se
  let n := north mw ne xn
  let nw := lastOf n ne
  sw :: (s ++ e ++ n ++ west mh nw yn)

/-- What is stored: the lower left corners of the cells (136-139), how far the block is moved (130-133), the new size of the block (238-239). -/
structure Ring where
  cells : List (Int × Int)
  moveX : Int
  moveY : Int
  width : Int
  height : Int
  deriving DecidableEq

/-- `shift` (130-131). -/
def shiftX (c : Cell) (R : Rules) (W : Int) : Int := -swX c R W + c.llx
def shiftY (c : Cell) (R : Rules) (H : Int) : Int := -swY c R H + c.lly

/-- The constructor (54-178) for a block of the size `W`, `H`. -/
def ring (c : Cell) (R : Rules) (W H : Int) : Ring where
  cells := (walk c.mw c.mh (swX c R W, swY c R H) (xNumber c R W) (yNumber c R H)).map fun p => (p.1 - swX c R W, p.2 - swY c R H)
  moveX := shiftX c R W / R.gx * R.gx
  moveY := shiftY c R H / R.gy * R.gy
  width := W + 2 * shiftX c R W
  height := H + 2 * shiftY c R H

/-! ## What the properties say -/

/-- A rectangle `[x0, x1) × [y0, y1)` has a point. -/
def Has (x0 y0 x1 y1 px py : Int) : Prop := x0 ≤ px ∧ px < x1 ∧ y0 ≤ py ∧ py < y1

/-- The point is in the pin of the copy of the cell with the lower left corner `p` (148-160). -/
def InPin (c : Cell) (p : Int × Int) (px py : Int) : Prop := Has (p.1 + c.llx) (p.2 + c.lly) (p.1 + c.urx) (p.2 + c.ury) px py

/-- Data that make sense: the pin is a rectangle inside the cell, spaces are not negative, there is a grid. -/
structure Sane (c : Cell) (R : Rules) : Prop where
  pinX : c.llx < c.urx
  pinY : c.lly < c.ury
  llx : 0 ≤ c.llx
  lly : 0 ≤ c.lly
  urx : c.urx ≤ c.w
  ury : c.ury ≤ c.h
  xspace : 0 ≤ R.xspace
  yspace : 0 ≤ R.yspace
  gx : 0 < R.gx
  gy : 0 < R.gy

/-- The pin is in the middle of the cell. -/
def Centred (c : Cell) : Prop := c.w - c.urx = c.llx ∧ c.h - c.ury = c.lly

/-- The copy of the cell at `p` is `xs` away from the block `[bx, bx + W] × [by, by + H]` in the direction of x, or `ys` in the direction of y. -/
def Apart (c : Cell) (p : Int × Int) (bx by' W H xs ys : Int) : Prop :=
  p.1 + c.w + xs ≤ bx ∨ bx + W + xs ≤ p.1 ∨ p.2 + c.h + ys ≤ by' ∨ by' + H + ys ≤ p.2

/-! ## Proofs -/

theorem ceil_spec {a m : Int} (hm : 0 < m) : a ≤ ceilDiv a m * m ∧ ceilDiv a m * m < a + m := by
  unfold ceilDiv
  have h1 := Int.emod_add_mul_ediv (a + (m - 1)) m
  have h2 := Int.emod_nonneg (a + (m - 1)) (by omega : m ≠ 0)
  have h3 := Int.emod_lt_of_pos (a + (m - 1)) hm
  have h4 : (a + (m - 1)) / m * m = m * ((a + (m - 1)) / m) := Int.mul_comm _ _
  rw [h4]
  omega

theorem ceil_pos {a m : Int} (hm : 0 < m) (ha : 0 < a) : 0 < ceilDiv a m := by
  by_contra h
  have h1 := (ceil_spec (a := a) hm).1
  have : ceilDiv a m * m ≤ 0 := Int.mul_nonpos_of_nonpos_of_nonneg (by omega) (by omega)
  omega

/-- The places of the cells, counted in cells. -/
def frame (a b : Nat) : List (Nat × Nat) :=
  (0, 0) :: ((List.range (a + 1)).map (fun k => (k + 1, 0)) ++ (List.range (b + 1)).map (fun k => (a + 1, k + 1))
    ++ (List.range (a + 1)).map (fun k => (a - k, b + 1)) ++ (List.range b).map fun k => (0, b - k))

theorem mem_frame {a b i j : Nat} : (i, j) ∈ frame a b ↔ i ≤ a + 1 ∧ j ≤ b + 1 ∧ (i = 0 ∨ i = a + 1 ∨ j = 0 ∨ j = b + 1) := by
  unfold frame
  simp only [List.mem_cons, List.mem_append, List.mem_map, List.mem_range, Prod.mk.injEq]
  constructor
  · rintro (h | ((⟨k, h⟩ | ⟨k, h⟩) | ⟨k, h⟩) | ⟨k, h⟩) <;> omega
  · intro h
    by_cases h1 : j = 0
    · by_cases h2 : i = 0
      · exact Or.inl ⟨h2, h1⟩
      · exact Or.inr (Or.inl (Or.inl (Or.inl ⟨i - 1, by omega, by omega, by omega⟩)))
    · by_cases h2 : i = a + 1
      · exact Or.inr (Or.inl (Or.inl (Or.inr ⟨j - 1, by omega, by omega, by omega⟩)))
      · by_cases h3 : j = b + 1
        · exact Or.inr (Or.inl (Or.inr ⟨a - i, by omega, by omega, by omega⟩))
        · exact Or.inr (Or.inr ⟨b - j, by omega, by omega, by omega⟩)

theorem nodup_map {n : Nat} {f : Nat → Nat × Nat} (h : ∀ x < n, ∀ y < n, f x = f y → x = y) : ((List.range n).map f).Nodup := by
  unfold List.Nodup
  rw [List.pairwise_map]
  refine List.Pairwise.imp_of_mem ?_ (List.nodup_range (n := n))
  intro x y hx hy hxy he
  exact hxy (h x (List.mem_range.1 hx) y (List.mem_range.1 hy) he)

theorem nodup_frame (a b : Nat) : (frame a b).Nodup := by
  unfold frame
  rw [List.nodup_cons, List.nodup_append, List.nodup_append, List.nodup_append]
  refine ⟨?_, ⟨⟨nodup_map ?_, nodup_map ?_, ?_⟩, nodup_map ?_, ?_⟩, nodup_map ?_, ?_⟩
  · simp only [List.mem_append, List.mem_map, List.mem_range, Prod.mk.injEq]
    rintro (((⟨k, h⟩ | ⟨k, h⟩) | ⟨k, h⟩) | ⟨k, h⟩) <;> omega
  · intro x _ y _ h
    simp only [Prod.mk.injEq] at h
    omega
  · intro x _ y _ h
    simp only [Prod.mk.injEq] at h
    omega
  · intro x hx y hy
    simp only [List.mem_map, List.mem_range] at hx hy
    obtain ⟨k, _, rfl⟩ := hx
    obtain ⟨l, _, rfl⟩ := hy
    simp
  · intro x _ y _ h
    simp only [Prod.mk.injEq] at h
    omega
  · intro x hx y hy
    simp only [List.mem_append, List.mem_map, List.mem_range] at hx hy
    obtain ⟨l, _, rfl⟩ := hy
    rcases hx with ⟨k, _, rfl⟩ | ⟨k, _, rfl⟩ <;> simp <;> omega
  · intro x _ y _ h
    simp only [Prod.mk.injEq] at h
    omega
  · intro x hx y hy
    simp only [List.mem_append, List.mem_map, List.mem_range] at hx hy
    obtain ⟨l, _, rfl⟩ := hy
    rcases hx with (⟨k, _, rfl⟩ | ⟨k, _, rfl⟩) | ⟨k, _, rfl⟩ <;> simp <;> omega

theorem steps_eq (n : Nat) : steps ((n : Int) + 1) = (List.range n).map fun (k : Nat) => (k : Int) + 1 := by
  unfold steps
  have : ((n : Int) + 1 - 1).toNat = n := by omega
  rw [this]

theorem last_map {f : Int → Int × Int} (n : Nat) (p : Int × Int) : lastOf (((List.range (n + 1)).map fun (k : Nat) => (k : Int) + 1).map f) p = f (n + 1) := by
  unfold lastOf
  rw [List.range_succ, List.map_append, List.map_append, List.map_singleton, List.map_singleton, List.getLast?_append]
  simp

/-- The walk around the block, counted in cells. -/
theorem walk_eq (mw mh : Int) (sw : Int × Int) (a b : Nat) :
    (walk mw mh sw ((a : Int) + 2) b).map (fun p => (p.1 - sw.1, p.2 - sw.2)) = (frame a b).map fun q => ((q.1 : Int) * mw, (q.2 : Int) * mh) := by
  have e1 : ((a : Int) + 2) = ((a + 1 : Nat) : Int) + 1 := by push_cast; ring
  have e2 : ((b : Int) + 2) = ((b + 1 : Nat) : Int) + 1 := by push_cast; ring
  unfold walk south east north west
  simp only
  rw [e1, e2, steps_eq, steps_eq, steps_eq, last_map, last_map, last_map]
  unfold frame
  simp only [List.map_cons, List.map_append, List.map_map]
  congr 1
  · simp
  · congr 1
    · congr 1
      · congr 1
        · apply List.map_congr_left
          intro k _
          simp only [Function.comp]
          push_cast
          ext <;> simp <;> ring
        · apply List.map_congr_left
          intro k _
          simp only [Function.comp]
          push_cast
          ext <;> simp <;> ring
      · apply List.map_congr_left
        intro k hk
        have hk := List.mem_range.1 hk
        have hc : ((a - k : Nat) : Int) = a - k := by omega
        simp only [Function.comp]
        rw [hc]
        push_cast
        ext <;> simp <;> ring
    · apply List.map_congr_left
      intro k hk
      have hk := List.mem_range.1 hk
      have hc : ((b - k : Nat) : Int) = b - k := by omega
      simp only [Function.comp]
      rw [hc]
      push_cast
      ext <;> simp <;> ring

/-- How many cells the ring has inside, and the numbers that go with it. -/
structure Inner (c : Cell) (R : Rules) (W H : Int) (a b : Nat) : Prop where
  xn : xNumber c R W = (a : Int) + 2
  yn : yNumber c R H = b
  xlo : W + 2 * minW c R + R.gx ≤ a * c.mw
  xhi : a * c.mw < W + 2 * minW c R + R.gx + c.mw
  ylo : H + 2 * minH c R + R.gy ≤ b * c.mh
  yhi : b * c.mh < H + 2 * minH c R + R.gy + c.mh

theorem inner {c : Cell} {R : Rules} (S : Sane c R) {W H : Int} (hW : 0 ≤ W) (hH : 0 ≤ H) : ∃ a b : Nat, Inner c R W H a b := by
  have h1 := S.pinX; have h2 := S.pinY; have h3 := S.urx; have h4 := S.ury; have h5 := S.xspace; have h6 := S.yspace; have h7 := S.gx; have h8 := S.gy
  have hm : 0 < c.mw := by unfold Cell.mw; omega
  have hm' : 0 < c.mh := by unfold Cell.mh; omega
  have p1 := ceil_pos hm (a := W + 2 * minW c R + R.gx) (by unfold minW; omega)
  have p2 := ceil_pos hm' (a := H + 2 * minH c R + R.gy) (by unfold minH; omega)
  have s1 := ceil_spec (a := W + 2 * minW c R + R.gx) hm
  have s2 := ceil_spec (a := H + 2 * minH c R + R.gy) hm'
  obtain ⟨a, ha⟩ := Int.eq_ofNat_of_zero_le (Int.le_of_lt p1)
  obtain ⟨b, hb⟩ := Int.eq_ofNat_of_zero_le (Int.le_of_lt p2)
  rw [ha] at s1
  rw [hb] at s2
  refine ⟨a, b, ?_, ?_, s1.1, s1.2, s2.1, s2.2⟩
  · unfold xNumber; rw [ha]
  · unfold yNumber; rw [hb]

theorem cells_eq {c : Cell} {R : Rules} {W H : Int} {a b : Nat} (I : Inner c R W H a b) :
    (ring c R W H).cells = (frame a b).map fun q => ((q.1 : Int) * c.mw, (q.2 : Int) * c.mh) := by
  unfold ring
  simp only
  rw [I.xn, I.yn]
  exact walk_eq c.mw c.mh (swX c R W, swY c R H) a b

theorem in_step {m x : Int} (hm : 0 < m) (i : Int) : (i * m ≤ x ∧ x < i * m + m) ↔ i = x / m := by
  constructor
  · rintro ⟨h1, h2⟩
    apply Int.le_antisymm
    · exact (Int.le_ediv_iff_mul_le hm).2 h1
    · have h3 : x < (i + 1) * m := by rw [Int.add_mul, Int.one_mul]; exact h2
      have := (Int.ediv_lt_iff_lt_mul hm).2 h3
      omega
  · rintro rfl
    have h1 := (Int.le_ediv_iff_mul_le hm).1 (Int.le_refl (x / m))
    have h2 := (Int.ediv_lt_iff_lt_mul hm).1 (Int.lt_add_one_iff.2 (Int.le_refl (x / m)))
    rw [Int.add_mul, Int.one_mul] at h2
    exact ⟨h1, h2⟩

theorem in_range {m x : Int} (hm : 0 < m) (k l : Int) : (k * m ≤ x ∧ x < l * m) ↔ (k ≤ x / m ∧ x / m < l) := by
  rw [Int.le_ediv_iff_mul_le hm, Int.ediv_lt_iff_lt_mul hm]

/-- C126: the copies of the cell are put in a ring: the pins of neighbours touch without overlap, and together they are all that lies between two
rectangles, which are the width and height of a pin apart. No copy is put twice. The inner rectangle is as wide and high as the block with the spaces (and
the part of the cell next to the pin) on both sides and one step of the grid, or more by less than a pin. -/
theorem C126_ring {c : Cell} {R : Rules} (S : Sane c R) {W H : Int} (hW : 0 ≤ W) (hH : 0 ≤ H) : ∃ x0 y0 x1 y1 : Int, x0 < x1 ∧ y0 < y1
    ∧ (W + 2 * (R.xspace + (c.w - c.urx)) + R.gx ≤ x1 - x0 ∧ x1 - x0 < W + 2 * (R.xspace + (c.w - c.urx)) + R.gx + (c.urx - c.llx))
    ∧ (H + 2 * (R.yspace + (c.h - c.ury)) + R.gy ≤ y1 - y0 ∧ y1 - y0 < H + 2 * (R.yspace + (c.h - c.ury)) + R.gy + (c.ury - c.lly))
    ∧ (∀ px py, (∃ p ∈ (ring c R W H).cells, InPin c p px py) ↔
        Has (x0 - (c.urx - c.llx)) (y0 - (c.ury - c.lly)) (x1 + (c.urx - c.llx)) (y1 + (c.ury - c.lly)) px py ∧ ¬ Has x0 y0 x1 y1 px py)
    ∧ (∀ p ∈ (ring c R W H).cells, ∀ q ∈ (ring c R W H).cells, ∀ px py, InPin c p px py → InPin c q px py → p = q)
    ∧ (ring c R W H).cells.Nodup := by
  obtain ⟨a, b, I⟩ := inner S hW hH
  have h1 := S.pinX; have h2 := S.pinY; have h3 := S.urx; have h4 := S.ury; have h5 := S.xspace; have h6 := S.yspace; have h7 := S.gx; have h8 := S.gy
  have hm : 0 < c.mw := by unfold Cell.mw; omega
  have hm' : 0 < c.mh := by unfold Cell.mh; omega
  have hin : ∀ (i j : Int) (px py : Int), InPin c (i * c.mw, j * c.mh) px py ↔ i = (px - c.llx) / c.mw ∧ j = (py - c.lly) / c.mh := by
    intro i j px py
    rw [← in_step hm, ← in_step hm']
    unfold InPin Has
    have e1 : c.urx = c.llx + c.mw := by unfold Cell.mw; omega
    have e2 : c.ury = c.lly + c.mh := by unfold Cell.mh; omega
    simp only [e1, e2]
    omega
  rw [cells_eq I]
  have ha : 0 < (a : Int) * c.mw := by have := I.xlo; unfold minW at this; omega
  have hb : 0 < (b : Int) * c.mh := by have := I.ylo; unfold minH at this; omega
  refine ⟨c.mw + c.llx, c.mh + c.lly, (a + 1) * c.mw + c.llx, (b + 1) * c.mh + c.lly, ?_, ?_, ?_, ?_, ?_, ?_, ?_⟩
  · rw [Int.add_mul, Int.one_mul]; omega
  · rw [Int.add_mul, Int.one_mul]; omega
  · have q1 := I.xlo; have q2 := I.xhi
    have q3 : c.urx - c.llx = c.mw := rfl
    unfold minW at q1 q2
    rw [q3, Int.add_mul, Int.one_mul]; omega
  · have q1 := I.ylo; have q2 := I.yhi
    have q3 : c.ury - c.lly = c.mh := rfl
    unfold minH at q1 q2
    rw [q3, Int.add_mul, Int.one_mul]; omega
  · intro px py
    have hl : (∃ p ∈ (frame a b).map fun q => ((q.1 : Int) * c.mw, (q.2 : Int) * c.mh), InPin c p px py) ↔
        ∃ i j : Nat, (i, j) ∈ frame a b ∧ (i : Int) = (px - c.llx) / c.mw ∧ (j : Int) = (py - c.lly) / c.mh := by
      constructor
      · rintro ⟨p, hp, h⟩
        obtain ⟨⟨i, j⟩, q1, rfl⟩ := List.mem_map.1 hp
        exact ⟨i, j, q1, (hin _ _ _ _).1 h⟩
      · rintro ⟨i, j, q1, q2⟩
        exact ⟨_, List.mem_map.2 ⟨(i, j), q1, rfl⟩, (hin _ _ _ _).2 q2⟩
    rw [hl]
    have e1 : c.urx - c.llx = c.mw := rfl
    have e2 : c.ury - c.lly = c.mh := rfl
    have o1 := in_range (x := px - c.llx) hm 0 (a + 2)
    have o2 := in_range (x := py - c.lly) hm' 0 (b + 2)
    have i1 := in_range (x := px - c.llx) hm 1 (a + 1)
    have i2 := in_range (x := py - c.lly) hm' 1 (b + 1)
    have k1 : ((a : Int) + 2) * c.mw = (a + 1) * c.mw + c.mw := by ring
    have k2 : ((b : Int) + 2) * c.mh = (b + 1) * c.mh + c.mh := by ring
    rw [Int.zero_mul, k1] at o1
    rw [Int.zero_mul, k2] at o2
    rw [Int.one_mul] at i1 i2
    have hO : Has (c.mw + c.llx - (c.urx - c.llx)) (c.mh + c.lly - (c.ury - c.lly)) ((a + 1) * c.mw + c.llx + (c.urx - c.llx))
        ((b + 1) * c.mh + c.lly + (c.ury - c.lly)) px py ↔ (0 ≤ (px - c.llx) / c.mw ∧ (px - c.llx) / c.mw < a + 2)
          ∧ (0 ≤ (py - c.lly) / c.mh ∧ (py - c.lly) / c.mh < b + 2) := by
      rw [← o1, ← o2]
      unfold Has
      rw [e1, e2]
      omega
    have hI : Has (c.mw + c.llx) (c.mh + c.lly) ((a + 1) * c.mw + c.llx) ((b + 1) * c.mh + c.lly) px py ↔
        (1 ≤ (px - c.llx) / c.mw ∧ (px - c.llx) / c.mw < a + 1) ∧ (1 ≤ (py - c.lly) / c.mh ∧ (py - c.lly) / c.mh < b + 1) := by
      rw [← i1, ← i2]
      unfold Has
      omega
    rw [hO, hI]
    constructor
    · rintro ⟨i, j, q1, q2, q3⟩
      have q1 := mem_frame.1 q1
      rw [← q2, ← q3]
      omega
    · rintro ⟨⟨⟨q1, q2⟩, q3, q4⟩, q5⟩
      refine ⟨((px - c.llx) / c.mw).toNat, ((py - c.lly) / c.mh).toNat, mem_frame.2 ?_, Int.toNat_of_nonneg q1, Int.toNat_of_nonneg q3⟩
      omega
  · intro p hp q hq px py h1 h2
    obtain ⟨⟨i, j⟩, _, rfl⟩ := List.mem_map.1 hp
    obtain ⟨⟨k, l⟩, _, rfl⟩ := List.mem_map.1 hq
    have r1 := (hin _ _ _ _).1 h1
    have r2 := (hin _ _ _ _).1 h2
    simp only
    rw [r1.1, r1.2, r2.1, r2.2]
  · unfold List.Nodup
    rw [List.pairwise_map]
    refine List.Pairwise.imp ?_ (nodup_frame a b)
    intro x y hxy he
    simp only [Prod.mk.injEq] at he
    apply hxy
    have r1 := Int.eq_of_mul_eq_mul_right (by omega) he.1
    have r2 := Int.eq_of_mul_eq_mul_right (by omega) he.2
    ext <;> omega

/-! ### C127 -/

/-- Half of what the ring is wider than needed. -/
structure Half (c : Cell) (R : Rules) (W H : Int) (a b : Nat) (e f : Int) : Prop where
  sx : shiftX c R W = c.llx + c.mw + minW c R + e
  sy : shiftY c R H = c.lly + c.mh + minH c R + f
  ex : 2 * e ≤ a * c.mw - (W + 2 * minW c R) ∧ a * c.mw - (W + 2 * minW c R) < 2 * e + 2
  fy : 2 * f ≤ b * c.mh - (H + 2 * minH c R) ∧ b * c.mh - (H + 2 * minH c R) < 2 * f + 2

theorem half {c : Cell} {R : Rules} {W H : Int} {a b : Nat} (I : Inner c R W H a b) : ∃ e f : Int, Half c R W H a b e f := by
  refine ⟨(a * c.mw - (W + 2 * minW c R)) / 2, (b * c.mh - (H + 2 * minH c R)) / 2, ?_, ?_, ?_, ?_⟩
  · unfold shiftX swX
    rw [I.xn]
    have : ((a : Int) + 2 - 2) = a := by omega
    rw [this]
    omega
  · unfold shiftY swY
    rw [I.yn]
    omega
  · omega
  · omega

theorem snap {s g : Int} (hg : 0 < g) : s / g * g ≤ s ∧ s < s / g * g + g := by
  have h1 := Int.emod_add_mul_ediv s g
  have h2 := Int.emod_nonneg s (by omega : g ≠ 0)
  have h3 := Int.emod_lt_of_pos s hg
  have h4 : s / g * g = g * (s / g) := Int.mul_comm _ _
  omega

/-- The space that is kept: `r` and `t` are what is lost by moving the block to the grid. -/
theorem apart {c : Cell} {R : Rules} (S : Sane c R) (C : Centred c) {W H : Int} (hW : 0 ≤ W) (hH : 0 ≤ H) {r t : Int}
    (hx : shiftX c R W - r ≤ (ring c R W H).moveX) (hy : shiftY c R H - t ≤ (ring c R W H).moveY) {p : Int × Int} (hp : p ∈ (ring c R W H).cells) :
    Apart c p (ring c R W H).moveX (ring c R W H).moveY W H (R.xspace + R.gx / 2 - r) (R.yspace + R.gy / 2 - t) := by
  obtain ⟨a, b, I⟩ := inner S hW hH
  obtain ⟨e, f, E⟩ := half I
  rw [cells_eq I] at hp
  obtain ⟨⟨i, j⟩, h1, rfl⟩ := List.mem_map.1 hp
  have h1 := mem_frame.1 h1
  have ux : (ring c R W H).moveX ≤ shiftX c R W := (snap S.gx).1
  have uy : (ring c R W H).moveY ≤ shiftY c R H := (snap S.gy).1
  have sx := E.sx; have sy := E.sy; have ex := E.ex; have fy := E.fy; have xlo := I.xlo; have ylo := I.ylo
  obtain ⟨c1, c2⟩ := C
  have w1 : c.urx = c.llx + c.mw := by unfold Cell.mw; omega
  have w2 : c.ury = c.lly + c.mh := by unfold Cell.mh; omega
  have m1 : minW c R = R.xspace + c.llx := by unfold minW; omega
  have m2 : minH c R = R.yspace + c.lly := by unfold minH; omega
  have k1 : ((a + 1 : Nat) : Int) * c.mw = a * c.mw + c.mw := by push_cast; ring
  have k2 : ((b + 1 : Nat) : Int) * c.mh = b * c.mh + c.mh := by push_cast; ring
  unfold Apart
  simp only
  rcases h1.2.2 with h | h | h | h
  · left
    rw [h]
    simp only [Int.zero_mul, Nat.cast_zero]
    omega
  · right; left
    rw [h, k1]
    omega
  · right; right; left
    rw [h]
    simp only [Int.zero_mul, Nat.cast_zero]
    omega
  · right; right; right
    rw [h, k2]
    omega

/-- C127, in part: if the pin is in the middle of the cell and the block need not be moved to the grid, all copies keep the space to the block. -/
theorem C127_space_partial {c : Cell} {R : Rules} (S : Sane c R) (C : Centred c) {W H : Int} (hW : 0 ≤ W) (hH : 0 ≤ H)
    (hx : R.gx ∣ shiftX c R W) (hy : R.gy ∣ shiftY c R H) {p : Int × Int} (hp : p ∈ (ring c R W H).cells) :
    Apart c p (ring c R W H).moveX (ring c R W H).moveY W H R.xspace R.yspace := by
  have ex : (ring c R W H).moveX = shiftX c R W := Int.ediv_mul_cancel hx
  have ey : (ring c R W H).moveY = shiftY c R H := Int.ediv_mul_cancel hy
  have := apart S C hW hH (r := 0) (t := 0) (by omega) (by omega) hp
  have h7 := S.gx; have h8 := S.gy
  unfold Apart at this ⊢
  omega

/-- C127, in part: the copies are never nearer than the space less half of the grid, and the block lies on the grid. -/
theorem C127_near_partial {c : Cell} {R : Rules} (S : Sane c R) (C : Centred c) {W H : Int} (hW : 0 ≤ W) (hH : 0 ≤ H) :
    R.gx ∣ (ring c R W H).moveX ∧ R.gy ∣ (ring c R W H).moveY ∧ ∀ p ∈ (ring c R W H).cells,
      Apart c p (ring c R W H).moveX (ring c R W H).moveY W H (R.xspace - (R.gx - 1) / 2) (R.yspace - (R.gy - 1) / 2) := by
  refine ⟨Dvd.intro_left _ rfl, Dvd.intro_left _ rfl, fun p hp => ?_⟩
  have h7 := S.gx; have h8 := S.gy
  have sx : shiftX c R W < (ring c R W H).moveX + R.gx := (snap S.gx).2
  have sy : shiftY c R H < (ring c R W H).moveY + R.gy := (snap S.gy).2
  have := apart S C hW hH (r := R.gx - 1) (t := R.gy - 1) (by omega) (by omega) hp
  unfold Apart at this ⊢
  omega

/-- C127, in part: the new outline of the block holds all copies, if what the ring is too wide and too high is even; otherwise they stick out by 1
at most. -/
theorem C127_outline_partial {c : Cell} {R : Rules} (S : Sane c R) (C : Centred c) {W H : Int} (hW : 0 ≤ W) (hH : 0 ≤ H) {p : Int × Int}
    (hp : p ∈ (ring c R W H).cells) : 0 ≤ p.1 ∧ 0 ≤ p.2 ∧ p.1 + c.w ≤ (ring c R W H).width + 1 ∧ p.2 + c.h ≤ (ring c R W H).height + 1
      ∧ ((ceilDiv (W + 2 * minW c R + R.gx) c.mw * c.mw - W) % 2 = 0 → p.1 + c.w ≤ (ring c R W H).width)
      ∧ ((ceilDiv (H + 2 * minH c R + R.gy) c.mh * c.mh - H) % 2 = 0 → p.2 + c.h ≤ (ring c R W H).height) := by
  obtain ⟨a, b, I⟩ := inner S hW hH
  obtain ⟨e, f, E⟩ := half I
  rw [cells_eq I] at hp
  obtain ⟨⟨i, j⟩, h1, rfl⟩ := List.mem_map.1 hp
  have h1 := mem_frame.1 h1
  have sx := E.sx; have sy := E.sy; have ex := E.ex; have fy := E.fy
  obtain ⟨c1, c2⟩ := C
  have hm : 0 < c.mw := by have := S.pinX; unfold Cell.mw; omega
  have hm' : 0 < c.mh := by have := S.pinY; unfold Cell.mh; omega
  have w1 : c.urx = c.llx + c.mw := by unfold Cell.mw; omega
  have w2 : c.ury = c.lly + c.mh := by unfold Cell.mh; omega
  have m1 : minW c R = R.xspace + c.llx := by unfold minW; omega
  have m2 : minH c R = R.yspace + c.lly := by unfold minH; omega
  have g1 : (ring c R W H).width = W + 2 * shiftX c R W := rfl
  have g2 : (ring c R W H).height = H + 2 * shiftY c R H := rfl
  have i1 : (i : Int) * c.mw ≤ a * c.mw + c.mw := by
    have : (i : Int) * c.mw ≤ ((a : Int) + 1) * c.mw := Int.mul_le_mul_of_nonneg_right (by omega) (by omega)
    rw [Int.add_mul, Int.one_mul] at this
    exact this
  have j1 : (j : Int) * c.mh ≤ b * c.mh + c.mh := by
    have : (j : Int) * c.mh ≤ ((b : Int) + 1) * c.mh := Int.mul_le_mul_of_nonneg_right (by omega) (by omega)
    rw [Int.add_mul, Int.one_mul] at this
    exact this
  have ca : ceilDiv (W + 2 * minW c R + R.gx) c.mw = a := by have := I.xn; unfold xNumber at this; omega
  have cb : ceilDiv (H + 2 * minH c R + R.gy) c.mh = b := I.yn
  have n1 : 0 ≤ (i : Int) * c.mw := Int.mul_nonneg (by omega) (by omega)
  have n2 : 0 ≤ (j : Int) * c.mh := Int.mul_nonneg (by omega) (by omega)
  rw [ca, cb, g1, g2]
  simp only
  refine ⟨n1, n2, by omega, by omega, fun h => by omega, fun h => by omega⟩

/-! ### Examples -/

def exCell : Cell := ⟨20, 20, 5, 5, 15, 15⟩
def exRules : Rules := ⟨2, 2, 10, 10⟩

theorem ex_sane : Sane exCell exRules := by constructor <;> decide
theorem ex_centred : Centred exCell := by constructor <;> decide

/-- A ring around a block of 20 times 10. -/
example : (ring exCell exRules 20 10).cells = [(0, 0), (10, 0), (20, 0), (30, 0), (40, 0), (50, 0), (60, 0), (60, 10), (60, 20), (60, 30), (60, 40), (60, 50),
    (50, 50), (40, 50), (30, 50), (20, 50), (10, 50), (0, 50), (0, 40), (0, 30), (0, 20), (0, 10)] := by decide +kernel

/-- For a block of 10 times 10 nothing is lost at the grid, and the outline is wide enough. -/
example : exRules.gx ∣ shiftX exCell exRules 10 ∧ exRules.gy ∣ shiftY exCell exRules 10
    ∧ (ceilDiv (10 + 2 * minW exCell exRules + exRules.gx) exCell.mw * exCell.mw - 10) % 2 = 0 := by decide +kernel

/-- C127 does not hold: the cell at the lower left is nearer to the block than the space that is asked for. -/
theorem C127_violated : Sane exCell exRules ∧ Centred exCell ∧ ∃ p ∈ (ring exCell exRules 12 12).cells,
    ¬ Apart exCell p (ring exCell exRules 12 12).moveX (ring exCell exRules 12 12).moveY 12 12 exRules.xspace exRules.yspace := by
  refine ⟨ex_sane, ex_centred, (0, 0), by decide +kernel, ?_⟩
  have h1 : (ring exCell exRules 12 12).moveX = 20 := by decide +kernel
  have h2 : (ring exCell exRules 12 12).moveY = 20 := by decide +kernel
  rw [h1, h2]
  unfold Apart
  decide

/-- C127 does not hold: the cell at the lower right sticks out of the new outline. -/
theorem C127_violated_outline : Sane exCell exRules ∧ Centred exCell ∧ ∃ p ∈ (ring exCell exRules 11 11).cells,
    (ring exCell exRules 11 11).width < p.1 + exCell.w := by
  refine ⟨ex_sane, ex_centred, (50, 0), by decide +kernel, by decide +kernel⟩

end Verif.GuardRing

import Mathlib.Data.List.Basic
import Mathlib.Tactic.ByContra

/-!
# C152 and C153: the window of a power pin and the metal that stands for a power net

`router/PowerRouter.cpp`: `SetSrcDest` 869 and 930-1002 (the window); `PnRDB/WriteJSON.cpp`: `Find_Top_Middle_Metal` 695-724.

Simplifications: the corners of sources and targets are one list of points, targets first. `.at` out of range and reading an empty list are `none`. Integers do not overflow.
-/

namespace Verif.PowerWindow

/-! ## The code -/

abbrev Pt := Int × Int

/-- `Metal_info`: `direct` (0 for vertical), `grid_unit_x`, `grid_unit_y`. -/
structure Info where
  direct : Int
  gx : Int
  gy : Int

/-- `temp_ll` and `temp_ur`, for one coordinate (930-968). -/
def lo (l : List Int) : Int := l.foldl (fun a x => if x < a then x else a) 2147483647
def hi (l : List Int) : Int := l.foldl (fun a x => if x > a then x else a) (-2147483648)

/-- `xMar` and `yMar` (972-979). -/
def margins (info : List Info) (highest : Nat) (scale : Int) : Option (Int × Int) :=
  match highest with
  | 0 => none
  | h + 1 =>
    (info[h + 1]?).bind fun a => (info[h]?).map fun b => if a.direct = 0 then (a.gx * scale, b.gy * scale) else (b.gx * scale, a.gy * scale)

/-- `LL` and `UR` (981-1002). -/
def window (info : List Info) (highest : Nat) (scale width height : Int) (pts : List Pt) : Option (Pt × Pt) :=
  (margins info highest scale).map fun m =>
    let lx := lo (pts.map Prod.fst)
    let ly := lo (pts.map Prod.snd)
    let ux := hi (pts.map Prod.fst)
    let uy := hi (pts.map Prod.snd)
    ((if lx - 10 * m.1 < 0 then 0 else lx - 10 * m.1, if ly - 10 * m.2 < 0 then 0 else ly - 10 * m.2),
     (if ux + 10 * m.1 > width then width else ux + 10 * m.1, if uy + 10 * m.2 > height then height else uy + 10 * m.2))

/-- A metal: its layer and the middle of its rectangle. -/
structure Metal where
  layer : Int
  c : Pt
deriving DecidableEq

/-- The loop of `Find_Top_Middle_Metal` (713-721) from place `i`, with `distance` and `Metal_index`. -/
def go (top : Int) (cx cy : Int) : List Metal → Nat → Int → Nat → Nat
  | [], _, _, k => k
  | m :: ms, i, d, k =>
    if m.layer = top then
      let t : Int := ((m.c.1 - cx).natAbs : Int) + ((m.c.2 - cy).natAbs : Int)
      if t < d then go top cx cy ms (i + 1) t i else go top cx cy ms (i + 1) d k
    else go top cx cy ms (i + 1) d k

/-- `Find_Top_Middle_Metal`; `ll`, `ur`: the corners of the module. -/
def topMiddle (top : Int) (ll ur : Pt) (ms : List Metal) : Option Metal := ms[go top ((ll.1 + ur.1).tdiv 2) ((ll.2 + ur.2).tdiv 2) ms 0 2147483647 0]?

/-! ## What the properties say -/

/-- The distance along the axes. -/
def Dist (p q : Pt) : Int := max (p.1 - q.1) (q.1 - p.1) + max (p.2 - q.2) (q.2 - p.2)

/-- The point lies in the rectangle. -/
def In (x y : Int) (w : Pt × Pt) : Prop := w.1.1 ≤ x ∧ x ≤ w.2.1 ∧ w.1.2 ≤ y ∧ y ≤ w.2.2

/-- The grid units of the vertical and of the horizontal one of two layers. -/
def UnitX (a b : Info) : Int := if a.direct = 0 then a.gx else b.gx
def UnitY (a b : Info) : Int := if a.direct = 0 then b.gy else a.gy

/-! ## Proofs -/

theorem lo_fold : ∀ (l : List Int) (a : Int), (l.foldl (fun a x => if x < a then x else a) a = a ∨ l.foldl (fun a x => if x < a then x else a) a ∈ l)
    ∧ l.foldl (fun a x => if x < a then x else a) a ≤ a ∧ ∀ x ∈ l, l.foldl (fun a x => if x < a then x else a) a ≤ x
  | [], a => ⟨Or.inl rfl, Int.le_refl _, by simp⟩
  | y :: l, a => by
    rw [List.foldl_cons]
    by_cases h : y < a
    · rw [if_pos h]
      obtain ⟨h1, h2, h3⟩ := lo_fold l y
      refine ⟨Or.inr ?_, by omega, fun x hx => ?_⟩
      · rcases h1 with h1 | h1
        · rw [h1]; exact List.mem_cons_self
        · exact List.mem_cons_of_mem _ h1
      · rcases List.mem_cons.1 hx with rfl | hx
        · exact h2
        · exact h3 x hx
    · rw [if_neg h]
      obtain ⟨h1, h2, h3⟩ := lo_fold l a
      refine ⟨h1.imp id (List.mem_cons_of_mem _), h2, fun x hx => ?_⟩
      rcases List.mem_cons.1 hx with rfl | hx
      · omega
      · exact h3 x hx

theorem hi_fold : ∀ (l : List Int) (a : Int), (l.foldl (fun a x => if x > a then x else a) a = a ∨ l.foldl (fun a x => if x > a then x else a) a ∈ l)
    ∧ a ≤ l.foldl (fun a x => if x > a then x else a) a ∧ ∀ x ∈ l, x ≤ l.foldl (fun a x => if x > a then x else a) a
  | [], a => ⟨Or.inl rfl, Int.le_refl _, by simp⟩
  | y :: l, a => by
    rw [List.foldl_cons]
    by_cases h : y > a
    · rw [if_pos h]
      obtain ⟨h1, h2, h3⟩ := hi_fold l y
      refine ⟨Or.inr ?_, by omega, fun x hx => ?_⟩
      · rcases h1 with h1 | h1
        · rw [h1]; exact List.mem_cons_self
        · exact List.mem_cons_of_mem _ h1
      · rcases List.mem_cons.1 hx with rfl | hx
        · exact h2
        · exact h3 x hx
    · rw [if_neg h]
      obtain ⟨h1, h2, h3⟩ := hi_fold l a
      refine ⟨h1.imp id (List.mem_cons_of_mem _), h2, fun x hx => ?_⟩
      rcases List.mem_cons.1 hx with rfl | hx
      · omega
      · exact h3 x hx

theorem lo_iff {l : List Int} (hn : l ≠ []) (hl : ∀ x ∈ l, x ≤ 2147483647) (y : Int) : lo l ≤ y ↔ ∃ x ∈ l, x ≤ y := by
  obtain ⟨h1, h2, h3⟩ := lo_fold l 2147483647
  unfold lo
  constructor
  · intro h
    rcases h1 with h1 | h1
    · obtain ⟨x, hx⟩ := List.exists_mem_of_ne_nil l hn
      refine ⟨x, hx, ?_⟩
      have := hl x hx
      omega
    · exact ⟨_, h1, h⟩
  · rintro ⟨x, hx, h⟩
    have := h3 x hx
    omega

theorem hi_iff {l : List Int} (hn : l ≠ []) (hl : ∀ x ∈ l, -2147483648 ≤ x) (y : Int) : y ≤ hi l ↔ ∃ x ∈ l, y ≤ x := by
  obtain ⟨h1, h2, h3⟩ := hi_fold l (-2147483648)
  unfold hi
  constructor
  · intro h
    rcases h1 with h1 | h1
    · obtain ⟨x, hx⟩ := List.exists_mem_of_ne_nil l hn
      refine ⟨x, hx, ?_⟩
      have := hl x hx
      omega
    · exact ⟨_, h1, h⟩
  · rintro ⟨x, hx, h⟩
    have := h3 x hx
    omega

/-! ## The theorems -/

/-- C152: the window has just those points of the module that lie at most ten margins beyond the sources and targets on each side. A margin is the grid unit of the vertical or the horizontal one of the two
highest layers, times the scale. -/
theorem C152_window {info : List Info} {h : Nat} {a b : Info} (ha : info[h + 1]? = some a) (hb : info[h]? = some b) (scale width height : Int) {pts : List Pt} (hn : pts ≠ [])
    (hp : ∀ p ∈ pts, (-2147483648 ≤ p.1 ∧ p.1 ≤ 2147483647) ∧ (-2147483648 ≤ p.2 ∧ p.2 ≤ 2147483647)) :
    ∃ w, window info (h + 1) scale width height pts = some w ∧ ∀ x y, In x y w ↔
      (0 ≤ x ∧ x ≤ width ∧ 0 ≤ y ∧ y ≤ height)
        ∧ (∃ p ∈ pts, p.1 - 10 * (UnitX a b * scale) ≤ x) ∧ (∃ p ∈ pts, x ≤ p.1 + 10 * (UnitX a b * scale))
        ∧ (∃ p ∈ pts, p.2 - 10 * (UnitY a b * scale) ≤ y) ∧ ∃ p ∈ pts, y ≤ p.2 + 10 * (UnitY a b * scale) := by
  have hm : margins info (h + 1) scale = some (UnitX a b * scale, UnitY a b * scale) := by
    unfold margins UnitX UnitY
    simp only [ha, hb, Option.bind_some, Option.map_some, Option.some.injEq]
    split <;> rfl
  unfold window
  rw [hm, Option.map_some]
  refine ⟨_, rfl, fun x y => ?_⟩
  generalize UnitX a b * scale = mx
  generalize UnitY a b * scale = my
  have n1 : pts.map Prod.fst ≠ [] := by simpa using hn
  have n2 : pts.map Prod.snd ≠ [] := by simpa using hn
  have e1 := lo_iff n1 (by intro z hz; obtain ⟨p, q, rfl⟩ := List.mem_map.1 hz; exact (hp p q).1.2) (x + 10 * mx)
  have e2 := hi_iff n1 (by intro z hz; obtain ⟨p, q, rfl⟩ := List.mem_map.1 hz; exact (hp p q).1.1) (x - 10 * mx)
  have e3 := lo_iff n2 (by intro z hz; obtain ⟨p, q, rfl⟩ := List.mem_map.1 hz; exact (hp p q).2.2) (y + 10 * my)
  have e4 := hi_iff n2 (by intro z hz; obtain ⟨p, q, rfl⟩ := List.mem_map.1 hz; exact (hp p q).2.1) (y - 10 * my)
  have f1 : (∃ p ∈ pts, p.1 - 10 * mx ≤ x) ↔ lo (pts.map Prod.fst) ≤ x + 10 * mx := by
    rw [e1]
    constructor
    · rintro ⟨p, hp, h⟩; exact ⟨p.1, List.mem_map.2 ⟨p, hp, rfl⟩, by omega⟩
    · rintro ⟨z, hz, h⟩; obtain ⟨p, hp, rfl⟩ := List.mem_map.1 hz; exact ⟨p, hp, by omega⟩
  have f2 : (∃ p ∈ pts, x ≤ p.1 + 10 * mx) ↔ x - 10 * mx ≤ hi (pts.map Prod.fst) := by
    rw [e2]
    constructor
    · rintro ⟨p, hp, h⟩; exact ⟨p.1, List.mem_map.2 ⟨p, hp, rfl⟩, by omega⟩
    · rintro ⟨z, hz, h⟩; obtain ⟨p, hp, rfl⟩ := List.mem_map.1 hz; exact ⟨p, hp, by omega⟩
  have f3 : (∃ p ∈ pts, p.2 - 10 * my ≤ y) ↔ lo (pts.map Prod.snd) ≤ y + 10 * my := by
    rw [e3]
    constructor
    · rintro ⟨p, hp, h⟩; exact ⟨p.2, List.mem_map.2 ⟨p, hp, rfl⟩, by omega⟩
    · rintro ⟨z, hz, h⟩; obtain ⟨p, hp, rfl⟩ := List.mem_map.1 hz; exact ⟨p, hp, by omega⟩
  have f4 : (∃ p ∈ pts, y ≤ p.2 + 10 * my) ↔ y - 10 * my ≤ hi (pts.map Prod.snd) := by
    rw [e4]
    constructor
    · rintro ⟨p, hp, h⟩; exact ⟨p.2, List.mem_map.2 ⟨p, hp, rfl⟩, by omega⟩
    · rintro ⟨z, hz, h⟩; obtain ⟨p, hp, rfl⟩ := List.mem_map.1 hz; exact ⟨p, hp, by omega⟩
  rw [f1, f2, f3, f4]
  generalize lo (pts.map Prod.fst) = l1
  generalize lo (pts.map Prod.snd) = l2
  generalize hi (pts.map Prod.fst) = u1
  generalize hi (pts.map Prod.snd) = u2
  unfold In
  simp only
  constructor
  · rintro ⟨h1, h2, h3, h4⟩
    refine ⟨⟨?_, ?_, ?_, ?_⟩, ?_, ?_, ?_, ?_⟩ <;> (try split at h1) <;> (try split at h2) <;> (try split at h3) <;> (try split at h4) <;> omega
  · rintro ⟨⟨h1, h2, h3, h4⟩, h5, h6, h7, h8⟩
    refine ⟨?_, ?_, ?_, ?_⟩ <;> split <;> omega

/-- C152: all sources and targets within the module lie in the window, if grid units and scale are not negative. -/
theorem C152_inside {info : List Info} {h : Nat} {a b : Info} (ha : info[h + 1]? = some a) (hb : info[h]? = some b) {scale : Int} (hs : 0 ≤ scale) (hx : 0 ≤ UnitX a b) (hy : 0 ≤ UnitY a b)
    (width height : Int) {pts : List Pt} (hp : ∀ p ∈ pts, (-2147483648 ≤ p.1 ∧ p.1 ≤ 2147483647) ∧ (-2147483648 ≤ p.2 ∧ p.2 ≤ 2147483647)) {p : Pt} (hpp : p ∈ pts)
    (hc : 0 ≤ p.1 ∧ p.1 ≤ width ∧ 0 ≤ p.2 ∧ p.2 ≤ height) : ∃ w, window info (h + 1) scale width height pts = some w ∧ In p.1 p.2 w := by
  obtain ⟨w, h1, h2⟩ := C152_window ha hb scale width height (List.ne_nil_of_mem hpp) hp
  have k1 := Int.mul_nonneg hx hs
  have k2 := Int.mul_nonneg hy hs
  exact ⟨w, h1, (h2 _ _).2 ⟨hc, ⟨p, hpp, by omega⟩, ⟨p, hpp, by omega⟩, ⟨p, hpp, by omega⟩, ⟨p, hpp, by omega⟩⟩⟩

/-- The hypotheses hold, and a window. -/
example : window [⟨1, 0, 84⟩, ⟨0, 80, 0⟩, ⟨1, 0, 100⟩] 2 1 5000 4000 [(2000, 1500), (2100, 1600), (300, 300)] = some ((0, 0), (2900, 2600)) := by decide +kernel

theorem go_spec (top cx cy : Int) (all : List Metal) : ∀ (ms : List Metal) (i : Nat) (d : Int) (k : Nat), (∀ j, ms[j]? = all[i + j]?) →
    let r := go top cx cy ms i d k
    (r = k ∧ ∀ m ∈ ms, m.layer = top → d ≤ ((m.c.1 - cx).natAbs : Int) + ((m.c.2 - cy).natAbs : Int))
      ∨ ∃ m, all[r]? = some m ∧ m ∈ ms ∧ m.layer = top ∧ ((m.c.1 - cx).natAbs : Int) + ((m.c.2 - cy).natAbs : Int) < d
        ∧ ∀ n ∈ ms, n.layer = top → ((m.c.1 - cx).natAbs : Int) + ((m.c.2 - cy).natAbs : Int) ≤ ((n.c.1 - cx).natAbs : Int) + ((n.c.2 - cy).natAbs : Int)
  | [], i, d, k, _ => Or.inl ⟨rfl, by simp⟩
  | m :: ms, i, d, k, hall => by
    have hall' : ∀ j, ms[j]? = all[i + 1 + j]? := by
      intro j
      have := hall (j + 1)
      rw [List.getElem?_cons_succ] at this
      rw [this]
      congr 1
      omega
    have h0 : all[i]? = some m := by
      have := hall 0
      simpa using this.symm
    unfold go
    simp only
    by_cases ht : m.layer = top
    · rw [if_pos ht]
      by_cases hd : ((m.c.1 - cx).natAbs : Int) + ((m.c.2 - cy).natAbs : Int) < d
      · rw [if_pos hd]
        rcases go_spec top cx cy all ms (i + 1) _ i hall' with ⟨h1, h2⟩ | ⟨n, h1, h2, h3, h4, h5⟩
        · refine Or.inr ⟨m, by rw [h1]; exact h0, List.mem_cons_self, ht, hd, fun n hn hnt => ?_⟩
          rcases List.mem_cons.1 hn with rfl | hn
          · exact Int.le_refl _
          · exact h2 n hn hnt
        · refine Or.inr ⟨n, h1, List.mem_cons_of_mem _ h2, h3, by omega, fun q hq hqt => ?_⟩
          rcases List.mem_cons.1 hq with rfl | hq
          · omega
          · exact h5 q hq hqt
      · rw [if_neg hd]
        rcases go_spec top cx cy all ms (i + 1) d k hall' with ⟨h1, h2⟩ | ⟨n, h1, h2, h3, h4, h5⟩
        · refine Or.inl ⟨h1, fun n hn hnt => ?_⟩
          rcases List.mem_cons.1 hn with rfl | hn
          · omega
          · exact h2 n hn hnt
        · refine Or.inr ⟨n, h1, List.mem_cons_of_mem _ h2, h3, h4, fun q hq hqt => ?_⟩
          rcases List.mem_cons.1 hq with rfl | hq
          · omega
          · exact h5 q hq hqt
    · rw [if_neg ht]
      rcases go_spec top cx cy all ms (i + 1) d k hall' with ⟨h1, h2⟩ | ⟨n, h1, h2, h3, h4, h5⟩
      · refine Or.inl ⟨h1, fun n hn hnt => ?_⟩
        rcases List.mem_cons.1 hn with rfl | hn
        · exact absurd hnt ht
        · exact h2 n hn hnt
      · refine Or.inr ⟨n, h1, List.mem_cons_of_mem _ h2, h3, h4, fun q hq hqt => ?_⟩
        rcases List.mem_cons.1 hq with rfl | hq
        · exact absurd hqt ht
        · exact h5 q hq hqt

theorem dist_eq (p q : Pt) : ((p.1 - q.1).natAbs : Int) + ((p.2 - q.2).natAbs : Int) = Dist p q := by
  unfold Dist
  omega

/-- C153, for a net with a metal on the top layer of the grid: the metal found lies on this layer, and none on it is nearer to the middle of the module. -/
theorem C153_middle_partial (top : Int) (ll ur : Pt) (ms : List Metal) {n : Metal} (hn : n ∈ ms) (ht : n.layer = top) (hd : Dist n.c ((ll.1 + ur.1).tdiv 2, (ll.2 + ur.2).tdiv 2) < 2147483647) :
    ∃ m, topMiddle top ll ur ms = some m ∧ m ∈ ms ∧ m.layer = top
      ∧ ∀ q ∈ ms, q.layer = top → Dist m.c ((ll.1 + ur.1).tdiv 2, (ll.2 + ur.2).tdiv 2) ≤ Dist q.c ((ll.1 + ur.1).tdiv 2, (ll.2 + ur.2).tdiv 2) := by
  have key : ∀ q : Metal, ((q.c.1 - (ll.1 + ur.1).tdiv 2).natAbs : Int) + ((q.c.2 - (ll.2 + ur.2).tdiv 2).natAbs : Int) = Dist q.c ((ll.1 + ur.1).tdiv 2, (ll.2 + ur.2).tdiv 2) :=
    fun q => dist_eq q.c ((ll.1 + ur.1).tdiv 2, (ll.2 + ur.2).tdiv 2)
  unfold topMiddle
  rcases go_spec top ((ll.1 + ur.1).tdiv 2) ((ll.2 + ur.2).tdiv 2) ms ms 0 2147483647 0 (by simp) with ⟨-, h2⟩ | ⟨m, h1, h2, h3, -, h5⟩
  · have := h2 n hn ht
    rw [key] at this
    omega
  · refine ⟨m, h1, h2, h3, fun q hq hqt => ?_⟩
    rw [← key, ← key]
    exact h5 q hq hqt

/-- C153: without a metal on that layer the first one is taken, whatever its layer, and without metals one is read that does not exist. -/
theorem C153_violated : topMiddle 6 (0, 0) (10, 10) [⟨3, (0, 0)⟩, ⟨5, (5, 5)⟩] = some ⟨3, (0, 0)⟩ ∧ topMiddle 6 (0, 0) (10, 10) [] = none := by decide +kernel

example : topMiddle 6 (0, 0) (10, 10) [⟨5, (5, 5)⟩, ⟨6, (0, 0)⟩, ⟨6, (4, 5)⟩, ⟨6, (6, 5)⟩] = some ⟨6, (4, 5)⟩ := by decide +kernel

end Verif.PowerWindow

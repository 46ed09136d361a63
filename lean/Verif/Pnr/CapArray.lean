import Mathlib.Data.List.Perm.Basic
import Mathlib.Data.List.Nodup
import Mathlib.Tactic.Ring
import Mathlib.Tactic.Linarith

/-!
# C128, C129: arrays of unit capacitors with a common centroid

`cap_placer/capplacer.cpp`: `Placer_Router_Cap_function` 243-335 (the array and the pairs of opposite units) and `initial_net_pair_sequence` 604-743 (which
capacitor a unit belongs to).

Simplifications: the distance of a unit from the middle is compared by four times its square, an integer, in place of its root; `ceil(sqrt(n))` and
`ceil(n / r)` are taken to be exact; numbers of units are not negative; -1 is `none`; a read beyond the end of a vector is `none`. Left out:
the coordinates of the units, which are linear in their row and column (267), and all of the routing.
-/

namespace Verif.CapArray

/-! ## The code -/

/-- Unit `u` of an array with `s` units in a row: `index_x`, `index_y` (261-272). -/
def ux (s u : Nat) : Nat := u / s
def uy (s u : Nat) : Nat := u % s

/-- Four times the square of the distance from the middle (275-283). -/
def dist (r s u : Nat) : Int := (2 * (ux s u : Int) - (r - 1)) * (2 * (ux s u : Int) - (r - 1)) + (2 * (uy s u : Int) - (s - 1)) * (2 * (uy s u : Int) - (s - 1))

/-- The inner loop of the sort (286-290): what is at place `i` afterwards, and the rest. -/
def inner (d : Nat → Int) : Nat → List Nat → Nat × List Nat
  | x, [] => (x, [])
  | x, y :: l => if d x > d y then ((inner d y l).1, x :: (inner d y l).2) else ((inner d x l).1, y :: (inner d x l).2)

/-- The sort (285-291). -/
def sortBy (d : Nat → Int) : Nat → List Nat → List Nat
  | 0, l => l
  | _ + 1, [] => []
  | n + 1, x :: l => (inner d x l).1 :: sortBy d n (inner d x l).2

def order (r s : Nat) : List Nat := sortBy (dist r s) (r * s) (List.range (r * s))

/-- The loop over `j` (308-316). -/
def findMate (r s x : Nat) : List Nat → Option Nat
  | [] => none
  | y :: l =>
    if dist r s x ≠ dist r s y then none
    else if ux s x + ux s y + 1 = r ∧ uy s x + uy s y + 1 = s then some y else findMate r s x l

/-- The loop over `i` (307-317). -/
def matePairs (r s : Nat) : List Nat → List (Nat × Option Nat)
  | [] => []
  | x :: l => match findMate r s x l with
    | some y => (min x y, some (max x y)) :: matePairs r s l
    | none => matePairs r s l

/-- `cap_pair_sequence` (297-318). -/
def pairSeq (r s : Nat) : List (Nat × Option Nat) :=
  match order r s with
  | [] => []
  | [a] => [(a, none)]
  | a :: b :: l => if dist r s a < dist r s b then (a, none) :: matePairs r s (b :: l) else matePairs r s (a :: b :: l)

/-- `not_on_border` (321). -/
def inside (r s u : Nat) : Bool := decide (ux s u ≠ 0) && decide (ux s u + 1 ≠ r) && decide (uy s u ≠ 0) && decide (uy s u + 1 ≠ s)

/-- `cap_pair_sequence` with or without a border of dummies (256-259, 320-335). -/
def caps (r s : Nat) (dummy : Bool) : List (Nat × Option Nat) :=
  if dummy then (pairSeq (r + 2) (s + 2)).filter fun p => inside (r + 2) (s + 2) p.1 && p.2.all (inside (r + 2) (s + 2)) else pairSeq r s

/-- The capacitors with one unit, with an odd and with an even number (618-626). -/
def unitsOf (k : List Nat) : List Nat := (List.range k.length).filter fun i => decide (k.getD i 0 = 1)
def oddOf (k : List Nat) : List Nat := (List.range k.length).filter fun i => decide (k.getD i 0 ≠ 1 ∧ k.getD i 0 % 2 = 1)
def evenOf (k : List Nat) : List Nat := (List.range k.length).filter fun i => decide (k.getD i 0 ≠ 1 ∧ k.getD i 0 % 2 ≠ 1)

/-- `genS` (629-635): the inner loop makes half as many rounds as there are units. -/
def genS (k C : List Nat) : List (Nat × Option Nat) := C.flatMap fun i => List.replicate (k.getD i 0 / 2) (i, some i)

/-- Two at a time from the end (643-650, 665-672); the list is turned around. -/
def pairUp : List Nat → List (Nat × Option Nat) × List Nat
  | a :: b :: l => ((a, some b) :: (pairUp l).1, (pairUp l).2)
  | l => ([], l)

/-- `net_sequence` (604-697). -/
def netSeq (k : List Nat) : List (Nat × Option Nat) :=
  let oo := pairUp (oddOf k).reverse
  let S := genS k (evenOf k) ++ genS k (oddOf k)
  match oo.2, (unitsOf k).reverse with
  | o :: _, u :: us => (pairUp us).2.map (fun x => (x, none)) ++ (pairUp us).1 ++ [(o, some u)] ++ oo.1 ++ S
  | o :: _, [] => [(o, none)] ++ oo.1 ++ S
  | [], us => (pairUp us).2.map (fun x => (x, none)) ++ (pairUp us).1 ++ oo.1 ++ S

/-- The loop that gives units to capacitors (711-732): capacitor and unit. -/
def assign : List (Nat × Option Nat) → List (Nat × Option Nat) → Option (List (Nat × Nat))
  | [], _ => some []
  | (n, none) :: ns, c :: cs => (assign ns cs).map fun A => (n, c.1) :: A
  | (n, some m) :: ns, (c, some d) :: cs => (assign ns cs).map fun A => (n, c) :: (m, d) :: A
  | (n, some m) :: ns, (_, none) :: (c, some d) :: cs => (assign ns cs).map fun A => (n, c) :: (m, d) :: A
  | _, _ => none

/-- The units of the capacitors for an array with `r` columns of `s` units (without the dummies around it). -/
def place (k : List Nat) (r s : Nat) (dummy : Bool) : Option (List (Nat × Nat)) := assign (netSeq k) (caps r s dummy)

/-- The size of the array if it is not given by the user (249-253). -/
def autoR (n : Nat) : Nat := if Nat.sqrt n * Nat.sqrt n = n then Nat.sqrt n else Nat.sqrt n + 1
def autoS (n : Nat) : Nat := (n + (autoR n - 1)) / autoR n

/-- `ceil(n / r)`. -/
def ceilDiv (n r : Nat) : Nat := (n + (r - 1)) / r

/-- One of the loops over the shapes (1850-1861, 1866-1877); `p` is the condition for taking a shape, `a` is `aspect_num`. -/
def tries (p : Nat → Nat → Bool) (n : Nat) : Nat → Nat → Nat → List (Nat × Nat)
  | 0, _, _ => []
  | r + 1, s, a =>
    if a = 0 then []
    else if p (r + 1) s then (r + 1, ceilDiv n (r + 1)) :: (ceilDiv n s, s) :: tries p n r (s + 1) (a - 2)
    else tries p n r (s + 1) a

/-- The sizes of the arrays that are made of a capacitor (1837-1879): that of the user, and others if `aspect`. -/
def sizes (user : Option (Nat × Nat)) (aspect : Bool) (n num : Nat) : List (Nat × Nat) :=
  let loop (p : Nat → Nat → Bool) := tries p n (autoR n) (ceilDiv n (autoR n)) num
  if aspect then
    let l := user.toList ++ loop fun r s => decide (r * ceilDiv n r ≠ n ∧ ceilDiv n s * s ≠ n)
    if l.isEmpty then loop fun r s => decide (r * ceilDiv n r = n ∧ ceilDiv n s * s = n) else l
  else user.toList

/-! ## What the properties say -/

/-- The columns and rows of the array with the dummies. -/
def full (n : Nat) (dummy : Bool) : Nat := if dummy then n + 2 else n

/-- The units of capacitor `n`. -/
def unitsIn (A : List (Nat × Nat)) (n : Nat) : List Nat := (A.filter fun a => decide (a.1 = n)).map (·.2)

/-- Two units are opposite to each other: the middle of the array with `r` columns of `s` units is in the middle between them. -/
def Opposite (r s u v : Nat) : Prop := u / s + v / s + 1 = r ∧ u % s + v % s + 1 = s

/-- The unit is in an array with `r` columns of `s` units, and with dummies not in its border. -/
def Usable (r s u : Nat) (dummy : Bool) : Prop :=
  u / s < r ∧ (dummy = true → 0 < u / s ∧ u / s + 1 < r ∧ 0 < u % s ∧ u % s + 1 < s)

/-! ## Proofs: the sort -/

theorem inner_perm (d : Nat → Int) : ∀ (x : Nat) (l : List Nat), ((inner d x l).1 :: (inner d x l).2).Perm (x :: l)
  | x, [] => List.Perm.refl _
  | x, y :: l => by
    unfold inner
    split
    · exact (List.Perm.swap _ _ _).trans ((inner_perm d y l).cons x)
    · exact (List.Perm.swap _ _ _).trans (((inner_perm d x l).cons y).trans (List.Perm.swap _ _ _))

theorem inner_le (d : Nat → Int) : ∀ (x : Nat) (l : List Nat), d (inner d x l).1 ≤ d x ∧ ∀ y ∈ (inner d x l).2, d (inner d x l).1 ≤ d y
  | x, [] => ⟨Int.le_refl _, fun y hy => absurd hy (by simp [inner])⟩
  | x, y :: l => by
    unfold inner
    split
    · rename_i h
      obtain ⟨h1, h2⟩ := inner_le d y l
      refine ⟨by simp only; omega, fun z hz => ?_⟩
      rcases List.mem_cons.1 hz with e | e
      · rw [e]; simp only; omega
      · exact h2 z e
    · rename_i h
      obtain ⟨h1, h2⟩ := inner_le d x l
      refine ⟨h1, fun z hz => ?_⟩
      rcases List.mem_cons.1 hz with e | e
      · rw [e]; simp only; omega
      · exact h2 z e

theorem sort_spec (d : Nat → Int) : ∀ (n : Nat) (l : List Nat), l.length ≤ n → (sortBy d n l).Perm l ∧ (sortBy d n l).Pairwise fun x y => d x ≤ d y
  | 0, l, h => by
    have : l = [] := List.length_eq_zero_iff.1 (by omega)
    rw [this]
    exact ⟨List.Perm.refl _, List.Pairwise.nil⟩
  | n + 1, [], _ => ⟨List.Perm.refl _, List.Pairwise.nil⟩
  | n + 1, x :: l, h => by
    have hp := inner_perm d x l
    have hl : (inner d x l).2.length ≤ n := by
      have := hp.length_eq
      simp only [List.length_cons] at this h
      omega
    obtain ⟨h1, h2⟩ := sort_spec d n _ hl
    unfold sortBy
    refine ⟨(h1.cons _).trans hp, List.Pairwise.cons (fun y hy => (inner_le d x l).2 y (h1.mem_iff.1 hy)) h2⟩

theorem order_spec (r s : Nat) : (order r s).Perm (List.range (r * s)) ∧ (order r s).Pairwise fun x y => dist r s x ≤ dist r s y :=
  sort_spec _ _ _ (by simp)

/-! ## Opposite units -/

theorem opp_iff {r s u v : Nat} (hs : 0 < s) (hu : u < r * s) : Opposite r s u v ↔ v = r * s - 1 - u := by
  unfold Opposite
  have hx : u / s < r := (Nat.div_lt_iff_lt_mul hs).2 hu
  have hy : u % s < s := Nat.mod_lt _ hs
  have hu' : s * (u / s) + u % s = u := Nat.div_add_mod u s
  have hrs : r * s = s * (r - 1 - u / s) + s * (u / s) + s := by
    have : r = (r - 1 - u / s) + u / s + 1 := by omega
    conv_lhs => rw [this]
    ring
  have hv : r * s - 1 - u = s * (r - 1 - u / s) + (s - 1 - u % s) := by omega
  constructor
  · rintro ⟨h1, h2⟩
    have h3 : v / s = r - 1 - u / s := by omega
    have h4 : v % s = s - 1 - u % s := by omega
    rw [hv, ← h3, ← h4]
    exact (Nat.div_add_mod v s).symm
  · intro h
    rw [hv] at h
    have h3 : v / s = r - 1 - u / s := by
      have h0 : (s - 1 - u % s) / s = 0 := Nat.div_eq_of_lt (by omega)
      rw [h, Nat.mul_add_div hs, h0, Nat.add_zero]
    have h4 : v % s = s - 1 - u % s := by
      rw [h, Nat.mul_add_mod, Nat.mod_eq_of_lt (by omega)]
    omega

theorem dist_opp {r s u v : Nat} (h : Opposite r s u v) : dist r s v = dist r s u := by
  unfold Opposite at h
  unfold dist ux uy
  have h1 : ((v / s : Nat) : Int) = r - 1 - (u / s : Nat) := by omega
  have h2 : ((v % s : Nat) : Int) = s - 1 - (u % s : Nat) := by omega
  rw [h1, h2]
  ring

theorem dist_nonneg (r s u : Nat) : 0 ≤ dist r s u := by
  unfold dist
  have h1 := mul_self_nonneg (2 * (ux s u : Int) - (r - 1))
  have h2 := mul_self_nonneg (2 * (uy s u : Int) - (s - 1))
  omega

theorem dist_zero {r s u : Nat} : dist r s u = 0 ↔ Opposite r s u u := by
  unfold dist Opposite
  have h1 := mul_self_nonneg (2 * (ux s u : Int) - (r - 1))
  have h2 := mul_self_nonneg (2 * (uy s u : Int) - (s - 1))
  constructor
  · intro h
    have a1 := mul_self_eq_zero.1 (show (2 * (ux s u : Int) - (r - 1)) * (2 * (ux s u : Int) - (r - 1)) = 0 by omega)
    have a2 := mul_self_eq_zero.1 (show (2 * (uy s u : Int) - (s - 1)) * (2 * (uy s u : Int) - (s - 1)) = 0 by omega)
    unfold ux at a1
    unfold uy at a2
    omega
  · rintro ⟨a1, a2⟩
    have b1 : 2 * (ux s u : Int) - (r - 1) = 0 := by unfold ux; omega
    have b2 : 2 * (uy s u : Int) - (s - 1) = 0 := by unfold uy; omega
    rw [b1, b2]
    rfl

/-- Both units of pairs. -/
def flat (l : List (Nat × Option Nat)) : List Nat := l.flatMap fun p => p.1 :: p.2.toList

theorem find_mate {r s x : Nat} (hs : 0 < s) (hx : x < r * s) : ∀ {l : List Nat}, (∀ y ∈ l, dist r s x ≤ dist r s y) →
    l.Pairwise (fun a b => dist r s a ≤ dist r s b) →
    findMate r s x l = if r * s - 1 - x ∈ l then some (r * s - 1 - x) else none
  | [], _, _ => by simp [findMate]
  | y :: l, h1, h2 => by
    unfold findMate
    have hop : (ux s x + ux s y + 1 = r ∧ uy s x + uy s y + 1 = s) ↔ y = r * s - 1 - x := opp_iff hs hx
    by_cases hd : dist r s x ≠ dist r s y
    · rw [if_pos hd, if_neg]
      intro hm
      have he := dist_opp ((opp_iff hs hx).2 rfl)
      have hxy := h1 y List.mem_cons_self
      rcases List.mem_cons.1 hm with e | e
      · rw [e] at he; exact hd he.symm
      · have := (List.pairwise_cons.1 h2).1 _ e
        omega
    · rw [if_neg hd]
      by_cases ho : y = r * s - 1 - x
      · rw [if_pos (hop.2 ho), if_pos (by rw [ho]; exact List.mem_cons_self), ho]
      · rw [if_neg (fun h => ho (hop.1 h)), find_mate hs hx (fun z hz => h1 z (List.mem_cons_of_mem _ hz)) (List.pairwise_cons.1 h2).2]
        have : (r * s - 1 - x ∈ y :: l) ↔ (r * s - 1 - x ∈ l) := by
          rw [List.mem_cons]
          exact ⟨fun h => h.resolve_left (fun e => ho e.symm), Or.inr⟩
        by_cases hm : r * s - 1 - x ∈ l
        · rw [if_pos hm, if_pos (this.2 hm)]
        · rw [if_neg hm, if_neg (fun h => hm (this.1 h))]

/-- The pairs hold exactly the units whose opposite unit is there too. -/
theorem mate_spec {r s : Nat} (hs : 0 < s) : ∀ {l : List Nat}, (∀ x ∈ l, x < r * s ∧ r * s - 1 - x ≠ x) → l.Nodup →
    l.Pairwise (fun a b => dist r s a ≤ dist r s b) →
    (∀ p ∈ matePairs r s l, ∃ d, p.2 = some d ∧ Opposite r s p.1 d) ∧ (flat (matePairs r s l)).Nodup
      ∧ ∀ x, x ∈ flat (matePairs r s l) ↔ x ∈ l ∧ r * s - 1 - x ∈ l
  | [], _, _, _ => ⟨fun p hp => absurd hp (by simp [matePairs]), by simp [matePairs, flat], fun x => by simp [matePairs, flat]⟩
  | x :: l, hlt, hn, hp => by
    have hx := hlt x List.mem_cons_self
    have hlt' : ∀ y ∈ l, y < r * s ∧ r * s - 1 - y ≠ y := fun y hy => hlt y (List.mem_cons_of_mem _ hy)
    obtain ⟨hxl, hn'⟩ := List.nodup_cons.1 hn
    obtain ⟨hd, hp'⟩ := List.pairwise_cons.1 hp
    obtain ⟨i1, i2, i3⟩ := mate_spec hs hlt' hn' hp'
    unfold matePairs
    rw [find_mate hs hx.1 hd hp']
    by_cases hm : r * s - 1 - x ∈ l
    · rw [if_pos hm]
      simp only
      have hback : r * s - 1 - (r * s - 1 - x) = x := by omega
      have hf : ∀ z, z ∈ flat ((min x (r * s - 1 - x), some (max x (r * s - 1 - x))) :: matePairs r s l) ↔ z = x ∨ z = r * s - 1 - x ∨ z ∈ flat (matePairs r s l) := by
        intro z
        unfold flat
        rw [List.flatMap_cons]
        simp only [Option.toList_some, List.mem_append, List.mem_cons, List.not_mem_nil, or_false]
        rcases Nat.le_total x (r * s - 1 - x) with h | h
        · rw [Nat.min_eq_left h, Nat.max_eq_right h]; tauto
        · rw [Nat.min_eq_right h, Nat.max_eq_left h]; tauto
      refine ⟨fun p hp => ?_, ?_, fun z => ?_⟩
      · rcases List.mem_cons.1 hp with e | e
        · rw [e]
          refine ⟨_, rfl, ?_⟩
          simp only
          rcases Nat.le_total x (r * s - 1 - x) with h | h
          · rw [Nat.min_eq_left h, Nat.max_eq_right h]; exact (opp_iff hs hx.1).2 rfl
          · rw [Nat.min_eq_right h, Nat.max_eq_left h]; exact (opp_iff hs (hlt' _ hm).1).2 hback.symm
        · exact i1 p e
      · have n1 : x ∉ flat (matePairs r s l) := fun h => hxl ((i3 x).1 h).1
        have n2 : r * s - 1 - x ∉ flat (matePairs r s l) := fun h => hxl (by have := ((i3 _).1 h).2; rw [hback] at this; exact this)
        have : flat ((min x (r * s - 1 - x), some (max x (r * s - 1 - x))) :: matePairs r s l)
            = min x (r * s - 1 - x) :: max x (r * s - 1 - x) :: flat (matePairs r s l) := by
          unfold flat; rw [List.flatMap_cons]; rfl
        rw [this, List.nodup_cons, List.nodup_cons]
        rcases Nat.le_total x (r * s - 1 - x) with h | h
        · rw [Nat.min_eq_left h, Nat.max_eq_right h]
          refine ⟨fun h' => ?_, n2, i2⟩
          rcases List.mem_cons.1 h' with e | e
          · exact hx.2 e.symm
          · exact n1 e
        · rw [Nat.min_eq_right h, Nat.max_eq_left h]
          refine ⟨fun h' => ?_, n1, i2⟩
          rcases List.mem_cons.1 h' with e | e
          · exact hx.2 e
          · exact n2 e
      · rw [hf z, i3 z]
        simp only [List.mem_cons]
        constructor
        · rintro (e | e | ⟨e1, e2⟩)
          · rw [e]; exact ⟨Or.inl rfl, Or.inr hm⟩
          · rw [e, hback]; exact ⟨Or.inr hm, Or.inl rfl⟩
          · exact ⟨Or.inr e1, Or.inr e2⟩
        · rintro ⟨e1 | e1, e2⟩
          · exact Or.inl e1
          · rcases e2 with e2 | e2
            · exact Or.inr (Or.inl (by have := (hlt' z e1).1; omega))
            · exact Or.inr (Or.inr ⟨e1, e2⟩)
    · rw [if_neg hm]
      refine ⟨i1, i2, fun z => ?_⟩
      rw [i3 z]
      simp only [List.mem_cons]
      constructor
      · rintro ⟨e1, e2⟩; exact ⟨Or.inr e1, Or.inr e2⟩
      · rintro ⟨e1 | e1, e2⟩
        · rw [e1] at e2
          rcases e2 with e2 | e2
          · exact absurd e2 hx.2
          · exact absurd e2 hm
        · rcases e2 with e2 | e2
          · exfalso; apply hm; have := (hlt' z e1).1; have : r * s - 1 - x = z := by omega
            rw [this]; exact e1
          · exact ⟨e1, e2⟩

/-- What the sequence of pairs is: maybe the unit in the middle first, then pairs of opposite units, all units once. -/
structure Seq (r s : Nat) (C : List (Nat × Option Nat)) (P : Nat → Prop) : Prop where
  form : ∃ (c : Option Nat) (Q : List (Nat × Option Nat)), C = (c.toList.map fun x => (x, none)) ++ Q ∧ ∀ p ∈ Q, ∃ d, p.2 = some d ∧ Opposite r s p.1 d
  nodup : (flat C).Nodup
  mem : ∀ x, x ∈ flat C ↔ x < r * s ∧ P x

theorem pairSeq_spec {r s : Nat} (hr : 0 < r) (hs : 0 < s) : Seq r s (pairSeq r s) fun _ => True := by
  obtain ⟨o1, o2⟩ := order_spec r s
  have hn : (order r s).Nodup := o1.nodup_iff.2 List.nodup_range
  have hm : ∀ x, x ∈ order r s ↔ x < r * s := fun x => by rw [o1.mem_iff, List.mem_range]
  have hpos : 0 < r * s := Nat.mul_pos hr hs
  have hdup : ∀ x, x < r * s → r * s - 1 - x = x → dist r s x = 0 := fun x hx h => dist_zero.2 ((opp_iff hs hx).2 h.symm)
  unfold pairSeq
  generalize hO : order r s = O at *
  match O, hO with
  | [], _ => exact absurd ((hm 0).2 hpos) (by simp)
  | [a], _ =>
    refine ⟨⟨some a, [], rfl, fun p hp => absurd hp (by simp)⟩, by simp [flat], fun x => ?_⟩
    have : x ∈ flat [(a, none)] ↔ x ∈ [a] := by simp [flat]
    simp only
    rw [this, hm x]
    simp
  | a :: b :: l, _ =>
    simp only
    obtain ⟨d1, d2⟩ := List.pairwise_cons.1 o2
    obtain ⟨n1, n2⟩ := List.nodup_cons.1 hn
    have hopp : ∀ x, x < r * s → r * s - 1 - x < r * s := fun x hx => by omega
    by_cases hd : dist r s a < dist r s b
    · rw [if_pos hd]
      have hla := (hm a).1 List.mem_cons_self
      have hfix : r * s - 1 - a = a := by
        by_contra hne
        have h1 := (hm _).2 (hopp a hla)
        rcases List.mem_cons.1 h1 with e | e
        · exact hne e
        · have h2 : dist r s b ≤ dist r s (r * s - 1 - a) := by
            rcases List.mem_cons.1 e with e' | e'
            · rw [e']
            · exact (List.pairwise_cons.1 d2).1 _ e'
          rw [dist_opp ((opp_iff hs hla).2 rfl)] at h2
          omega
      have hlt : ∀ x ∈ b :: l, x < r * s ∧ r * s - 1 - x ≠ x := by
        intro x hx
        have hx' := (hm x).1 (List.mem_cons_of_mem _ hx)
        refine ⟨hx', fun e => ?_⟩
        have : x = a := by omega
        exact n1 (this ▸ hx)
      obtain ⟨i1, i2, i3⟩ := mate_spec hs hlt n2 d2
      have hf : flat ((a, none) :: matePairs r s (b :: l)) = a :: flat (matePairs r s (b :: l)) := by unfold flat; rw [List.flatMap_cons]; rfl
      refine ⟨⟨some a, _, rfl, i1⟩, ?_, fun x => ?_⟩
      · rw [hf, List.nodup_cons]
        exact ⟨fun h => n1 ((i3 a).1 h).1, i2⟩
      · rw [hf, List.mem_cons, i3 x]
        constructor
        · rintro (e | ⟨e, _⟩)
          · rw [e]; exact ⟨hla, trivial⟩
          · exact ⟨(hlt x e).1, trivial⟩
        · rintro ⟨e, _⟩
          rcases List.mem_cons.1 ((hm x).2 e) with e1 | e1
          · exact Or.inl e1
          · refine Or.inr ⟨e1, ?_⟩
            rcases List.mem_cons.1 ((hm _).2 (hopp x e)) with e2 | e2
            · exfalso
              have : x = a := by omega
              exact n1 (this ▸ e1)
            · exact e2
    · rw [if_neg hd]
      have hlt : ∀ x ∈ a :: b :: l, x < r * s ∧ r * s - 1 - x ≠ x := by
        intro x hx
        have hx' := (hm x).1 hx
        refine ⟨hx', fun e => ?_⟩
        have h0 := hdup x hx' e
        have ha0 : dist r s a = 0 := by
          have := dist_nonneg r s a
          rcases List.mem_cons.1 hx with e' | e'
          · rw [← e']; exact h0
          · have := d1 x e'; omega
        have hb0 : dist r s b = 0 := by
          have := dist_nonneg r s b
          omega
        have hla := (hm a).1 List.mem_cons_self
        have hlb := (hm b).1 (List.mem_cons_of_mem _ List.mem_cons_self)
        have h1 := (opp_iff hs hla).1 (dist_zero.1 ha0)
        have h2 := (opp_iff hs hlb).1 (dist_zero.1 hb0)
        have : a = b := by omega
        exact n1 (by rw [this]; exact List.mem_cons_self)
      obtain ⟨i1, i2, i3⟩ := mate_spec hs hlt hn o2
      refine ⟨⟨none, _, rfl, i1⟩, i2, fun x => ?_⟩
      rw [i3 x, hm x, hm]
      constructor
      · rintro ⟨e, _⟩; exact ⟨e, trivial⟩
      · rintro ⟨e, _⟩; exact ⟨e, hopp x e⟩

/-- Units inside the border. -/
theorem inside_iff {r s u : Nat} (hs : 0 < s) (hu : u < r * s) :
    inside r s u = true ↔ 0 < u / s ∧ u / s + 1 < r ∧ 0 < u % s ∧ u % s + 1 < s := by
  have hx : u / s < r := (Nat.div_lt_iff_lt_mul hs).2 hu
  have hy : u % s < s := Nat.mod_lt _ hs
  unfold inside ux uy
  simp only [Bool.and_eq_true, decide_eq_true_eq]
  generalize u / s = a at *
  generalize u % s = b at *
  omega

theorem inside_opp {r s u v : Nat} (h : Opposite r s u v) (hi : inside r s u = true) : inside r s v = true := by
  unfold inside ux uy at *
  unfold Opposite at h
  simp only [Bool.and_eq_true, decide_eq_true_eq] at *
  omega

theorem opp_symm {r s u v : Nat} (h : Opposite r s u v) : Opposite r s v u := by
  unfold Opposite at *
  omega

theorem flat_append (a b : List (Nat × Option Nat)) : flat (a ++ b) = flat a ++ flat b := by
  unfold flat
  exact List.flatMap_append

theorem flat_filter_sublist (f : Nat × Option Nat → Bool) (l : List (Nat × Option Nat)) : (flat (l.filter f)).Sublist (flat l) := by
  unfold flat
  induction l with
  | nil => exact List.Sublist.refl _
  | cons p l ih =>
    rw [List.filter_cons]
    by_cases h : f p = true
    · rw [if_pos h, List.flatMap_cons, List.flatMap_cons]
      exact (List.Sublist.refl _).append ih
    · rw [if_neg h, List.flatMap_cons]
      exact ih.trans (List.sublist_append_right _ _)

/-- The pairs that are left inside the border. -/
theorem filter_spec {r s : Nat} (hr : 0 < r) (hs : 0 < s) :
    Seq r s ((pairSeq r s).filter fun p => inside r s p.1 && p.2.all (inside r s)) fun x => inside r s x = true := by
  obtain ⟨⟨c, Q, hC, hQ⟩, hn, hm⟩ := pairSeq_spec hr hs
  refine ⟨⟨c.filter (inside r s), Q.filter fun p => inside r s p.1 && p.2.all (inside r s), ?_, fun p hp => hQ p (List.mem_filter.1 hp).1⟩,
    hn.sublist (flat_filter_sublist _ _), fun x => ?_⟩
  · rw [hC, List.filter_append]
    congr 1
    cases c with
    | none => rfl
    | some a =>
      by_cases h : inside r s a = true
      · simp [Option.filter, h]
      · simp [Option.filter, h]
  · have hm' := hm x
    simp only [and_true] at hm'
    constructor
    · intro h
      refine ⟨hm'.1 ((flat_filter_sublist _ _).subset h), ?_⟩
      obtain ⟨p, hp, hx⟩ := List.mem_flatMap.1 h
      have hp2 := (List.mem_filter.1 hp).2
      simp only [Bool.and_eq_true] at hp2
      rcases List.mem_cons.1 hx with e | e
      · rw [e]; exact hp2.1
      · rw [Option.mem_toList] at e
        have : p.2 = some x := e
        rw [this] at hp2
        simpa using hp2.2
    · rintro ⟨h1, h2⟩
      obtain ⟨p, hp, hx⟩ := List.mem_flatMap.1 (hm'.2 h1)
      refine List.mem_flatMap.2 ⟨p, List.mem_filter.2 ⟨hp, ?_⟩, hx⟩
      rw [hC] at hp
      rcases List.mem_append.1 hp with e | e
      · obtain ⟨a, ha, he⟩ := List.mem_map.1 e
        rw [← he] at hx ⊢
        have : x = a := by simpa using hx
        rw [← this, h2]
        rfl
      · obtain ⟨d, hd, ho⟩ := hQ p e
        rw [hd] at hx ⊢
        rcases List.mem_cons.1 hx with e' | e'
        · rw [← e', h2] 
          rw [← e'] at ho
          simp [inside_opp ho h2]
        · have : x = d := by simpa using e'
          rw [← this] at ho ⊢
          have := inside_opp (opp_symm ho) h2
          simp [this, h2]

/-- How many units are in columns with `p` and rows with `q`. -/
theorem count_grid (p q : Nat → Bool) {s : Nat} (hs : 0 < s) (r : Nat) :
    (List.range (r * s)).countP (fun u => p (u / s) && q (u % s)) = (List.range r).countP p * (List.range s).countP q := by
  induction r with
  | zero => simp
  | succ r ih =>
    rw [Nat.succ_mul, List.range_add, List.countP_append, ih, List.range_succ, List.countP_append, Nat.add_mul]
    congr 1
    rw [List.countP_map]
    have : ∀ j ∈ List.range s, ((fun u => p (u / s) && q (u % s)) ∘ fun x => r * s + x) j = (p r && q j) := by
      intro j hj
      have hj' := List.mem_range.1 hj
      have h1 : (r * s + j) / s = r := by rw [Nat.mul_comm, Nat.mul_add_div hs, Nat.div_eq_of_lt hj', Nat.add_zero]
      have h2 : (r * s + j) % s = j := by rw [Nat.mul_comm, Nat.mul_add_mod, Nat.mod_eq_of_lt hj']
      simp only [Function.comp, h1, h2]
    rw [List.countP_congr (q := fun j => p r && q j) (fun j hj => by rw [this j hj])]
    by_cases h : p r = true
    · simp [h]
    · simp [h]

theorem count_mid (n : Nat) : (List.range (n + 2)).countP (fun x => decide (x ≠ 0) && decide (x + 1 ≠ n + 2)) = n := by
  rw [List.range_succ_eq_map, List.countP_cons, List.countP_map, List.range_succ, List.countP_append]
  have h1 : (List.range n).countP ((fun x => decide (x ≠ 0) && decide (x + 1 ≠ n + 2)) ∘ Nat.succ) = n := by
    conv_rhs => rw [← List.length_range (n := n)]
    rw [List.countP_eq_length]
    intro x hx
    have := List.mem_range.1 hx
    simp only [Function.comp, Bool.and_eq_true, decide_eq_true_eq]
    omega
  rw [h1]
  simp

theorem count_inside (r s : Nat) : (List.range ((r + 2) * (s + 2))).countP (inside (r + 2) (s + 2)) = r * s := by
  have := count_grid (fun x => decide (x ≠ 0) && decide (x + 1 ≠ r + 2)) (fun x => decide (x ≠ 0) && decide (x + 1 ≠ s + 2)) (s := s + 2) (by omega) (r + 2)
  rw [count_mid, count_mid] at this
  rw [← this]
  refine List.countP_congr fun u _ => ?_
  unfold inside ux uy
  simp only [Bool.and_assoc]

theorem caps_spec {r s : Nat} (hr : 0 < r) (hs : 0 < s) (dummy : Bool) :
    Seq (full r dummy) (full s dummy) (caps r s dummy) (fun x => dummy = true → inside (r + 2) (s + 2) x = true) ∧ (flat (caps r s dummy)).length = r * s := by
  unfold caps full
  cases dummy with
  | false =>
    simp only [Bool.false_eq_true, if_false, false_imp_iff]
    have h := pairSeq_spec hr hs
    refine ⟨h, ?_⟩
    have : (flat (pairSeq r s)).Perm (List.range (r * s)) := (List.perm_ext_iff_of_nodup h.nodup List.nodup_range).2 fun x => by
      rw [h.mem x, List.mem_range]; simp
    rw [this.length_eq, List.length_range]
  | true =>
    simp only [if_true, true_imp_iff]
    have h := filter_spec (r := r + 2) (s := s + 2) (by omega) (by omega)
    refine ⟨h, ?_⟩
    rw [← count_inside r s, List.countP_eq_length_filter]
    exact ((List.perm_ext_iff_of_nodup h.nodup (List.nodup_range.filter _)).2 fun x => by
      rw [h.mem x, List.mem_filter, List.mem_range]).length_eq

/-! ## The sequence of the capacitors -/

theorem pairUp_spec : ∀ (l : List Nat), (flat (pairUp l).1 ++ (pairUp l).2) = l ∧ (pairUp l).2.length ≤ 1 ∧ ∀ p ∈ (pairUp l).1, p.2.isSome = true
  | [] => ⟨rfl, by simp [pairUp], fun p hp => absurd hp (by simp [pairUp])⟩
  | [a] => ⟨rfl, by simp [pairUp], fun p hp => absurd hp (by simp [pairUp])⟩
  | a :: b :: l => by
    obtain ⟨h1, h2, h3⟩ := pairUp_spec l
    unfold pairUp
    refine ⟨?_, h2, fun p hp => ?_⟩
    · simp only
      have : flat ((a, some b) :: (pairUp l).1) = a :: b :: flat (pairUp l).1 := by unfold flat; rw [List.flatMap_cons]; rfl
      rw [this]
      simp only [List.cons_append, h1]
    · rcases List.mem_cons.1 hp with e | e
      · rw [e]; rfl
      · exact h3 p e

theorem flat_single (l : List Nat) : flat (l.map fun x => (x, none)) = l := by
  unfold flat
  rw [List.flatMap_map]
  simp

/-- What the sequence of the capacitors is: maybe one alone, then pairs; the odd ones once, then each with itself. -/
theorem netSeq_spec (k : List Nat) : ∃ (u : Option Nat) (M : List (Nat × Option Nat)),
    netSeq k = (u.toList.map fun x => (x, none)) ++ M ++ (genS k (evenOf k) ++ genS k (oddOf k)) ∧ (∀ p ∈ M, p.2.isSome = true)
      ∧ (u.toList ++ flat M).Perm (oddOf k ++ unitsOf k) := by
  obtain ⟨a1, a2, a3⟩ := pairUp_spec (oddOf k).reverse
  have po : ((oddOf k).reverse ++ (unitsOf k).reverse).Perm (oddOf k ++ unitsOf k) := (List.reverse_perm _).append (List.reverse_perm _)
  have key : ∀ us : List Nat, ∃ u : Option Nat, (pairUp us).2 = u.toList := by
    intro us
    have := (pairUp_spec us).2.1
    match (pairUp us).2, this with
    | [], _ => exact ⟨none, rfl⟩
    | [a], _ => exact ⟨some a, rfl⟩
    | a :: b :: l, h => simp at h
  unfold netSeq
  simp only
  generalize hoo : (pairUp (oddOf k).reverse).2 = lo at *
  generalize (pairUp (oddOf k).reverse).1 = OO at *
  generalize hU : (unitsOf k).reverse = U at *
  match lo, U with
  | o :: l', u :: us =>
    have hl' : l' = [] := by
      cases l' with
      | nil => rfl
      | cons _ _ => simp at a2
    obtain ⟨b1, b2, b3⟩ := pairUp_spec us
    obtain ⟨w, hw⟩ := key us
    refine ⟨w, (pairUp us).1 ++ [(o, some u)] ++ OO, ?_, ?_, ?_⟩
    · simp only [hw, List.append_assoc]
    · intro p hp
      rcases List.mem_append.1 hp with e | e
      · rcases List.mem_append.1 e with e | e
        · exact b3 p e
        · rw [List.mem_singleton.1 e]; rfl
      · exact a3 p e
    · refine List.Perm.trans ?_ po
      rw [← a1, hl']
      conv_rhs => rw [← b1]
      rw [hw, flat_append, flat_append]
      have : flat [(o, some u)] = [o, u] := rfl
      rw [this, List.perm_iff_count]
      intro x
      simp only [List.count_append, List.count_cons, List.count_nil]
      omega
  | o :: l', [] =>
    have hl' : l' = [] := by
      cases l' with
      | nil => rfl
      | cons _ _ => simp at a2
    refine ⟨some o, OO, ?_, a3, ?_⟩
    · simp only [Option.toList_some, List.map_cons, List.map_nil, List.append_assoc]
    · refine List.Perm.trans ?_ po
      rw [← a1, hl', List.perm_iff_count]
      intro x
      simp only [Option.toList_some, List.count_append, List.count_cons, List.count_nil]
      omega
  | [], us =>
    obtain ⟨b1, b2, b3⟩ := pairUp_spec us
    obtain ⟨w, hw⟩ := key us
    refine ⟨w, (pairUp us).1 ++ OO, ?_, ?_, ?_⟩
    · simp only [hw, List.append_assoc]
    · intro p hp
      rcases List.mem_append.1 hp with e | e
      · exact b3 p e
      · exact a3 p e
    · refine List.Perm.trans ?_ po
      rw [← a1]
      conv_rhs => rw [← b1]
      rw [hw, flat_append, List.perm_iff_count]
      intro x
      simp only [List.count_append, List.count_nil]
      omega

theorem count_single (n i : Nat) (f : Nat → Bool) : ((List.range n).filter f).count i = if i < n ∧ f i = true then 1 else 0 := by
  have hn : ((List.range n).filter f).Nodup := List.nodup_range.filter _
  by_cases h : i ∈ (List.range n).filter f
  · rw [List.count_eq_one_of_mem hn h, if_pos]
    obtain ⟨h1, h2⟩ := List.mem_filter.1 h
    exact ⟨List.mem_range.1 h1, h2⟩
  · rw [List.count_eq_zero.2 h, if_neg]
    rintro ⟨h1, h2⟩
    exact h (List.mem_filter.2 ⟨List.mem_range.2 h1, h2⟩)

theorem mixed_count (k : List Nat) (i : Nat) : (oddOf k ++ unitsOf k).count i = k.getD i 0 % 2 := by
  unfold oddOf unitsOf
  rw [List.count_append, count_single, count_single]
  simp only [decide_eq_true_eq]
  by_cases hi : i < k.length
  · by_cases h1 : k.getD i 0 = 1
    · rw [if_neg (by omega), if_pos ⟨hi, h1⟩, h1]
    · by_cases h2 : k.getD i 0 % 2 = 1
      · rw [if_pos ⟨hi, h1, h2⟩, if_neg (by omega), h2]
      · rw [if_neg (by omega), if_neg (by omega)]; omega
  · have : k.getD i 0 = 0 := by
      rw [List.getD_eq_getElem?_getD, List.getElem?_eq_none (by omega)]; rfl
    rw [if_neg (by omega), if_neg (by omega), this]

theorem genS_count (k : List Nat) (i : Nat) (C : List Nat) : (flat (genS k C)).count i = 2 * (k.getD i 0 / 2) * C.count i := by
  induction C with
  | nil => simp [genS, flat]
  | cons a C ih =>
    have h1 : genS k (a :: C) = List.replicate (k.getD a 0 / 2) (a, some a) ++ genS k C := by unfold genS; rw [List.flatMap_cons]
    have h2 : ∀ m, (flat (List.replicate m (a, some a))).count i = if a = i then 2 * m else 0 := by
      intro m
      induction m with
      | zero => simp [flat]
      | succ m im =>
        have : flat (List.replicate (m + 1) (a, some a)) = a :: a :: flat (List.replicate m (a, some a)) := by
          unfold flat; rw [List.replicate_succ, List.flatMap_cons]; rfl
        rw [this, List.count_cons, List.count_cons, im]
        by_cases h : a = i
        · simp [h]; omega
        · simp [h]
    rw [h1, flat_append, List.count_append, ih, h2, List.count_cons]
    by_cases h : a = i
    · simp only [h, if_true, beq_self_eq_true]; ring
    · simp [h]

theorem same_count (k : List Nat) (i : Nat) : (flat (genS k (evenOf k) ++ genS k (oddOf k))).count i = 2 * (k.getD i 0 / 2) := by
  rw [flat_append, List.count_append, genS_count, genS_count]
  unfold evenOf oddOf
  rw [count_single, count_single]
  simp only [decide_eq_true_eq]
  by_cases hi : i < k.length
  · by_cases h1 : k.getD i 0 = 1
    · rw [h1]; simp
    · by_cases h2 : k.getD i 0 % 2 = 1
      · rw [if_neg (by omega), if_pos ⟨hi, h1, h2⟩]; omega
      · rw [if_pos ⟨hi, h1, h2⟩, if_neg (by omega)]; omega
  · have : k.getD i 0 = 0 := by
      rw [List.getD_eq_getElem?_getD, List.getElem?_eq_none (by omega)]; rfl
    rw [this]; simp

theorem genS_self (k : List Nat) (C : List Nat) : ∀ p ∈ genS k C, p.2 = some p.1 := by
  intro p hp
  obtain ⟨i, _, h⟩ := List.mem_flatMap.1 hp
  rw [List.eq_of_mem_replicate h]

/-- A list of numbers below `n` is as long as the sum of how often each occurs. -/
theorem length_count (n : Nat) : ∀ (l : List Nat), (∀ x ∈ l, x < n) → l.length = ((List.range n).map fun i => l.count i).sum
  | [], _ => by
    have : ((List.range n).map fun i => ([] : List Nat).count i) = (List.range n).map fun _ => 0 := by simp
    rw [this]; simp
  | a :: l, h => by
    have ih := length_count n l fun x hx => h x (List.mem_cons_of_mem _ hx)
    have ha := h a List.mem_cons_self
    rw [List.length_cons, ih]
    have h1 : ((List.range n).map fun i => (a :: l).count i) = (List.range n).map fun i => l.count i + (if a = i then 1 else 0) := by
      refine List.map_congr_left fun i _ => ?_
      rw [List.count_cons]
      by_cases e : a = i <;> simp [e]
    have h2 : ∀ (L : List Nat), (L.map fun i => l.count i + (if a = i then 1 else 0)).sum = (L.map fun i => l.count i).sum + L.count a := by
      intro L
      induction L with
      | nil => rfl
      | cons b L iL =>
        rw [List.map_cons, List.sum_cons, iL, List.map_cons, List.sum_cons, List.count_cons]
        by_cases e : a = b
        · simp [e]; omega
        · have : ¬ b = a := fun h => e h.symm
          simp [e, this]; omega
    rw [h1, h2, List.count_eq_one_of_mem List.nodup_range (List.mem_range.2 ha)]

theorem sum_getD (k : List Nat) : ((List.range k.length).map fun i => k.getD i 0).sum = k.sum := by
  congr 1
  apply List.ext_getElem
  · simp
  · intro i h1 h2
    simp only [List.getElem_map, List.getElem_range]
    rw [List.getD_eq_getElem?_getD, List.getElem?_eq_getElem h2]
    rfl

/-! ## Giving the units to the capacitors -/

theorem flat_cons (p : Nat × Option Nat) (l : List (Nat × Option Nat)) : flat (p :: l) = p.1 :: (p.2.toList ++ flat l) := by
  unfold flat
  rw [List.flatMap_cons]
  rfl

theorem flat_length : ∀ {l : List (Nat × Option Nat)}, (∀ p ∈ l, p.2.isSome = true) → (flat l).length = 2 * l.length
  | [], _ => rfl
  | p :: l, h => by
    obtain ⟨d, hd⟩ := Option.isSome_iff_exists.1 (h p List.mem_cons_self)
    rw [flat_cons, hd]
    simp only [Option.toList_some, List.length_cons, List.length_append, List.length_nil, flat_length fun q hq => h q (List.mem_cons_of_mem _ hq)]
    omega

theorem assign_pairs : ∀ {N Q : List (Nat × Option Nat)}, (∀ p ∈ N, p.2.isSome = true) → (∀ p ∈ Q, p.2.isSome = true) → N.length ≤ Q.length →
    assign N Q = some ((flat N).zip (flat Q))
  | [], Q, _, _, _ => by cases Q <;> rfl
  | _ :: _, [], _, _, h => absurd h (by simp)
  | (n, none) :: N, q :: Q, h1, _, _ => absurd (h1 _ List.mem_cons_self) (by simp)
  | p :: N, (c, none) :: Q, _, h2, _ => absurd (h2 _ List.mem_cons_self) (by simp)
  | (n, some m) :: N, (c, some d) :: Q, h1, h2, h => by
    have ih := assign_pairs (N := N) (Q := Q) (fun p hp => h1 p (List.mem_cons_of_mem _ hp)) (fun p hp => h2 p (List.mem_cons_of_mem _ hp))
      (by simp only [List.length_cons] at h; omega)
    unfold assign
    rw [ih, flat_cons, flat_cons]
    rfl

/-- The capacitors in their sequence get the units one after the other. -/
theorem assign_spec {u c : Option Nat} {N Q : List (Nat × Option Nat)} (hN : ∀ p ∈ N, p.2.isSome = true) (hQ : ∀ p ∈ Q, p.2.isSome = true)
    (hl : u.toList.length + 2 * N.length ≤ c.toList.length + 2 * Q.length) :
    ∃ (w : Option Nat) (Q2 : List (Nat × Option Nat)), w.isSome = u.isSome ∧ (∀ p ∈ Q2, p ∈ Q) ∧ N.length ≤ Q2.length
      ∧ (w.toList ++ flat Q2).Sublist (flat (c.toList.map (fun x => (x, none)) ++ Q))
      ∧ assign (u.toList.map (fun x => (x, none)) ++ N) (c.toList.map (fun x => (x, none)) ++ Q) = some ((u.toList ++ flat N).zip (w.toList ++ flat Q2)) := by
  cases u with
  | none =>
    cases c with
    | none =>
      simp only [Option.toList_none, List.length_nil, List.map_nil, List.nil_append] at hl ⊢
      exact ⟨none, Q, rfl, fun p hp => hp, by omega, List.Sublist.refl _, assign_pairs hN hQ (by omega)⟩
    | some a =>
      simp only [Option.toList_none, Option.toList_some, List.length_nil, List.length_cons, List.map_cons, List.map_nil, List.nil_append, List.cons_append] at hl ⊢
      refine ⟨none, Q, rfl, fun p hp => hp, by omega, ?_, ?_⟩
      · rw [flat_cons]
        exact (List.Sublist.refl _).cons _
      · match N, Q with
        | [], _ => rfl
        | (n, none) :: N, _ => exact absurd (hN _ List.mem_cons_self) (by simp)
        | (n, some m) :: N, [] => simp only [List.length_cons, List.length_nil] at hl; omega
        | (n, some m) :: N, (b, none) :: Q => exact absurd (hQ _ List.mem_cons_self) (by simp)
        | (n, some m) :: N, (b, some d) :: Q =>
          have h := assign_pairs hN hQ (by simp only [List.length_cons] at hl ⊢; omega)
          exact Eq.trans (by rfl) h
  | some n =>
    cases c with
    | none =>
      simp only [Option.toList_none, Option.toList_some, List.length_nil, List.length_cons, List.map_cons, List.map_nil, List.nil_append, List.cons_append] at hl ⊢
      match Q with
      | [] => simp only [List.length_nil] at hl; omega
      | q :: Q =>
        refine ⟨some q.1, Q, rfl, fun p hp => List.mem_cons_of_mem _ hp, by simp only [List.length_cons] at hl; omega, ?_, ?_⟩
        · rw [flat_cons]
          exact List.Sublist.cons_cons _ (List.sublist_append_right _ _)
        · have h := assign_pairs hN (fun p hp => hQ p (List.mem_cons_of_mem _ hp)) (by simp only [List.length_cons] at hl; omega)
          unfold assign
          rw [h]
          rfl
    | some a =>
      simp only [Option.toList_some, List.length_nil, List.length_cons, List.map_cons, List.map_nil, List.nil_append, List.cons_append] at hl ⊢
      refine ⟨some a, Q, rfl, fun p hp => hp, by omega, ?_, ?_⟩
      · rw [flat_cons]
        exact List.Sublist.refl _
      · have h := assign_pairs hN hQ (by omega)
        unfold assign
        rw [h]
        rfl

/-- Capacitors paired with themselves get opposite units. -/
theorem self_spec {r s : Nat} : ∀ {S Q : List (Nat × Option Nat)}, (∀ p ∈ S, p.2 = some p.1) → (∀ p ∈ Q, ∃ d, p.2 = some d ∧ Opposite r s p.1 d) →
    ((flat Q).Nodup) → ∀ a ∈ (flat S).zip (flat Q), ∃ y, y ≠ a.2 ∧ Opposite r s a.2 y ∧ (a.1, y) ∈ (flat S).zip (flat Q)
  | [], _, _, _, _ => fun a ha => absurd ha (by simp [flat])
  | _ :: _, [], _, _, _ => fun a ha => absurd ha (by simp [flat])
  | p :: S, q :: Q, h1, h2, h3 => by
    obtain ⟨d, hd, ho⟩ := h2 q List.mem_cons_self
    have hp := h1 p List.mem_cons_self
    have e : (flat (p :: S)).zip (flat (q :: Q)) = (p.1, q.1) :: (p.1, d) :: (flat S).zip (flat Q) := by
      rw [flat_cons, flat_cons, hp, hd]
      rfl
    have hne : q.1 ≠ d := by
      rw [flat_cons, hd] at h3
      exact fun h => (List.nodup_cons.1 h3).1 (by rw [h]; simp)
    have h3' : (flat Q).Nodup := by
      rw [flat_cons] at h3
      exact ((List.nodup_cons.1 h3).2).sublist (List.sublist_append_right _ _)
    rw [e]
    intro a ha
    rcases List.mem_cons.1 ha with ha | ha
    · rw [ha]; exact ⟨d, hne.symm, ho, List.mem_cons_of_mem _ List.mem_cons_self⟩
    · rcases List.mem_cons.1 ha with ha | ha
      · rw [ha]; exact ⟨q.1, hne, opp_symm ho, List.mem_cons_self⟩
      · obtain ⟨y, y1, y2, y3⟩ := self_spec (fun p hp => h1 p (List.mem_cons_of_mem _ hp)) (fun p hp => h2 p (List.mem_cons_of_mem _ hp)) h3' a ha
        exact ⟨y, y1, y2, List.mem_cons_of_mem _ (List.mem_cons_of_mem _ y3)⟩

theorem flat_take (Q : List (Nat × Option Nat)) (n : Nat) : flat (Q.take n) ++ flat (Q.drop n) = flat Q := by
  rw [← flat_append, List.take_append_drop]

theorem unitsIn_length (A : List (Nat × Nat)) (n : Nat) : (unitsIn A n).length = (A.map (·.1)).count n := by
  unfold unitsIn
  rw [List.length_map, ← List.countP_eq_length_filter, List.count_eq_countP, List.countP_map]
  refine List.countP_congr fun a _ => ?_
  simp [Function.comp]

theorem mem_unitsIn {A : List (Nat × Nat)} {n x : Nat} : x ∈ unitsIn A n ↔ (n, x) ∈ A := by
  unfold unitsIn
  simp only [List.mem_map, List.mem_filter, decide_eq_true_eq]
  constructor
  · rintro ⟨a, ⟨h1, h2⟩, h3⟩
    rw [← h2, ← h3]
    exact h1
  · intro h
    exact ⟨(n, x), ⟨h, rfl⟩, rfl⟩

theorem map_snd_zip_take : ∀ (a b : List Nat), (a.zip b).map (·.2) = b.take a.length
  | [], b => by simp
  | _ :: _, [] => rfl
  | x :: a, y :: b => by
    rw [List.zip_cons_cons, List.map_cons, map_snd_zip_take a b]
    rfl

/-- All that is needed: the part with the odd capacitors, and the part in opposite pairs. -/
theorem place_spec (k : List Nat) {r s : Nat} (hr : 0 < r) (hs : 0 < s) (dummy : Bool) (h : k.sum ≤ r * s) :
    ∃ B1 B2 : List (Nat × Nat), place k r s dummy = some (B1 ++ B2) ∧ ((B1 ++ B2).map (·.2)).Sublist (flat (caps r s dummy))
      ∧ (∀ n, (B1.map (·.1)).count n = k.getD n 0 % 2) ∧ (∀ n, (B2.map (·.1)).count n = 2 * (k.getD n 0 / 2))
      ∧ ∀ a ∈ B2, ∃ y, y ≠ a.2 ∧ Opposite (full r dummy) (full s dummy) a.2 y ∧ (a.1, y) ∈ B2 := by
  obtain ⟨hC, hlen⟩ := caps_spec hr hs dummy
  obtain ⟨⟨c, Q, hCQ, hQ⟩, hnd, hmem⟩ := hC
  obtain ⟨u, M, hN, hM, hperm⟩ := netSeq_spec k
  generalize hS : genS k (evenOf k) ++ genS k (oddOf k) = S at *
  have hself : ∀ p ∈ S, p.2 = some p.1 := by
    rw [← hS]
    intro p hp
    rcases List.mem_append.1 hp with e | e
    · exact genS_self k _ p e
    · exact genS_self k _ p e
  have hSs : ∀ p ∈ S, p.2.isSome = true := fun p hp => by rw [hself p hp]; rfl
  have hQs : ∀ p ∈ Q, p.2.isSome = true := fun p hp => by
    obtain ⟨d, hd, _⟩ := hQ p hp
    rw [hd]; rfl
  have hMS : ∀ p ∈ M ++ S, p.2.isSome = true := fun p hp => (List.mem_append.1 hp).elim (hM p) (hSs p)
  have hc1 : ∀ n, (u.toList ++ flat M).count n = k.getD n 0 % 2 := fun n => by rw [hperm.count_eq, mixed_count]
  have hc2 : ∀ n, (flat S).count n = 2 * (k.getD n 0 / 2) := fun n => by rw [← hS, same_count]
  have hsum : (u.toList ++ flat M ++ flat S).length = k.sum := by
    rw [length_count k.length, ← sum_getD k]
    · congr 1
      refine List.map_congr_left fun i _ => ?_
      rw [List.count_append, hc1, hc2]
      omega
    · intro x hx
      by_contra hlt
      have h0 : k.getD x 0 = 0 := by
        rw [List.getD_eq_getElem?_getD, List.getElem?_eq_none (by omega)]; rfl
      have h1 := List.count_pos_iff.2 hx
      rw [List.count_append, hc1, hc2, h0] at h1
      omega
  have hcl : (flat (caps r s dummy)).length = c.toList.length + 2 * Q.length := by
    rw [hCQ, flat_append, flat_single, List.length_append, flat_length hQs]
  have hul : (u.toList ++ flat M ++ flat S).length = u.toList.length + 2 * (M ++ S).length := by
    rw [List.append_assoc, ← flat_append, List.length_append, flat_length hMS]
  obtain ⟨w, Q2, hw, hQ2, hlQ, hsub, has⟩ := assign_spec (u := u) (c := c) (N := M ++ S) (Q := Q) hMS hQs (by omega)
  have hQ2s : ∀ p ∈ Q2, p.2.isSome = true := fun p hp => hQs p (hQ2 p hp)
  have hwl : w.toList.length = u.toList.length := by
    cases w <;> cases u <;> simp at hw <;> rfl
  have hl1 : (u.toList ++ flat M).length = (w.toList ++ flat (Q2.take M.length)).length := by
    rw [List.length_append, List.length_append, hwl, flat_length hM, flat_length fun p hp => hQ2s p (List.mem_of_mem_take hp), List.length_take,
      Nat.min_eq_left (by simp only [List.length_append] at hlQ; omega)]
  have hl2 : (flat S).length ≤ (flat (Q2.drop M.length)).length := by
    rw [flat_length hSs, flat_length fun p hp => hQ2s p (List.mem_of_mem_drop hp), List.length_drop]
    simp only [List.length_append] at hlQ
    omega
  have hsplit : (u.toList ++ flat (M ++ S)).zip (w.toList ++ flat Q2)
      = (u.toList ++ flat M).zip (w.toList ++ flat (Q2.take M.length)) ++ (flat S).zip (flat (Q2.drop M.length)) := by
    rw [flat_append, ← flat_take Q2 M.length, ← List.append_assoc, ← List.append_assoc, List.zip_append hl1]
  refine ⟨(u.toList ++ flat M).zip (w.toList ++ flat (Q2.take M.length)), (flat S).zip (flat (Q2.drop M.length)), ?_, ?_, ?_, ?_, ?_⟩
  · unfold place
    rw [hN, hCQ, List.append_assoc, has, hsplit]
  · rw [← hsplit, hCQ]
    refine List.Sublist.trans ?_ hsub
    have : (((u.toList ++ flat (M ++ S)).zip (w.toList ++ flat Q2)).map (·.2)) = (w.toList ++ flat Q2).take (u.toList ++ flat (M ++ S)).length := by
      exact map_snd_zip_take _ _
    rw [this]
    exact List.take_sublist _ _
  · intro n
    rw [show ((·.1) : Nat × Nat → Nat) = Prod.fst from rfl, List.map_fst_zip (by omega), hc1]
  · intro n
    rw [show ((·.1) : Nat × Nat → Nat) = Prod.fst from rfl, List.map_fst_zip hl2, hc2]
  · refine self_spec hself (fun p hp => hQ p (hQ2 p (List.mem_of_mem_drop hp))) ?_
    rw [hCQ] at hnd
    refine hnd.sublist (List.Sublist.trans ?_ hsub)
    rw [← flat_take Q2 M.length]
    exact (List.sublist_append_right _ _).trans (List.sublist_append_right _ _)

/-! ## The theorems -/

/-- C128: every capacitor gets as many units as it is asked to have, no unit is given twice, all of them are in the array, and with a border of
dummies none is in the border. -/
theorem C128_units (k : List Nat) {r s : Nat} (hr : 0 < r) (hs : 0 < s) (dummy : Bool) (h : k.sum ≤ r * s) :
    ∃ A, place k r s dummy = some A ∧ (A.map (·.2)).Nodup ∧ (∀ n, (unitsIn A n).length = k.getD n 0)
      ∧ ∀ a ∈ A, a.1 < k.length ∧ Usable (full r dummy) (full s dummy) a.2 dummy := by
  obtain ⟨B1, B2, hp, hsub, h1, h2, _⟩ := place_spec k hr hs dummy h
  have hC := (caps_spec hr hs dummy).1
  have hcnt : ∀ n, ((B1 ++ B2).map (·.1)).count n = k.getD n 0 := fun n => by
    rw [List.map_append, List.count_append, h1, h2]; omega
  refine ⟨_, hp, hC.nodup.sublist hsub, fun n => by rw [unitsIn_length, hcnt], fun a ha => ⟨?_, ?_⟩⟩
  · by_contra hlt
    have h0 : k.getD a.1 0 = 0 := by
      rw [List.getD_eq_getElem?_getD, List.getElem?_eq_none (by omega)]; rfl
    have := List.count_pos_iff.2 (List.mem_map_of_mem (f := (·.1)) ha)
    rw [hcnt, h0] at this
    omega
  · obtain ⟨m1, m2⟩ := (hC.mem a.2).1 (hsub.subset (List.mem_map_of_mem (f := (·.2)) ha))
    have hs' : 0 < full s dummy := by unfold full; split <;> omega
    refine ⟨(Nat.div_lt_iff_lt_mul hs').2 m1, fun hd => ?_⟩
    have := m2 hd
    unfold full at m1 ⊢
    rw [if_pos hd, if_pos hd] at m1
    rw [if_pos hd, if_pos hd]
    exact (inside_iff (by omega) m1).1 this

/-- C128: so it is for the array whose size is found by the code. -/
theorem C128_auto (k : List Nat) (dummy : Bool) (h : 0 < k.sum) :
    ∃ A, place k (autoR k.sum) (autoS k.sum) dummy = some A ∧ (A.map (·.2)).Nodup ∧ ∀ n, (unitsIn A n).length = k.getD n 0 := by
  have hr : 0 < autoR k.sum := by
    unfold autoR
    split
    · exact Nat.sqrt_pos.2 h
    · omega
  have hs : 0 < autoS k.sum := by
    unfold autoS
    exact Nat.div_pos (by omega) hr
  have hle : k.sum ≤ autoR k.sum * autoS k.sum := by
    unfold autoS
    have h1 := Nat.div_add_mod (k.sum + (autoR k.sum - 1)) (autoR k.sum)
    have h2 := Nat.mod_lt (k.sum + (autoR k.sum - 1)) hr
    omega
  obtain ⟨A, a1, a2, a3, _⟩ := C128_units k hr hs dummy hle
  exact ⟨A, a1, a2, a3⟩

/-- C129: the units of a capacitor with an even number of units are in pairs on opposite sides of the middle of the array. -/
theorem C129_even {k : List Nat} {r s : Nat} (hr : 0 < r) (hs : 0 < s) {dummy : Bool} (h : k.sum ≤ r * s) {A : List (Nat × Nat)}
    (hA : place k r s dummy = some A) {n : Nat} (hn : k.getD n 0 % 2 = 0) :
    ∀ x ∈ unitsIn A n, ∃ y ∈ unitsIn A n, y ≠ x ∧ Opposite (full r dummy) (full s dummy) x y := by
  obtain ⟨B1, B2, hp, _, h1, _, h3⟩ := place_spec k hr hs dummy h
  rw [hA] at hp
  rw [Option.some.inj hp]
  intro x hx
  rw [mem_unitsIn] at hx
  rcases List.mem_append.1 hx with e | e
  · have := List.count_pos_iff.2 (List.mem_map_of_mem (f := (·.1)) e)
    simp only [h1 n] at this
    omega
  · obtain ⟨y, y1, y2, y3⟩ := h3 _ e
    exact ⟨y, mem_unitsIn.2 (List.mem_append_right _ y3), y1, y2⟩

/-- C129: those of a capacitor with an odd number of units are so without one of them. -/
theorem C129_odd {k : List Nat} {r s : Nat} (hr : 0 < r) (hs : 0 < s) {dummy : Bool} (h : k.sum ≤ r * s) {A : List (Nat × Nat)}
    (hA : place k r s dummy = some A) {n : Nat} (hn : k.getD n 0 % 2 = 1) :
    ∃ z ∈ unitsIn A n, ∀ x ∈ unitsIn A n, x ≠ z → ∃ y ∈ unitsIn A n, y ≠ x ∧ y ≠ z ∧ Opposite (full r dummy) (full s dummy) x y := by
  obtain ⟨B1, B2, hp, hsub, h1, _, h3⟩ := place_spec k hr hs dummy h
  have hnd := (caps_spec hr hs dummy).1.nodup.sublist hsub
  rw [hA] at hp
  rw [Option.some.inj hp]
  have hc := h1 n
  rw [hn] at hc
  have hlen : (unitsIn B1 n).length = 1 := by rw [unitsIn_length, hc]
  obtain ⟨z, hz⟩ := List.length_eq_one_iff.1 hlen
  have hzB : (n, z) ∈ B1 := mem_unitsIn.1 (by rw [hz]; exact List.mem_singleton_self _)
  refine ⟨z, mem_unitsIn.2 (List.mem_append_left _ hzB), fun x hx hxz => ?_⟩
  rw [mem_unitsIn] at hx
  rcases List.mem_append.1 hx with e | e
  · have := mem_unitsIn.2 e
    rw [hz] at this
    exact absurd (List.mem_singleton.1 this) hxz
  · obtain ⟨y, y1, y2, y3⟩ := h3 _ e
    refine ⟨y, mem_unitsIn.2 (List.mem_append_right _ y3), y1, fun hyz => ?_, y2⟩
    rw [List.map_append] at hnd
    have hdis := (List.nodup_append.1 hnd).2.2
    exact hdis z (List.mem_map.2 ⟨_, hzB, rfl⟩) y (List.mem_map.2 ⟨_, y3, rfl⟩) hyz.symm

/-- Four, three and one units in an array of three by three: the middle is left over, and the odd units are opposite. -/
example : place [4, 3, 1] 3 3 false = some [(1, 3), (2, 5), (0, 1), (0, 7), (0, 0), (0, 8), (1, 2), (1, 6)] ∧ [4, 3, 1].sum ≤ 3 * 3 := by decide +kernel
/-- An array given by the user that is too small: the code reads beyond the end of its pairs. -/
example : place [2, 3] 2 2 false = none := by decide +kernel
example : (place [2, 3] 2 3 true).isSome = true ∧ autoR 5 = 3 ∧ autoS 5 = 2 := by decide +kernel

theorem ceil_spec {n r : Nat} (hr : 0 < r) : n ≤ r * ceilDiv n r ∧ r * ceilDiv n r < n + r := by
  unfold ceilDiv
  have h1 := Nat.div_add_mod (n + (r - 1)) r
  have h2 := Nat.mod_lt (n + (r - 1)) hr
  omega

theorem tries_spec {p : Nat → Nat → Bool} {n : Nat} (hn : 0 < n) : ∀ {r s a : Nat}, 0 < s → ∀ q ∈ tries p n r s a, 0 < q.1 ∧ 0 < q.2 ∧ n ≤ q.1 * q.2
  | 0, _, _, _ => fun q hq => absurd hq (by simp [tries])
  | r + 1, s, a, hs => by
    intro q hq
    unfold tries at hq
    by_cases ha : a = 0
    · rw [if_pos ha] at hq
      exact absurd hq (by simp)
    rw [if_neg ha] at hq
    have pos : ∀ m, 0 < m → 0 < ceilDiv n m := fun m hm => by
      have := (ceil_spec (n := n) hm).1
      by_contra h
      have h0 : ceilDiv n m = 0 := by omega
      rw [h0] at this
      omega
    by_cases hp : p (r + 1) s = true
    · rw [if_pos hp] at hq
      rcases List.mem_cons.1 hq with e | hq
      · rw [e]
        exact ⟨by omega, pos _ (by omega), (ceil_spec (by omega)).1⟩
      · rcases List.mem_cons.1 hq with e | hq
        · rw [e]
          refine ⟨pos _ hs, hs, ?_⟩
          have := (ceil_spec (n := n) hs).1
          simp only
          rw [Nat.mul_comm]
          exact this
        · exact tries_spec hn (by omega) q hq
    · rw [if_neg hp] at hq
      exact tries_spec hn (by omega) q hq

/-- The first shape is taken by one of the two loops. -/
theorem first_shape {n : Nat} (hn : 0 < n) : 0 < autoR n ∧ 0 < ceilDiv n (autoR n)
    ∧ ((autoR n * ceilDiv n (autoR n) ≠ n ∧ ceilDiv n (ceilDiv n (autoR n)) * ceilDiv n (autoR n) ≠ n)
      ∨ (autoR n * ceilDiv n (autoR n) = n ∧ ceilDiv n (ceilDiv n (autoR n)) * ceilDiv n (autoR n) = n)) := by
  have hr : 0 < autoR n := by
    unfold autoR
    split
    · exact Nat.sqrt_pos.2 hn
    · omega
  have hlow : (autoR n - 1) * (autoR n - 1) < n ∧ n ≤ autoR n * autoR n := by
    have h1 := Nat.sqrt_le n
    have h2 := Nat.lt_succ_sqrt n
    unfold autoR at hr ⊢
    split
    · rename_i h
      rw [if_pos h] at hr
      refine ⟨?_, by omega⟩
      calc (Nat.sqrt n - 1) * (Nat.sqrt n - 1) ≤ (Nat.sqrt n - 1) * Nat.sqrt n := Nat.mul_le_mul_left _ (by omega)
        _ < Nat.sqrt n * Nat.sqrt n := Nat.mul_lt_mul_of_pos_right (by omega) hr
        _ = n := h
    · rename_i h
      exact ⟨by simp only [Nat.add_sub_cancel]; omega, Nat.le_of_lt h2⟩
  generalize autoR n = r at *
  obtain ⟨c1, c2⟩ := ceil_spec (n := n) hr
  generalize ceilDiv n r = s at *
  have hs : 0 < s := by
    by_contra h
    have h0 : s = 0 := by omega
    rw [h0] at c1
    omega
  obtain ⟨d1, d2⟩ := ceil_spec (n := n) hs
  generalize ceilDiv n s = q at *
  refine ⟨hr, hs, ?_⟩
  have hsr : s ≤ r := by
    by_contra h
    have h1 : r * (r + 1) ≤ r * s := Nat.mul_le_mul_left r (by omega)
    have h2 : r * (r + 1) = r * r + r := by ring
    omega
  have hc : s * r = r * s := Nat.mul_comm _ _
  have hq : q * s = s * q := Nat.mul_comm _ _
  by_cases he : r * s = n
  · right
    refine ⟨he, ?_⟩
    have : q ≤ r := by
      by_contra h
      have h1 : s * (r + 1) ≤ s * q := Nat.mul_le_mul_left s (by omega)
      have h2 : s * (r + 1) = s * r + s := by ring
      omega
    have h3 : s * q ≤ s * r := Nat.mul_le_mul_left s this
    omega
  · left
    refine ⟨he, fun h => ?_⟩
    have hqr : q ≤ r - 1 := by
      by_contra hlt
      have h1 : s * r ≤ s * q := Nat.mul_le_mul_left s (by omega)
      omega
    by_cases hs' : s ≤ r - 1
    · have h1 : q * s ≤ (r - 1) * (r - 1) := Nat.mul_le_mul hqr hs'
      omega
    · have hsr' : s = r := by omega
      have h1 : q * s ≤ (r - 1) * r := by rw [hsr']; exact Nat.mul_le_mul_right r hqr
      have h2 : r * (r - 1) + r = r * r := by
        have : r = (r - 1) + 1 := by omega
        calc r * (r - 1) + r = r * ((r - 1) + 1) := by ring
          _ = r * r := by rw [← this]
      have h3 : (r - 1) * r = r * (r - 1) := Nat.mul_comm _ _
      rw [hsr'] at c2
      omega

theorem tries_ne {p : Nat → Nat → Bool} {n r s a : Nat} (hr : 0 < r) (ha : 0 < a) (hp : p r s = true) : tries p n r s a ≠ [] := by
  obtain ⟨r', rfl⟩ : ∃ r', r = r' + 1 := ⟨r - 1, by omega⟩
  unfold tries
  rw [if_neg (by omega), if_pos hp]
  exact List.cons_ne_nil _ _

/-- C130: if other shapes are asked for, at least one array is made, and each of them, but for that of the user, has room for all units. -/
theorem C130_shapes (user : Option (Nat × Nat)) {n num : Nat} (hn : 0 < n) (hnum : 0 < num) :
    sizes user true n num ≠ [] ∧ ∀ q ∈ sizes user true n num, user = some q ∨ (0 < q.1 ∧ 0 < q.2 ∧ n ≤ q.1 * q.2) := by
  obtain ⟨hr, hs, hf⟩ := first_shape hn
  unfold sizes
  simp only [if_true]
  split
  · rename_i he
    have he' := List.isEmpty_iff.1 he
    rw [List.append_eq_nil_iff] at he'
    rcases hf with h | h
    · exact absurd he'.2 (tries_ne hr hnum (decide_eq_true h))
    · exact ⟨tries_ne hr hnum (decide_eq_true h), fun q hq => Or.inr (tries_spec hn hs q hq)⟩
  · rename_i he
    refine ⟨fun h => he (by rw [h]; rfl), fun q hq => ?_⟩
    rcases List.mem_append.1 hq with e | e
    · exact Or.inl (Option.mem_toList.1 e)
    · exact Or.inr (tries_spec hn hs q e)

/-- C130: so all of them get all the units. -/
theorem C130_units (k : List Nat) {num : Nat} (h : 0 < k.sum) (dummy : Bool) (hnum : 0 < num) :
    ∀ q ∈ sizes none true k.sum num, ∃ A, place k q.1 q.2 dummy = some A ∧ ∀ n, (unitsIn A n).length = k.getD n 0 := by
  intro q hq
  obtain ⟨h1, h2, h3⟩ := ((C130_shapes none h hnum).2 q hq).resolve_left (by simp)
  obtain ⟨A, a1, _, a3, _⟩ := C128_units k h1 h2 dummy h3
  exact ⟨A, a1, a3⟩

example : sizes none true 5 6 = [(3, 2), (3, 2), (2, 3), (2, 3)] ∧ sizes none true 6 2 = [(3, 2), (3, 2)] ∧ sizes (some (2, 2)) true 3 2 = [(2, 2), (2, 2), (2, 2)] := by decide +kernel

end Verif.CapArray

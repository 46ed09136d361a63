import Verif.Cons.Model
import Mathlib.Tactic.Linarith
import Mathlib.Tactic.Push
import Mathlib.Data.List.Chain
import Mathlib.Data.List.Nodup
import Mathlib.Algebra.Order.Ring.Rat
import Mathlib.Algebra.Order.Field.Basic
import Mathlib.Tactic.NormNum
import Mathlib.Tactic.FieldSimp
import Mathlib.Tactic.Ring

/-!
# C38, C39: what the emitted formulas mean

The documented meanings are stated below about lists of boxes, without reference to the model.
-/

namespace Verif.Cons

/-! ## Documented meanings -/

section Spec

variable {α : Type}

/-- A box whose corners are in the right order. -/
def Proper [LE α] (b : Box α) : Prop := b.llx ≤ b.urx ∧ b.lly ≤ b.ury

/-- The boxes stand in this order from left to right. -/
def LeftToRight [LE α] (bs : List (Box α)) : Prop := bs.Pairwise (fun a b => a.urx ≤ b.llx)

/-- The boxes stand in this order from bottom to top. -/
def BottomToTop [LE α] (bs : List (Box α)) : Prop := bs.Pairwise (fun a b => a.ury ≤ b.lly)

/-- The documented placement order (constraint.py:129-141), `none` being horizontal or vertical. -/
def Ordered [LE α] (bs : List (Box α)) : Option Dir → Prop
  | some .leftToRight => LeftToRight bs
  | some .rightToLeft => LeftToRight bs.reverse
  | some .bottomToTop => BottomToTop bs
  | some .topToBottom => BottomToTop bs.reverse
  | some .horizontal => LeftToRight bs ∨ LeftToRight bs.reverse
  | some .vertical => BottomToTop bs ∨ BottomToTop bs.reverse
  | none => (LeftToRight bs ∨ LeftToRight bs.reverse) ∨ (BottomToTop bs ∨ BottomToTop bs.reverse)

/-- Each box touches the next one: its right side is the left side of the next (or vice versa, or
in the other axis), as the direction says. -/
def Touching (bs : List (Box α)) : Dir → Prop
  | .leftToRight => List.IsChain (fun a b => a.urx = b.llx) bs
  | .rightToLeft => List.IsChain (fun a b => b.urx = a.llx) bs
  | .bottomToTop => List.IsChain (fun a b => a.ury = b.lly) bs
  | .topToBottom => List.IsChain (fun a b => b.ury = a.lly) bs
  | .horizontal => List.IsChain (fun a b => a.urx = b.llx ∨ b.urx = a.llx) bs
  | .vertical => List.IsChain (fun a b => a.ury = b.lly ∨ b.ury = a.lly) bs

/-- A direction with a sense. -/
def Directed : Dir → Prop
  | .horizontal => False
  | .vertical => False
  | _ => True

/-- The documented alignment on a side of the boxes (constraint.py:215-231). -/
def AlignedSide (bs : List (Box α)) : Line → Prop
  | .hTop => ∃ c, ∀ b ∈ bs, b.ury = c
  | .hBottom => ∃ c, ∀ b ∈ bs, b.lly = c
  | .vLeft => ∃ c, ∀ b ∈ bs, b.llx = c
  | .vRight => ∃ c, ∀ b ∈ bs, b.urx = c
  | _ => False

/-- `line` is one of the four sides. -/
def IsSide : Line → Prop
  | .hTop => True
  | .hBottom => True
  | .vLeft => True
  | .vRight => True
  | _ => False

end Spec

/-- The centers of the boxes are on a common line perpendicular to the axis. -/
def AlignedCenter (bs : List (Box ℚ)) (c : Axis) : Prop :=
  ∃ m, ∀ b ∈ bs, (b.ll c + b.ur c) / 2 = m

/-- The interiors of two boxes have a point in common. -/
def Overlap (a b : Box ℚ) : Prop :=
  ∃ x y, a.llx < x ∧ x < a.urx ∧ b.llx < x ∧ x < b.urx ∧
    a.lly < y ∧ y < a.ury ∧ b.lly < y ∧ y < b.ury

/-- The projections of the boxes on the axis overlap. -/
def Facing (a b : Box ℚ) (c : Axis) : Prop :=
  ∃ t, a.ll c < t ∧ t < a.ur c ∧ b.ll c < t ∧ t < b.ur c

/-- The documented meaning of `Spread` (constraint.py:299-300): any two of the boxes which overlap
in the orthogonal direction have at least the given spacing along the axis. -/
def SpreadDoc (bs : List (Box ℚ)) (axis : Axis) (d : ℚ) : Prop :=
  bs.Pairwise (fun a b => Facing a b axis.orth →
    a.ur axis + d ≤ b.ll axis ∨ b.ur axis + d ≤ a.ll axis)

/-- The center of a box on an axis. -/
def center (b : Box ℚ) (c : Axis) : ℚ := (b.ll c + b.ur c) / 2

/-- The documented meaning of `SymmetricBlocks`, with the tolerance stated in constraint.py:1017-1018:
there is a symmetry line such that single blocks are centered on it, and the two blocks of a pair
lie symmetrically to it, at most a quarter of the height of either apart along the line. -/
def SymmetricDoc (pairs : List (List (Box ℚ))) (axis : Axis) : Prop :=
  ∃ line : ℚ, ∀ p ∈ pairs, (∃ b, p = [b] ∧ center b axis = line) ∨
    ∃ b0 b1, p = [b0, b1] ∧ (center b0 axis + center b1 axis) / 2 = line ∧
      |center b0 axis.orth - center b1 axis.orth| ≤ (b0.ur axis.orth - b0.ll axis.orth) / 4 ∧
      |center b0 axis.orth - center b1 axis.orth| ≤ (b1.ur axis.orth - b1.ll axis.orth) / 4

/-- The formulas of the constraint are emitted and hold. -/
def Satisfied (names : List String) (β : String → Box Int) (bb : Box Int) (c : Cons) : Prop :=
  ∃ fs, translate names β bb c = some fs ∧ ∀ f ∈ fs, f = true

/-! ## Lists -/

theorem mem_pairwise_iff {α : Type} (R : α → α → Prop) (l : List α) :
    (∀ p ∈ pairwise l, R p.1 p.2) ↔ List.IsChain R l := by
  induction l with
  | nil => simp [pairwise]
  | cons a l ih =>
    cases l with
    | nil => simp [pairwise]
    | cons b l =>
      simp only [pairwise, List.tail_cons, List.zip_cons_cons, List.mem_cons, forall_eq_or_imp,
        List.isChain_cons_cons] at ih ⊢
      rw [← ih]

theorem mem_combinations2_iff {α : Type} (R : α → α → Prop) (l : List α) :
    (∀ p ∈ combinations2 l, R p.1 p.2) ↔ l.Pairwise R := by
  induction l with
  | nil => simp [combinations2]
  | cons a l ih =>
    simp only [combinations2, List.mem_append, List.pairwise_cons]
    rw [← ih]
    constructor
    · intro h
      exact ⟨fun b hb => h (a, b) (Or.inl (List.mem_map.2 ⟨b, hb, rfl⟩)),
        fun p hp => h p (Or.inr hp)⟩
    · rintro ⟨h1, h2⟩ p (hp | hp)
      · obtain ⟨b, hb, rfl⟩ := List.mem_map.1 hp
        exact h1 b hb
      · exact h2 p hp

/-- A chain of a relation which composes over the middle element is pairwise related. -/
theorem chain_pairwise {α : Type} {R : α → α → Prop} {P : α → Prop}
    (htr : ∀ a b c, P b → R a b → R b c → R a c) :
    ∀ {l : List α}, (∀ a ∈ l, P a) → List.IsChain R l → l.Pairwise R
  | [], _, _ => List.Pairwise.nil
  | [a], _, _ => by simp
  | a :: b :: l, hP, h => by
    rw [List.isChain_cons_cons] at h
    have ih : (b :: l).Pairwise R := chain_pairwise htr (fun x hx => hP x (by simp [hx])) h.2
    refine List.Pairwise.cons ?_ ih
    intro c hc
    rcases List.mem_cons.1 hc with rfl | hc
    · exact h.1
    · exact htr a b c (hP b (by simp)) h.1 ((List.pairwise_cons.1 ih).1 c hc)

theorem isChain_congr {α : Type} {R S : α → α → Prop} {l : List α}
    (h : ∀ a ∈ l, ∀ b ∈ l, R a b ↔ S a b) : List.IsChain R l ↔ List.IsChain S l := by
  induction l with
  | nil => simp
  | cons a l ih =>
    cases l with
    | nil => simp
    | cons b l =>
      rw [List.isChain_cons_cons, List.isChain_cons_cons,
        ih (fun x hx y hy => h x (by simp [hx]) y (by simp [hy])), h a (by simp) b (by simp)]

/-! ## C38: `Order` -/

theorem orderCc_iff (abut : Bool) (b1 b2 : Box Int) (c : Axis) :
    orderCc abut b1 b2 c = true ↔ b1.ur c ≤ b2.ll c ∧ (abut = true → b1.ur c = b2.ll c) := by
  unfold orderCc
  cases abut <;> simp
  intro h
  exact le_of_eq h

theorem satisfied_order (names : List String) (β : String → Box Int) (bb : Box Int)
    (is : List String) (d : Option Dir) (abut : Bool) :
    Satisfied names β bb (.order is d abut) ↔
      List.IsChain (fun a b => orderFormula d abut a b = true) (is.map β) := by
  rw [← mem_pairwise_iff]
  simp only [Satisfied, translate, isUser, translateHard, Bool.false_eq_true, if_false,
    Option.some.injEq]
  constructor
  · rintro ⟨fs, rfl, h⟩ p hp
    exact h _ (List.mem_map.2 ⟨p, hp, rfl⟩)
  · intro h
    refine ⟨_, rfl, ?_⟩
    intro f hf
    obtain ⟨p, hp, rfl⟩ := List.mem_map.1 hf
    exact h p hp

theorem isChain_and {α : Type} {R S : α → α → Prop} {l : List α} :
    List.IsChain (fun a b => R a b ∧ S a b) l ↔ List.IsChain R l ∧ List.IsChain S l := by
  rw [← mem_pairwise_iff, ← mem_pairwise_iff, ← mem_pairwise_iff]
  exact ⟨fun h => ⟨fun p hp => (h p hp).1, fun p hp => (h p hp).2⟩,
    fun h p hp => ⟨h.1 p hp, h.2 p hp⟩⟩

theorem isChain_imp_iff {α : Type} {S : α → α → Prop} {l : List α} {p : Prop} :
    List.IsChain (fun a b => p → S a b) l ↔ (p → List.IsChain S l) := by
  rw [← mem_pairwise_iff, ← mem_pairwise_iff]
  exact ⟨fun h hp q hq => h q hq hp, fun h q hq hp => h hp q hq⟩

/-- A directed `Order` is satisfied exactly when the boxes stand, all of them and not only
neighbours, in the documented order, and with `abut` neighbours touch. -/
theorem C38_order_directed (names : List String) (β : String → Box Int) (bb : Box Int)
    (is : List String) (d : Dir) (abut : Bool) (hd : Directed d) (hp : ∀ i ∈ is, Proper (β i)) :
    Satisfied names β bb (.order is (some d) abut) ↔
      Ordered (is.map β) (some d) ∧ (abut = true → Touching (is.map β) d) := by
  have hp' : ∀ b ∈ is.map β, Proper b := by
    intro b hb
    obtain ⟨i, hi, rfl⟩ := List.mem_map.1 hb
    exact hp i hi
  have key : ∀ (R : Box Int → Box Int → Prop),
      (∀ a b c : Box Int, Proper b → R a b → R b c → R a c) →
      (List.IsChain R (is.map β) ↔ (is.map β).Pairwise R) := by
    intro R htr
    exact ⟨fun h => chain_pairwise htr hp' h, fun h => h.isChain⟩
  rw [satisfied_order]
  cases d with
  | horizontal => exact hd.elim
  | vertical => exact hd.elim
  | leftToRight =>
    simp only [orderFormula, orderCc_iff, isChain_and, isChain_imp_iff, Ordered, LeftToRight,
      Touching, Box.ll, Box.ur]
    rw [key]
    intro a b c hb h1 h2
    exact h1.trans (hb.1.trans h2)
  | rightToLeft =>
    simp only [orderFormula, orderCc_iff, isChain_and, isChain_imp_iff, Ordered, LeftToRight,
      Touching, Box.ll, Box.ur, List.pairwise_reverse]
    rw [key]
    intro a b c hb h1 h2
    exact h2.trans (hb.1.trans h1)
  | bottomToTop =>
    simp only [orderFormula, orderCc_iff, isChain_and, isChain_imp_iff, Ordered, BottomToTop,
      Touching, Box.ll, Box.ur]
    rw [key]
    intro a b c hb h1 h2
    exact h1.trans (hb.2.trans h2)
  | topToBottom =>
    simp only [orderFormula, orderCc_iff, isChain_and, isChain_imp_iff, Ordered, BottomToTop,
      Touching, Box.ll, Box.ur, List.pairwise_reverse]
    rw [key]
    intro a b c hb h1 h2
    exact h2.trans (hb.2.trans h1)

/-- Without a sense (or a direction at all) the documented order satisfies the formulas, and for
two instances the formulas mean the documented order.  Missing for longer lists: the converse, see
`C38_violated_order_undirected`. -/
theorem C38_order_undirected_partial (names : List String) (β : String → Box Int) (bb : Box Int)
    (is : List String) (d : Option Dir) :
    (Ordered (is.map β) d → Satisfied names β bb (.order is d false)) ∧
    (∀ i j, is = [i, j] →
      (Satisfied names β bb (.order is d false) ↔ Ordered (is.map β) d)) := by
  constructor
  · rw [satisfied_order]
    have hor : ∀ {p : Prop}, (false = true → p) ↔ True := by simp
    rcases d with _ | d
    · simp only [orderFormula, Bool.or_eq_true, orderCc_iff, hor, and_true, Ordered, LeftToRight,
        BottomToTop, Box.ll, Box.ur, List.pairwise_reverse]
      rintro ((h | h) | (h | h)) <;> refine List.IsChain.imp ?_ h.isChain <;>
        intro a b h <;> simp [h]
    · cases d <;>
      simp only [orderFormula, Bool.or_eq_true, orderCc_iff, hor, and_true, Ordered, LeftToRight,
        BottomToTop, Box.ll, Box.ur, List.pairwise_reverse]
      case horizontal =>
        rintro (h | h) <;> refine List.IsChain.imp ?_ h.isChain <;> intro a b h <;> simp [h]
      case vertical =>
        rintro (h | h) <;> refine List.IsChain.imp ?_ h.isChain <;> intro a b h <;> simp [h]
      all_goals exact fun h => h.isChain
  · rintro i j rfl
    rw [satisfied_order]
    rcases d with _ | d
    · simp [orderFormula, orderCc_iff, Ordered, LeftToRight, BottomToTop, Box.ll, Box.ur,
        or_assoc]
    · cases d <;>
      simp [orderFormula, orderCc_iff, Ordered, LeftToRight, BottomToTop, Box.ll, Box.ur]

/-- Boxes for the examples: `A`, `B`, `C` in a row, `B` last. -/
def rowABC (n : String) : Box Int :=
  if n = "A" then ⟨0, 0, 10, 10⟩ else if n = "B" then ⟨30, 0, 40, 10⟩ else ⟨15, 0, 25, 10⟩

/-- A `'horizontal'` order is documented as left to right or vice versa, but the formulas accept
boxes where the middle instance stands at the right end. -/
theorem C38_violated_order_undirected :
    Satisfied ["A", "B", "C"] rowABC ⟨0, 0, 40, 10⟩ (.order ["A", "B", "C"] (some .horizontal) false)
      ∧ ¬ Ordered (["A", "B", "C"].map rowABC) (some .horizontal) := by
  constructor
  · exact ⟨_, rfl, by decide⟩
  · simp [Ordered, LeftToRight, rowABC]

example : Satisfied ["A", "C", "B"] rowABC ⟨0, 0, 40, 10⟩
    (.order ["A", "C", "B"] (some .leftToRight) false) ∧
    ∀ i ∈ ["A", "C", "B"], Proper (rowABC i) := by
  constructor
  · exact ⟨_, rfl, by decide⟩
  · intro i hi
    simp only [List.mem_cons, List.not_mem_nil, or_false] at hi
    rcases hi with rfl | rfl | rfl <;> exact ⟨by decide, by decide⟩

/-! ## C38: `Align` -/

theorem satisfied_align (names : List String) (β : String → Box Int) (bb : Box Int)
    (is : List String) (l : Option Line) :
    Satisfied names β bb (.align is l) ↔
      List.IsChain (fun a b => alignFormula l a b = true) (is.map β) := by
  rw [← mem_pairwise_iff]
  simp only [Satisfied, translate, isUser, translateHard, Bool.false_eq_true, if_false,
    Option.some.injEq]
  constructor
  · rintro ⟨fs, rfl, h⟩ p hp
    exact h _ (List.mem_map.2 ⟨p, hp, rfl⟩)
  · intro h
    refine ⟨_, rfl, ?_⟩
    intro f hf
    obtain ⟨p, hp, rfl⟩ := List.mem_map.1 hf
    exact h p hp

/-- Neighbours have the same value of `f` exactly when all have. -/
theorem chain_eq_iff {α γ : Type} [Inhabited γ] (f : α → γ) (l : List α) :
    List.IsChain (fun a b => f a = f b) l ↔ ∃ c, ∀ a ∈ l, f a = c := by
  constructor
  · intro h
    cases l with
    | nil => exact ⟨default, by simp⟩
    | cons a l =>
      refine ⟨f a, ?_⟩
      have hp := chain_pairwise (P := fun _ => True) (R := fun a b => f a = f b)
        (fun a b c _ h1 h2 => h1.trans h2) (fun _ _ => trivial) h
      intro b hb
      rcases List.mem_cons.1 hb with rfl | hb
      · rfl
      · exact ((List.pairwise_cons.1 hp).1 b hb).symm
  · rintro ⟨c, h⟩
    have : l.Pairwise (fun a b => f a = f b) := by
      rw [List.pairwise_iff_forall_sublist]
      intro a b hs
      have ha := h a (hs.subset (by simp))
      have hb := h b (hs.subset (by simp))
      rw [ha, hb]
    exact this.isChain

/-- Alignment on a side is satisfied exactly when this side of all the boxes is at the same
coordinate. -/
theorem C38_align_side (names : List String) (β : String → Box Int) (bb : Box Int)
    (is : List String) (l : Line) (hl : IsSide l) :
    Satisfied names β bb (.align is (some l)) ↔ AlignedSide (is.map β) l := by
  rw [satisfied_align]
  cases l <;> first
    | exact hl.elim
    | (simp only [alignFormula, beq_iff_eq, AlignedSide]
       first
        | exact chain_eq_iff (fun b : Box Int => b.ury) _
        | exact chain_eq_iff (fun b : Box Int => b.lly) _
        | exact chain_eq_iff (fun b : Box Int => b.llx) _
        | exact chain_eq_iff (fun b : Box Int => b.urx) _)

/-- The axis on which the centers agree. -/
def centerAxis : Line → Option Axis
  | .hCenter => some .y
  | .vCenter => some .x
  | _ => none

theorem satisfied_center (names : List String) (β : String → Box Int) (bb : Box Int)
    (is : List String) (l : Line) (c : Axis) (hl : centerAxis l = some c) :
    Satisfied names β bb (.align is (some l)) ↔
      ∃ m : Int, ∀ i ∈ is, ((β i).ll c + (β i).ur c) / 2 = m := by
  rw [satisfied_align]
  have h := fun f : Box Int → Int => chain_eq_iff f (is.map β)
  cases l <;> simp only [centerAxis, Option.some.injEq, reduceCtorEq] at hl <;> subst hl <;>
    simp only [alignFormula, beq_iff_eq]
  · rw [h fun b : Box Int => (b.lly + b.ury) / 2]
    simp [Box.ll, Box.ur]
  · rw [h fun b : Box Int => (b.llx + b.urx) / 2]
    simp [Box.ll, Box.ur]

/-- Alignment of centers: boxes with centers on a common line satisfy the formulas, and the
formulas keep all the centers within half a unit.  Missing: that the centers are on a common line,
see `C38_violated_align_center`. -/
theorem C38_align_center_partial (names : List String) (β : String → Box Int) (bb : Box Int)
    (is : List String) (l : Line) (c : Axis) (hl : centerAxis l = some c) :
    (AlignedCenter (is.map (fun i => (β i).toQ)) c → Satisfied names β bb (.align is (some l))) ∧
    (Satisfied names β bb (.align is (some l)) →
      ∀ i ∈ is, ∀ j ∈ is, |center (β i).toQ c - center (β j).toQ c| ≤ 1 / 2) := by
  rw [satisfied_center names β bb is l c hl]
  have hq : ∀ i, (β i).toQ.ll c + (β i).toQ.ur c = (((β i).ll c + (β i).ur c : Int) : ℚ) := by
    intro i
    cases c <;> simp [Box.toQ, Box.ll, Box.ur]
  constructor
  · rintro ⟨m, h⟩
    have h' : ∀ i ∈ is, ((((β i).ll c + (β i).ur c : Int) : ℚ)) = 2 * m := by
      intro i hi
      have := h _ (List.mem_map.2 ⟨i, hi, rfl⟩)
      simp only [hq] at this
      linarith
    cases is with
    | nil => exact ⟨0, by simp⟩
    | cons a is =>
      refine ⟨((β a).ll c + (β a).ur c) / 2, ?_⟩
      intro i hi
      have h1 := h' i hi
      have h2 := h' a (by simp)
      have : (β i).ll c + (β i).ur c = (β a).ll c + (β a).ur c := by
        exact_mod_cast h1.trans h2.symm
      rw [this]
  · rintro ⟨m, h⟩ i hi j hj
    have h1 := h i hi
    have h2 := h j hj
    simp only [center, hq]
    have e1 : 2 * m ≤ (β i).ll c + (β i).ur c ∧ (β i).ll c + (β i).ur c ≤ 2 * m + 1 := by omega
    have e2 : 2 * m ≤ (β j).ll c + (β j).ur c ∧ (β j).ll c + (β j).ur c ≤ 2 * m + 1 := by omega
    have d1 : ((β i).ll c + (β i).ur c) - ((β j).ll c + (β j).ur c) ≤ 1 := by omega
    have d2 : -1 ≤ ((β i).ll c + (β i).ur c) - ((β j).ll c + (β j).ur c) := by omega
    have d1' : ((((β i).ll c + (β i).ur c : Int) : ℚ)) - (((β j).ll c + (β j).ur c : Int) : ℚ) ≤ 1 := by
      exact_mod_cast d1
    have d2' : -1 ≤ ((((β i).ll c + (β i).ur c : Int) : ℚ)) - (((β j).ll c + (β j).ur c : Int) : ℚ) := by
      exact_mod_cast d2
    rw [abs_le]
    constructor <;> linarith

/-- Two boxes with centers half a unit apart. -/
def halfOff (n : String) : Box Int := if n = "A" then ⟨0, 0, 10, 10⟩ else ⟨20, 0, 30, 11⟩

/-- Centers on different lines are accepted: integer variables are divided with rounding. -/
theorem C38_violated_align_center :
    Satisfied ["A", "B"] halfOff ⟨0, 0, 30, 11⟩ (.align ["A", "B"] (some .hCenter)) ∧
      ¬ AlignedCenter (["A", "B"].map (fun i => (halfOff i).toQ)) .y := by
  constructor
  · exact ⟨_, rfl, by decide⟩
  · rintro ⟨m, h⟩
    have h1 := h _ (List.mem_map.2 ⟨"A", by simp, rfl⟩)
    have h2 := h _ (List.mem_map.2 ⟨"B", by simp, rfl⟩)
    simp only [halfOff, Box.toQ, Box.ll, Box.ur] at h1 h2
    simp only [if_true, show ("B" = "A") = False by decide, if_false] at h1 h2
    norm_num at h1 h2
    rw [← h1] at h2
    norm_num at h2

/-- A line perpendicular to the axis meets the box. -/
def Meets (b : Box Int) (c : Axis) (t : Int) : Prop := b.ll c ≤ t ∧ t ≤ b.ur c

/-- The axis of an alignment on any line. -/
def anyAxis : Line → Option Axis
  | .hAny => some .y
  | .vAny => some .x
  | _ => none

theorem within_iff (b1 b2 : Box Int) (c : Axis) :
    within b1 b2 c = true ↔ b2.ll c ≤ b1.ll c ∧ b1.ur c ≤ b2.ur c := by
  simp [within]

/-- Alignment of two boxes "anywhere": a common line meets both of them.  Missing for longer
lists: a line common to all, see `C38_violated_align_any`; and a common line is not enough. -/
theorem C38_align_any_partial (names : List String) (β : String → Box Int) (bb : Box Int)
    (i j : String) (l : Line) (c : Axis) (hl : anyAxis l = some c)
    (hi : Proper (β i)) (hj : Proper (β j))
    (h : Satisfied names β bb (.align [i, j] (some l))) :
    ∃ t, Meets (β i) c t ∧ Meets (β j) c t := by
  rw [satisfied_align] at h
  obtain ⟨hi1, hi2⟩ := hi
  obtain ⟨hj1, hj2⟩ := hj
  cases l <;> simp only [anyAxis, Option.some.injEq, reduceCtorEq] at hl <;> subst hl <;>
    simp only [alignFormula, List.map_cons, List.map_nil, List.isChain_cons_cons,
      List.isChain_singleton, and_true, Bool.or_eq_true, within_iff, Box.ll, Box.ur, Meets] at h ⊢
  · rcases h with h | h
    · exact ⟨(β i).lly, ⟨by omega, by omega⟩, by omega, by omega⟩
    · exact ⟨(β j).lly, ⟨by omega, by omega⟩, by omega, by omega⟩
  · rcases h with h | h
    · exact ⟨(β i).llx, ⟨by omega, by omega⟩, by omega, by omega⟩
    · exact ⟨(β j).llx, ⟨by omega, by omega⟩, by omega, by omega⟩

/-- A tall box and two small ones at its ends. -/
def tall (n : String) : Box Int :=
  if n = "A" then ⟨0, 0, 10, 10⟩ else if n = "B" then ⟨20, 0, 30, 100⟩ else ⟨40, 90, 50, 100⟩

/-- Three boxes may satisfy an `'h_any'` alignment although no horizontal line meets all three. -/
theorem C38_violated_align_any :
    Satisfied ["A", "B", "C"] tall ⟨0, 0, 50, 100⟩ (.align ["A", "B", "C"] (some .hAny)) ∧
      ¬ ∃ t, ∀ i ∈ ["A", "B", "C"], Meets (tall i) .y t := by
  constructor
  · exact ⟨_, rfl, by decide⟩
  · rintro ⟨t, h⟩
    have h1 := h "A" (by simp)
    have h2 := h "C" (by simp)
    simp [Meets, tall, Box.ll, Box.ur] at h1 h2
    omega

/-! ## C38: `Spread` -/

theorem satisfied_spread (names : List String) (β : String → Box Int) (bb : Box Int)
    (is : List String) (axis : Axis) (d : Int) :
    Satisfied names β bb (.spread is axis d) ↔
      (is.map β).Pairwise (fun a b => spreadFormula axis d a b = true) := by
  rw [← mem_combinations2_iff]
  simp only [Satisfied, translate, isUser, translateHard, Bool.false_eq_true, if_false,
    Option.some.injEq]
  constructor
  · rintro ⟨fs, rfl, h⟩ p hp
    exact h _ (List.mem_map.2 ⟨p, hp, rfl⟩)
  · intro h
    refine ⟨_, rfl, ?_⟩
    intro f hf
    obtain ⟨p, hp, rfl⟩ := List.mem_map.1 hf
    exact h p hp

theorem facing_iff (a b : Box Int) (c : Axis) (ha : a.ll c < a.ur c) (hb : b.ll c < b.ur c) :
    Facing a.toQ b.toQ c ↔ b.ll c < a.ur c ∧ a.ll c < b.ur c := by
  have e : ∀ x : Box Int, x.toQ.ll c = ((x.ll c : Int) : ℚ) ∧ x.toQ.ur c = ((x.ur c : Int) : ℚ) := by
    intro x
    cases c <;> simp [Box.toQ, Box.ll, Box.ur]
  simp only [Facing, e]
  constructor
  · rintro ⟨t, h1, h2, h3, h4⟩
    constructor
    · exact_mod_cast h3.trans h2
    · exact_mod_cast h1.trans h4
  · rintro ⟨h1, h2⟩
    have : max (a.ll c : ℚ) (b.ll c) < min (a.ur c : ℚ) (b.ur c) := by
      rw [lt_min_iff, max_lt_iff, max_lt_iff]
      exact ⟨⟨by exact_mod_cast ha, by exact_mod_cast h1⟩, by exact_mod_cast h2, by exact_mod_cast hb⟩
    obtain ⟨t, ht1, ht2⟩ := exists_between this
    rw [max_lt_iff] at ht1
    rw [lt_min_iff] at ht2
    exact ⟨t, ht1.1, ht2.1, ht1.2, ht2.2⟩

theorem spreadFormula_iff (axis : Axis) (d : Int) (a b : Box Int) :
    spreadFormula axis d a b = true ↔
      ((b.ll axis.orth < a.ur axis.orth ∧ a.ll axis.orth < b.ur axis.orth) →
        d ≤ |a.ll axis - b.ur axis| ∧ d ≤ |b.ll axis - a.ur axis|) := by
  have habs : ∀ e : Int, absZ e = |e| := by
    intro e
    unfold absZ
    split
    · rw [abs_of_nonneg ‹_›]
    · rw [abs_of_neg (by omega)]; omega
  simp only [spreadFormula, habs]
  simp only [Bool.or_eq_true, Bool.not_eq_true', Bool.and_eq_false_iff, decide_eq_false_iff_not,
    Bool.and_eq_true, decide_eq_true_eq]
  tauto

/-- Positive width and height. -/
def Solid (b : Box Int) : Prop := b.llx < b.urx ∧ b.lly < b.ury

theorem Solid.axis {b : Box Int} (h : Solid b) (c : Axis) : b.ll c < b.ur c := by
  cases c
  · exact h.1
  · exact h.2

/-- For boxes of positive size that do not overlap, the formulas of `Spread` mean the documented
spacing, and the documented spacing always satisfies them.  Missing: for overlapping boxes, see
`C38_violated_spread`. -/
theorem C38_spread_partial (names : List String) (β : String → Box Int) (bb : Box Int)
    (is : List String) (axis : Axis) (d : Int) (hs : ∀ i ∈ is, Solid (β i)) :
    (SpreadDoc (is.map (fun i => (β i).toQ)) axis d →
      Satisfied names β bb (.spread is axis d)) ∧
    ((is.map (fun i => (β i).toQ)).Pairwise (fun a b => ¬ Overlap a b) →
      Satisfied names β bb (.spread is axis d) →
      SpreadDoc (is.map (fun i => (β i).toQ)) axis d) := by
  rw [satisfied_spread]
  have e : ∀ (c : Axis) (x : Box Int),
      x.toQ.ll c = ((x.ll c : Int) : ℚ) ∧ x.toQ.ur c = ((x.ur c : Int) : ℚ) := by
    intro c x
    cases c <;> simp [Box.toQ, Box.ll, Box.ur]
  constructor
  · intro h
    simp only [SpreadDoc, List.pairwise_map] at h ⊢
    refine h.imp_of_mem ?_
    intro i j hi hj h
    rw [facing_iff _ _ _ ((hs i hi).axis _) ((hs j hj).axis _)] at h
    rw [spreadFormula_iff]
    intro hf
    have h := h hf
    simp only [e] at h
    have hi' := (hs i hi).axis axis
    have hj' := (hs j hj).axis axis
    have h' : (β i).ur axis + d ≤ (β j).ll axis ∨ (β j).ur axis + d ≤ (β i).ll axis := by
      exact_mod_cast h
    constructor
    · rw [le_abs]; omega
    · rw [le_abs]; omega
  · intro hno h
    simp only [SpreadDoc, List.pairwise_map] at hno h ⊢
    refine (hno.and h).imp_of_mem ?_
    intro i j hi hj ⟨hno, h⟩ hf
    rw [facing_iff _ _ _ ((hs i hi).axis _) ((hs j hj).axis _)] at hf
    have hi' := (hs i hi).axis axis
    have hj' := (hs j hj).axis axis
    rw [spreadFormula_iff] at h
    have h := h hf
    have hax : ¬ ((β j).ll axis < (β i).ur axis ∧ (β i).ll axis < (β j).ur axis) := by
      intro hax
      apply hno
      obtain ⟨t, ht⟩ := (facing_iff _ _ _ ((hs i hi).axis _) ((hs j hj).axis _)).2 hf
      obtain ⟨u, hu⟩ := (facing_iff _ _ _ hi' hj').2 hax
      cases axis
      · exact ⟨u, t, hu.1, hu.2.1, hu.2.2.1, hu.2.2.2, ht.1, ht.2.1, ht.2.2.1, ht.2.2.2⟩
      · exact ⟨t, u, ht.1, ht.2.1, ht.2.2.1, ht.2.2.2, hu.1, hu.2.1, hu.2.2.1, hu.2.2.2⟩
    simp only [e]
    have h' : (β i).ur axis + d ≤ (β j).ll axis ∨ (β j).ur axis + d ≤ (β i).ll axis := by
      rw [le_abs, le_abs] at h
      omega
    exact_mod_cast h'

/-- Two identical boxes. -/
def stacked (_ : String) : Box Int := ⟨0, 0, 500, 500⟩

/-- Boxes on top of each other satisfy a `Spread`, although they have no spacing. -/
theorem C38_violated_spread :
    Satisfied ["A", "B"] stacked ⟨0, 0, 500, 500⟩ (.spread ["A", "B"] .x 100) ∧
      ¬ SpreadDoc (["A", "B"].map (fun i => (stacked i).toQ)) .x 100 := by
  constructor
  · exact ⟨_, rfl, by decide⟩
  · intro h
    simp only [SpreadDoc, List.map_cons, List.map_nil, List.pairwise_cons, List.mem_cons,
      List.not_mem_nil, or_false, forall_eq] at h
    have := h.1 ⟨1, by norm_num [stacked, Box.toQ, Box.ll, Box.ur, Axis.orth]⟩
    norm_num [stacked, Box.toQ, Box.ll, Box.ur] at this

example : Satisfied ["A", "B"] halfOff ⟨0, 0, 30, 11⟩ (.spread ["A", "B"] .x 10) ∧
    Solid (halfOff "A") ∧ Solid (halfOff "B") :=
  ⟨⟨_, rfl, by decide⟩, ⟨by decide, by decide⟩, by decide, by decide⟩

/-! ## C38: `AspectRatio` and `Boundary` -/

/-- The documented ratio holds if the formulas hold, and a ratio in the documented range which is
not the upper limit satisfies them.  Missing: the upper limit, see `C38_violated_aspect_ratio`. -/
theorem C38_aspect_ratio_partial (names : List String) (β : String → Box Int) (bb : Box Int)
    (low high : ℚ) (hb : Solid bb) :
    (Satisfied names β bb (.aspectRatio low high) →
      low ≤ (bb.toQ.urx - bb.toQ.llx) / (bb.toQ.ury - bb.toQ.lly) ∧
        (bb.toQ.urx - bb.toQ.llx) / (bb.toQ.ury - bb.toQ.lly) ≤ high) ∧
    (low ≤ (bb.toQ.urx - bb.toQ.llx) / (bb.toQ.ury - bb.toQ.lly) →
      (bb.toQ.urx - bb.toQ.llx) / (bb.toQ.ury - bb.toQ.lly) < high →
      Satisfied names β bb (.aspectRatio low high)) := by
  have hh : (0 : ℚ) < (bb.ury : ℚ) - bb.lly := by
    have : (bb.lly : ℚ) < bb.ury := by exact_mod_cast hb.2
    linarith
  simp only [Satisfied, translate, isUser, translateHard, Bool.false_eq_true, if_false,
    Option.some.injEq, Box.toQ]
  constructor
  · rintro ⟨fs, rfl, h⟩
    simp only [List.mem_cons, List.not_mem_nil, or_false,
      forall_eq_or_imp, forall_eq, decide_eq_true_eq, Int.cast_sub] at h
    rw [le_div_iff₀ hh, div_le_iff₀ hh]
    exact ⟨h.1, h.2.le⟩
  · intro h1 h2
    rw [le_div_iff₀ hh] at h1
    rw [div_lt_iff₀ hh] at h2
    refine ⟨_, rfl, ?_⟩
    simp only [List.mem_cons, List.not_mem_nil, or_false,
      forall_eq_or_imp, forall_eq, decide_eq_true_eq, Int.cast_sub]
    exact ⟨h1, h2⟩

/-- A ratio equal to the upper limit is rejected, although the documentation allows it. -/
theorem C38_violated_aspect_ratio :
    ¬ Satisfied [] stacked ⟨0, 0, 20, 10⟩ (.aspectRatio 1 2) ∧
      (1 : ℚ) ≤ (20 - 0) / (10 - 0) ∧ (20 - 0) / (10 - 0) ≤ (2 : ℚ) := by
  refine ⟨?_, by norm_num, by norm_num⟩
  rintro ⟨fs, hf, h⟩
  simp only [translate, isUser, translateHard, Option.some.injEq, Bool.false_eq_true,
    if_false] at hf
  subst hf
  norm_num at h

/-- `Boundary`: the box is at most `max_width` by `max_height` micrometres (coordinates are
nanometres), and every instance keeps the halo, a whole number of nanometres, to the sides. -/
theorem C38_boundary (names : List String) (β : String → Box Int) (bb : Box Int)
    (w h hh hv : ℚ) (mh mv : Nat) (hh' : 1000 * hh = mh) (hv' : 1000 * hv = mv) :
    Satisfied names β bb (.boundary (some w) (some h) hh hv) ↔
      bb.toQ.urx - bb.toQ.llx ≤ 1000 * w ∧ bb.toQ.ury - bb.toQ.lly ≤ 1000 * h ∧
      ∀ i ∈ names, bb.toQ.llx + 1000 * hh ≤ (β i).toQ.llx ∧ (β i).toQ.urx + 1000 * hh ≤ bb.toQ.urx ∧
        bb.toQ.lly + 1000 * hv ≤ (β i).toQ.lly ∧ (β i).toQ.ury + 1000 * hv ≤ bb.toQ.ury := by
  have i1 : ∀ n : Nat, pyInt (n : ℚ) = n := by
    intro n
    unfold pyInt
    rw [if_pos (by exact_mod_cast Nat.zero_le n)]
    exact_mod_cast Rat.floor_intCast (n : Int)
  simp only [Satisfied, translate, isUser, translateHard, boundaryTranslate, Bool.false_eq_true,
    if_false, hh', hv', i1,
    Option.bind_eq_bind, Option.bind_some, Option.some.injEq, Box.toQ]
  have key : ∀ i, ((bb.llx + (mh : Int) ≤ (β i).llx) ↔ ((bb.llx : ℚ) + mh ≤ (β i).llx)) ∧
      (((β i).urx ≤ bb.urx - (mh : Int)) ↔ (((β i).urx : ℚ) + mh ≤ bb.urx)) ∧
      ((bb.lly + (mv : Int) ≤ (β i).lly) ↔ ((bb.lly : ℚ) + mv ≤ (β i).lly)) ∧
      (((β i).ury ≤ bb.ury - (mv : Int)) ↔ (((β i).ury : ℚ) + mv ≤ bb.ury)) := by
    intro i
    refine ⟨by exact_mod_cast Iff.rfl, ?_, by exact_mod_cast Iff.rfl, ?_⟩ <;>
      rw [le_sub_iff_add_le] <;> exact_mod_cast Iff.rfl
  constructor
  · rintro ⟨fs, rfl, hf⟩
    simp only [List.mem_append, List.mem_cons, List.not_mem_nil,
      or_false, List.mem_flatMap, or_imp, forall_and, forall_eq, decide_eq_true_eq,
      Int.cast_sub] at hf
    obtain ⟨⟨h1, h2⟩, h3⟩ := hf
    refine ⟨h1, h2, fun i hi => ?_⟩
    have g : ∀ b : Bool, b ∈ [decide (bb.llx + (mh : Int) ≤ (β i).llx),
        decide ((β i).urx ≤ bb.urx - (mh : Int)), decide (bb.lly + (mv : Int) ≤ (β i).lly),
        decide ((β i).ury ≤ bb.ury - (mv : Int))] → b = true := by
      intro b hb
      refine h3 b ⟨i, hi, ?_⟩
      simpa using hb
    simp only [List.mem_cons, List.not_mem_nil, or_false, forall_eq_or_imp, forall_eq,
      decide_eq_true_eq] at g
    obtain ⟨k1, k2, k3, k4⟩ := key i
    exact ⟨k1.1 g.1, k2.1 g.2.1, k3.1 g.2.2.1, k4.1 g.2.2.2⟩
  · rintro ⟨h1, h2, h3⟩
    refine ⟨_, rfl, ?_⟩
    intro b hb
    simp only [List.mem_append, List.mem_cons, List.not_mem_nil,
      or_false, List.mem_flatMap, Int.cast_sub] at hb
    rcases hb with (rfl | rfl) | ⟨i, hi, hb⟩
    · simpa using h1
    · simpa using h2
    · obtain ⟨g1, g2, g3, g4⟩ := h3 i hi
      obtain ⟨k1, k2, k3, k4⟩ := key i
      rcases hb with rfl | rfl | rfl | rfl
      · exact decide_eq_true (k1.2 g1)
      · exact decide_eq_true (k2.2 g2)
      · exact decide_eq_true (k3.2 g3)
      · exact decide_eq_true (k4.2 g4)

example : Satisfied ["A"] (fun _ => ⟨100, 100, 900, 900⟩) ⟨0, 0, 1000, 1000⟩
    (.boundary (some 1) (some 1) (1 / 10) (1 / 10)) ∧ (1000 * (1 / 10) : ℚ) = (100 : Nat) := by
  constructor
  · rw [C38_boundary _ _ _ _ _ _ _ 100 100 (by norm_num) (by norm_num)]
    norm_num [Box.toQ]
  · norm_num

end Verif.Cons

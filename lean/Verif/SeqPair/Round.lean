import Verif.SeqPair.Props
import Mathlib.Data.Rat.Floor
import Mathlib.Algebra.BigOperators.Group.List.Basic

/-!
# C29 (PlaceOnGrid) and C61: the placement extracted from a solution
-/

namespace Verif.SeqPair

open Verif.Cons (Cons Box Axis Dir Line expand pairwise combinations2 Overlap Ordered AlignedSide
  IsSide Directed SymmetricDoc OneOrTwo Touching)
open Verif.GridCons (Pog Term Sat along)
open Verif.Geometry (Transformation)

theorem pyRound_int (n : Int) : pyRound (n : ℚ) = n := by
  unfold pyRound
  have : ((n : ℚ).floor : Int) = n := by exact Rat.floor_intCast n
  rw [this]
  norm_num

/-- Variables which are 0 or 1 and of which the sum is 1: exactly one of them is 1. -/
theorem one_of_binary {α : Type} (v : α → ℚ) : ∀ (l : List α), (∀ a ∈ l, v a = 0 ∨ v a = 1) →
    (l.map v).sum = 1 → ∃ a ∈ l, v a = 1 ∧ ∀ g : α → ℚ, (l.map fun x => g x * v x).sum = g a := by
  have nonneg : ∀ l : List α, (∀ a ∈ l, v a = 0 ∨ v a = 1) → 0 ≤ (l.map v).sum := by
    intro l h
    induction l with
    | nil => simp
    | cons a l ih =>
      rw [List.map_cons, List.sum_cons]
      have := ih (fun x hx => h x (List.mem_cons_of_mem _ hx))
      rcases h a (by simp) with e | e <;> rw [e] <;> linarith
  have zero : ∀ l : List α, (∀ a ∈ l, v a = 0 ∨ v a = 1) → (l.map v).sum = 0 →
      ∀ a ∈ l, v a = 0 := by
    intro l h hs
    induction l with
    | nil => simp
    | cons a l ih =>
      rw [List.map_cons, List.sum_cons] at hs
      have hn := nonneg l (fun x hx => h x (List.mem_cons_of_mem _ hx))
      have ha : v a = 0 := by rcases h a (by simp) with e | e; exact e; rw [e] at hs; linarith
      intro x hx
      rcases List.mem_cons.1 hx with rfl | hx
      · exact ha
      · exact ih (fun x hx => h x (List.mem_cons_of_mem _ hx)) (by rw [ha] at hs; linarith) x hx
  intro l h hs
  induction l with
  | nil => simp at hs
  | cons a l ih =>
    rw [List.map_cons, List.sum_cons] at hs
    rcases h a (by simp) with e | e
    · obtain ⟨b, hb, h1, h2⟩ := ih (fun x hx => h x (List.mem_cons_of_mem _ hx))
        (by rw [e] at hs; linarith)
      refine ⟨b, List.mem_cons_of_mem _ hb, h1, fun g => ?_⟩
      rw [List.map_cons, List.sum_cons, h2 g, e]; ring
    · refine ⟨a, by simp, e, fun g => ?_⟩
      have hz := zero l (fun x hx => h x (List.mem_cons_of_mem _ hx)) (by rw [e] at hs; linarith)
      have : (l.map fun x => g x * v x) = l.map fun _ => (0 : ℚ) := by
        apply List.map_congr_left
        intro x hx
        rw [hz x hx, mul_zero]
      rw [List.map_cons, List.sum_cons, this, e]
      simp

theorem mem_offsetsOf {ts : List Term} {o : Int} : o ∈ offsetsOf ts ↔ ∃ t ∈ ts, o ∈ t.offsets := by
  simp [offsetsOf, List.mem_eraseDups, List.mem_flatMap]

theorem mem_scalingsOf {ts : List Term} {o s : Int} :
    s ∈ scalingsOf ts o ↔ ∃ t ∈ ts, o ∈ t.offsets ∧ s ∈ t.scalings := by
  simp [scalingsOf, List.mem_flatMap, and_assoc]

/-- The inequalities of a grid constraint: the position of the origin of the block is the pitch
times an integer plus an offset which is allowed for the orientation. -/
theorem emitGrid_holds {σ : Sol} {name : String} {size : Axis → Int} {k : Nat} {p : Pog}
    {l : List Con} (h : emitGrid σ name size k p = some l) (hl : ∀ c ∈ l, c.Holds)
    (hf : ∀ c, σ.flip name c = 0 ∨ σ.flip name c = 1) :
    ∃ x : Int, (σ.box name).ll (gridAxis p.direction) + σ.flip name (gridAxis p.direction) *
        size (gridAxis p.direction) = x ∧
      Sat p x (if σ.flip name (gridAxis p.direction) = 0 then 1 else -1) := by
  unfold emitGrid at h
  simp only at h
  split at h
  case isFalse => simp at h
  case isTrue hok =>
  obtain rfl := Option.some.inj h
  have hbin : ∀ o ∈ offsetsOf p.terms, ∀ c ∈ _, Con.Holds c := fun o ho c hc =>
    hl c (List.mem_append_left _ (List.mem_flatMap.2 ⟨o, ho, hc⟩))
  have hsum : ((offsetsOf p.terms).map fun o => σ.off name k o).sum = 1 :=
    hl (.eq _ _) (List.mem_append_right _ (by simp))
  obtain ⟨g, hg⟩ : ∃ n : Int, σ.grid name k = n :=
    hl (.int _) (List.mem_append_right _ (by simp))
  have hpos : σ.grid name k * p.pitch +
      ((offsetsOf p.terms).map fun (o : Int) => (o : ℚ) * σ.off name k o).sum -
      size (gridAxis p.direction) * σ.flip name (gridAxis p.direction) =
      (σ.box name).ll (gridAxis p.direction) :=
    hl (.eq _ _) (List.mem_append_right _ (by simp))
  obtain ⟨o, ho, hv, hsel⟩ := one_of_binary (fun o => σ.off name k o) (offsetsOf p.terms)
    (fun o ho => hbin o ho (.bin _) (by simp)) hsum
  rw [hsel (fun o => (o : ℚ)), hg] at hpos
  refine ⟨o + g * p.pitch, by push_cast; linarith, ?_⟩
  have hor : (if σ.flip name (gridAxis p.direction) = 0 then (1 : Int) else -1) ∈
      scalingsOf p.terms o := by
    have hpm : ∀ s ∈ scalingsOf p.terms o, s = 1 ∨ s = -1 := by
      intro s hs
      obtain ⟨t, ht, -, hs⟩ := mem_scalingsOf.1 hs
      have h1 := List.all_eq_true.1 hok t ht
      simp only [scalingsOk, Bool.and_eq_true, List.all_eq_true, Bool.or_eq_true,
        decide_eq_true_eq] at h1
      exact h1.2 s hs
    have hne : ∃ s, s ∈ scalingsOf p.terms o := by
      obtain ⟨t, ht, hot⟩ := mem_offsetsOf.1 ho
      have h1 := List.all_eq_true.1 hok t ht
      simp only [scalingsOk, Bool.and_eq_true, decide_eq_true_eq] at h1
      obtain ⟨s, hs⟩ := List.exists_mem_of_ne_nil _ h1.1
      exact ⟨s, mem_scalingsOf.2 ⟨t, ht, hot, hs⟩⟩
    have hcase := hbin o ho
    rcases hf (gridAxis p.direction) with e | e
    · rw [if_pos e]
      by_contra hno
      have hall : ∀ s ∈ scalingsOf p.terms o, s = -1 := fun s hs =>
        (hpm s hs).resolve_left (fun e => hno (e ▸ hs))
      have hn1 : ¬ ((scalingsOf p.terms o).all fun x => decide (x = 1)) = true := by
        rw [List.all_eq_true]
        intro h1
        obtain ⟨s, hs⟩ := hne
        have := hall s hs
        have := h1 s hs
        simp_all
      have h1 : ((scalingsOf p.terms o).all fun x => decide (x = -1)) = true := by
        rw [List.all_eq_true]
        intro s hs
        simpa using hall s hs
      have : σ.off name k o ≤ σ.flip name (gridAxis p.direction) :=
        hcase (.le _ _) (by rw [if_neg hn1, if_pos h1]; simp)
      rw [e] at this
      linarith
    · rw [if_neg (by rw [e]; norm_num)]
      by_contra hno
      have hall : ∀ s ∈ scalingsOf p.terms o, s = 1 := fun s hs =>
        (hpm s hs).resolve_right (fun e => hno (e ▸ hs))
      have h1 : ((scalingsOf p.terms o).all fun x => decide (x = 1)) = true := by
        rw [List.all_eq_true]
        intro s hs
        simpa using hall s hs
      have : σ.off name k o + σ.flip name (gridAxis p.direction) ≤ 1 :=
        hcase (.le _ _) (by rw [if_pos h1]; simp)
      rw [e] at this
      linarith
  obtain ⟨t, ht, hot, hs⟩ := mem_scalingsOf.1 hor
  exact ⟨t, ht, hs, o, hot, g, rfl⟩

/-- C29.  `PlaceOnGrid`: the extracted transformation of the instance puts the origin of the block
on the grid, at an offset allowed for its orientation. -/
theorem C29_place_on_grid {σ : Sol} {cs : List Cons} {insts : List String}
    {sizes : String → Axis → Int} {sp : List Nat × List Nat} {pogs : String → List Pog} {scale : ℚ}
    (h : Feasible σ cs insts sizes sp pogs scale) {a : String} (ha : a ∈ insts) {p : Pog}
    (hp : p ∈ pogs a) :
    Sat p (along (extract σ sizes a) p.direction).2 (along (extract σ sizes a) p.direction).1 := by
  obtain ⟨-, hown, -, -⟩ := h.parts
  obtain ⟨l, h1, h2⟩ := hown a ha
  obtain ⟨-, -, hf, hg⟩ := emitInst_holds h1 h2
  obtain ⟨i, hi, rfl⟩ := List.getElem_of_mem hp
  obtain ⟨g, h3, h4⟩ := hg ((pogs a)[i], i) (by
    rw [List.mem_iff_getElem]; exact ⟨i, by simpa using hi, by simp⟩)
  obtain ⟨x, hx, hs⟩ := emitGrid_holds h3 h4 hf
  simp only at hx hs
  generalize (pogs a)[i] = p at hx hs
  cases hd : p.direction <;> simp only [hd, gridAxis, along, extract] at hx hs ⊢
  · simp only [Box.ll] at hx
    rw [hx, pyRound_int]; exact hs
  · simp only [Box.ll] at hx
    rw [hx, pyRound_int]; exact hs

/-! ## C61 -/

/-- The rectangle that a block with lower left corner `(0, 0)` covers in the extracted placement. -/
def placed (σ : Sol) (sizes : String → Axis → Int) (a : String) : Verif.Geometry.Rect :=
  ((extract σ sizes a).hitRect ⟨0, 0, sizes a .x, sizes a .y⟩).canonical

/-- The interiors of two rectangles have a common point (of rational coordinates). -/
def RectOverlap (a b : Verif.Geometry.Rect) : Prop :=
  Overlap ⟨a.llx, a.lly, a.urx, a.ury⟩ ⟨b.llx, b.lly, b.urx, b.ury⟩

theorem pyRound_near (q : ℚ) : |(pyRound q : ℚ) - q| ≤ 1 / 2 := by
  unfold pyRound
  have h1 : (q.floor : ℚ) ≤ q := Rat.floor_le q
  have h2 : q < q.floor + 1 := by
    have := Rat.lt_floor_add_one q
    push_cast at this
    exact this
  simp only
  rw [abs_le]
  split
  · constructor <;> linarith
  · split
    · push_cast; constructor <;> linarith
    · split
      · constructor <;> linarith
      · push_cast; constructor <;> linarith

theorem le_pyRound {n : Int} {q : ℚ} (h : (n : ℚ) ≤ q) : n ≤ pyRound q := by
  have : n ≤ q.floor := Rat.le_floor_iff.2 h
  unfold pyRound
  simp only
  split_ifs <;> omega

theorem placed_eq {σ : Sol} {sizes : String → Axis → Int} {a : String}
    (hs : ∀ c, 0 ≤ sizes a c) (hf : ∀ c, σ.flip a c = 0 ∨ σ.flip a c = 1) :
    ∃ x y : Int, placed σ sizes a = ⟨x, y, x + sizes a .x, y + sizes a .y⟩ ∧
      (x = pyRound (σ.box a).llx ∨
        x = pyRound ((σ.box a).llx + sizes a .x) - sizes a .x) ∧
      (y = pyRound (σ.box a).lly ∨
        y = pyRound ((σ.box a).lly + sizes a .y) - sizes a .y) := by
  have hx := hs .x
  have hy := hs .y
  unfold placed
  rw [Verif.Geometry.canonical_eq]
  rcases hf .x with e1 | e1 <;> rcases hf .y with e2 | e2 <;>
    simp only [extract, e1, e2, Transformation.hitRect, Transformation.hit, if_true,
      one_ne_zero, if_false, zero_mul, add_zero, one_mul, mul_zero, zero_add, neg_mul, neg_zero]
  · exact ⟨_, _, by rw [Verif.Geometry.Rect.mk.injEq]; omega, Or.inl rfl, Or.inl rfl⟩
  · exact ⟨pyRound (σ.box a).llx, pyRound ((σ.box a).lly + sizes a .y) - sizes a .y,
      by rw [Verif.Geometry.Rect.mk.injEq]; omega, Or.inl rfl, Or.inr rfl⟩
  · exact ⟨pyRound ((σ.box a).llx + sizes a .x) - sizes a .x, pyRound (σ.box a).lly,
      by rw [Verif.Geometry.Rect.mk.injEq]; omega, Or.inr rfl, Or.inl rfl⟩
  · exact ⟨pyRound ((σ.box a).llx + sizes a .x) - sizes a .x,
      pyRound ((σ.box a).lly + sizes a .y) - sizes a .y,
      by rw [Verif.Geometry.Rect.mk.injEq]; omega, Or.inr rfl, Or.inr rfl⟩

theorem Feasible.flip {σ : Sol} {cs : List Cons} {insts : List String}
    {sizes : String → Axis → Int} {sp : List Nat × List Nat} {pogs : String → List Pog} {scale : ℚ}
    (h : Feasible σ cs insts sizes sp pogs scale) {a : String} (ha : a ∈ insts) :
    ∀ c, σ.flip a c = 0 ∨ σ.flip a c = 1 := by
  obtain ⟨-, hown, -, -⟩ := h.parts
  obtain ⟨l, h1, h2⟩ := hown a ha
  exact (emitInst_holds h1 h2).2.2.1

/-- C61, in part.  Every block is placed with its exact size, at most half a unit away (in each
axis) from where the solution of the inequalities puts it. -/
theorem C61_rounding_partial {σ : Sol} {cs : List Cons} {insts : List String}
    {sizes : String → Axis → Int} {sp : List Nat × List Nat} {pogs : String → List Pog} {scale : ℚ}
    (h : Feasible σ cs insts sizes sp pogs scale) {a : String} (ha : a ∈ insts)
    (hs : ∀ c, 0 ≤ sizes a c) :
    (placed σ sizes a).urx - (placed σ sizes a).llx = sizes a .x ∧
    (placed σ sizes a).ury - (placed σ sizes a).lly = sizes a .y ∧
    |((placed σ sizes a).llx : ℚ) - (σ.box a).llx| ≤ 1 / 2 ∧
    |((placed σ sizes a).lly : ℚ) - (σ.box a).lly| ≤ 1 / 2 := by
  obtain ⟨x, y, e, hx, hy⟩ := placed_eq hs (h.flip ha)
  rw [e]
  refine ⟨by simp, by simp, ?_, ?_⟩
  · rcases hx with rfl | rfl
    · exact pyRound_near _
    · have := pyRound_near ((σ.box a).llx + sizes a .x)
      push_cast
      rw [abs_le] at this ⊢
      constructor <;> linarith
  · rcases hy with rfl | rfl
    · exact pyRound_near _
    · have := pyRound_near ((σ.box a).lly + sizes a .y)
      push_cast
      rw [abs_le] at this ⊢
      constructor <;> linarith

/-- The lower left corners of the solution are integers. -/
def Integral (σ : Sol) (insts : List String) : Prop :=
  ∀ a ∈ insts, ∃ x y : Int, (σ.box a).llx = x ∧ (σ.box a).lly = y

/-- C61, in part: for solutions at integers the placed blocks are those of the solution, hence are
inside the reported bounding box and do not overlap.  What is missing: other solutions, see
`C61_violated_overlap`. -/
theorem C61_integral_partial {σ : Sol} {cs : List Cons} {insts : List String}
    {sizes : String → Axis → Int} {sp : List Nat × List Nat} {pogs : String → List Pog} {scale : ℚ}
    (h : Feasible σ cs insts sizes sp pogs scale) (hs : ∀ a ∈ insts, ∀ c, 0 ≤ sizes a c)
    (hi : Integral σ insts) :
    (∀ a ∈ insts, 0 ≤ (placed σ sizes a).llx ∧ 0 ≤ (placed σ sizes a).lly ∧
      (placed σ sizes a).urx ≤ (extractSize σ).1 ∧ (placed σ sizes a).ury ≤ (extractSize σ).2) ∧
    ∀ a ∈ insts, ∀ b ∈ insts, a ≠ b → ¬ RectOverlap (placed σ sizes a) (placed σ sizes b) := by
  have key : ∀ a ∈ insts, σ.box a = ⟨(placed σ sizes a).llx, (placed σ sizes a).lly,
      (placed σ sizes a).urx, (placed σ sizes a).ury⟩ := by
    intro a ha
    obtain ⟨x, y, e, hx, hy⟩ := placed_eq (hs a ha) (h.flip ha)
    obtain ⟨x', y', ex, ey⟩ := hi a ha
    have h1 := (C29_inside h ha).2
    have hx' : x = x' := by
      rcases hx with rfl | rfl
      · rw [ex, pyRound_int]
      · rw [ex, ← Int.cast_add, pyRound_int]; omega
    have hy' : y = y' := by
      rcases hy with rfl | rfl
      · rw [ey, pyRound_int]
      · rw [ey, ← Int.cast_add, pyRound_int]; omega
    rw [e, hx', hy']
    push_cast
    rw [ex, ey] at h1
    cases hb : σ.box a
    rw [hb] at ex ey h1
    simp only at ex ey h1
    rw [Verif.Cons.Box.mk.injEq]
    refine ⟨ex, ey, by linarith [h1.1], by linarith [h1.2]⟩
  constructor
  · intro a ha
    have h1 := (C29_inside h ha).1
    rw [key a ha] at h1
    simp only at h1
    obtain ⟨h2, h3, h4, h5⟩ := h1
    exact ⟨by exact_mod_cast h2, by exact_mod_cast h3, le_pyRound h4, le_pyRound h5⟩
  · intro a ha b hb hab
    have := C28_no_overlap h ha hb hab
    rw [key a ha, key b hb] at this
    exact this

/-! ## Concrete solutions -/

/-- A decision procedure for the inequalities of concrete solutions. -/
def Con.check : Con → Bool
  | .le a b => decide (a ≤ b)
  | .eq a b => decide (a = b)
  | .bin a => decide (a = 0 ∨ a = 1)
  | .int a => decide (a.den = 1)

theorem Con.check_holds {c : Con} (h : c.check = true) : c.Holds := by
  cases c with
  | le a b => simpa [check, Holds] using h
  | eq a b => simpa [check, Holds] using h
  | bin a => simpa [check, Holds] using h
  | int a =>
    simp only [check, decide_eq_true_eq] at h
    exact ⟨a.num, ((Rat.den_eq_one_iff a).1 h).symm⟩

/-- All the inequalities are generated and pass. -/
def passes (σ : Sol) (cs : List Cons) (insts : List String) (sizes : String → Axis → Int)
    (sp : List Nat × List Nat) (pogs : String → List Pog) (scale : ℚ) : Bool :=
  match emit σ cs insts sizes sp pogs scale with
  | some l => l.all Con.check
  | none => false

theorem feasible_of_passes {σ : Sol} {cs : List Cons} {insts : List String}
    {sizes : String → Axis → Int} {sp : List Nat × List Nat} {pogs : String → List Pog} {scale : ℚ}
    (h : passes σ cs insts sizes sp pogs scale = true) :
    Feasible σ cs insts sizes sp pogs scale := by
  unfold passes at h
  split at h
  · rename_i l hl
    exact ⟨l, hl, fun c hc => Con.check_holds (List.all_eq_true.1 h c hc)⟩
  · simp at h

/-- Two blocks `C` (width 1) and `D` (width 4) centered on the same line, with `E` right of `C`. -/
def halfSol : Sol where
  w := 11 / 2
  h := 2
  box n := if n = "C" then ⟨3 / 2, 0, 5 / 2, 1⟩ else if n = "D" then ⟨0, 1, 4, 2⟩
    else ⟨5 / 2, 0, 11 / 2, 1⟩
  flip _ _ := 0
  off _ _ _ := 0
  grid _ _ := 0
  symm _ := 2
  spread _ _ := 0

/-- The sizes of the blocks in `halfSol`. -/
def halfSizes (n : String) : Axis → Int
  | .x => if n = "C" then 1 else if n = "D" then 4 else 3
  | .y => 1

theorem halfSol_feasible : Feasible halfSol
    [.symmetricBlocks [["C"], ["D"]] .x, .order ["C", "E"] (some .leftToRight) false]
    ["C", "D", "E"] halfSizes ([1, 0, 2], [0, 2, 1]) (fun _ => []) 1 :=
  feasible_of_passes (by decide +kernel)

/-- C61 is violated: a feasible solution of which the extracted placement has
overlapping blocks, because 3/2 and 5/2 are both rounded to 2. -/
theorem C61_violated_overlap :
    ∃ σ cs insts sizes sp, Feasible σ cs insts sizes sp (fun _ => []) 1 ∧
      "C" ∈ insts ∧ "E" ∈ insts ∧ RectOverlap (placed σ sizes "C") (placed σ sizes "E") := by
  refine ⟨_, _, _, _, _, halfSol_feasible, by decide, by decide, ?_⟩
  have e1 : placed halfSol halfSizes "C" = ⟨2, 0, 3, 1⟩ := by decide +kernel
  have e2 : placed halfSol halfSizes "E" = ⟨2, 0, 5, 1⟩ := by decide +kernel
  rw [e1, e2]
  exact ⟨5 / 2, 1 / 2, by norm_num⟩

end Verif.SeqPair

import Verif.Cons.Props

/-!
# C38, C39: `SymmetricBlocks`, `AlignInOrder`, `Floorplan`, and the formulas of a sub-circuit
-/

namespace Verif.Cons

/-! ## C38: `SymmetricBlocks` -/

/-- Two boxes lie symmetrically to the line, up to the documented tolerance along the line. -/
def Mirror (axis : Axis) (line : ℚ) (b0 b1 : Box ℚ) : Prop :=
  (center b0 axis + center b1 axis) / 2 = line ∧
    |center b0 axis.orth - center b1 axis.orth| ≤ (b0.ur axis.orth - b0.ll axis.orth) / 4 ∧
    |center b0 axis.orth - center b1 axis.orth| ≤ (b1.ur axis.orth - b1.ll axis.orth) / 4

/-- What `SymmetricDoc` says about one pair. -/
def PairOK (axis : Axis) (line : ℚ) (p : List (Box ℚ)) : Prop :=
  (∃ b, p = [b] ∧ center b axis = line) ∨ ∃ b0 b1, p = [b0, b1] ∧ Mirror axis line b0 b1

theorem symmetricDoc_iff (pairs : List (List (Box ℚ))) (axis : Axis) :
    SymmetricDoc pairs axis ↔ ∃ line, ∀ p ∈ pairs, PairOK axis line p := Iff.rfl

theorem toQ_ll (b : Box Int) (c : Axis) : b.toQ.ll c = ((b.ll c : Int) : ℚ) := by
  cases c <;> rfl

theorem toQ_ur (b : Box Int) (c : Axis) : b.toQ.ur c = ((b.ur c : Int) : ℚ) := by
  cases c <;> rfl

theorem absZ_eq (e : Int) : absZ e = |e| := by
  unfold absZ
  split
  · rw [abs_of_nonneg ‹_›]
  · rw [abs_of_neg (by omega)]; omega

theorem pairFormula_iff (c : Axis) (b0 b1 : Box Int) :
    pairFormula c b0 b1 = true ↔
      |center b0.toQ c - center b1.toQ c| ≤ (b0.toQ.ur c - b0.toQ.ll c) / 4 ∧
      |center b0.toQ c - center b1.toQ c| ≤ (b1.toQ.ur c - b1.toQ.ll c) / 4 := by
  have e : center b0.toQ c - center b1.toQ c =
      (((2 * (b0.ll c + b0.ur c) - 2 * (b1.ll c + b1.ur c) : Int)) : ℚ) / 4 := by
    simp only [center, toQ_ll, toQ_ur]
    push_cast
    ring
  have e2 : |(((2 * (b0.ll c + b0.ur c) - 2 * (b1.ll c + b1.ur c) : Int)) : ℚ) / 4| =
      ((|2 * (b0.ll c + b0.ur c) - 2 * (b1.ll c + b1.ur c)| : Int) : ℚ) / 4 := by
    rw [abs_div, Int.cast_abs]
    norm_num
  simp only [pairFormula, absZ_eq, Bool.and_eq_true, decide_eq_true_eq]
  rw [e, e2]
  simp only [toQ_ll, toQ_ur]
  rw [div_le_div_iff_of_pos_right (by norm_num), div_le_div_iff_of_pos_right (by norm_num),
    ← Int.cast_sub, ← Int.cast_sub, Int.cast_le, Int.cast_le]

/-- A pair as the validator leaves it: one or two names. -/
def OneOrTwo (p : List String) : Prop := (∃ a, p = [a]) ∨ ∃ a b, p = [a, b]

/-- One pair is right exactly when its formula holds and four times the line is the value of
`construct_expression`. -/
theorem pairOK_iff (β : String → Box Int) (axis : Axis) (line : ℚ) (p : List String)
    (hp : OneOrTwo p) :
    PairOK axis line (p.map (fun i => (β i).toQ)) ↔
      (∀ f ∈ pairFormulas β axis p, f = true) ∧
      ∃ e, centerExpr axis (p.map β) = some e ∧ (e : ℚ) = 4 * line := by
  rcases hp with ⟨a, rfl⟩ | ⟨a, b, rfl⟩
  · simp only [PairOK, List.map_cons, List.map_nil, List.cons.injEq, and_true, exists_eq_left',
      reduceCtorEq, false_and, and_false, exists_false, or_false, pairFormulas, List.not_mem_nil,
      false_imp_iff, implies_true, true_and, centerExpr, Option.some.injEq]
    simp only [center, toQ_ll, toQ_ur]
    push_cast
    constructor <;> intro h <;> linarith
  · simp only [PairOK, List.map_cons, List.map_nil, List.cons.injEq, reduceCtorEq, and_false,
      false_and, exists_false, false_or, and_true, pairFormulas, List.mem_cons, List.not_mem_nil,
      or_false, forall_eq, pairFormula_iff, centerExpr, Option.some.injEq, exists_eq_left']
    constructor
    · rintro ⟨b0, b1, ⟨rfl, rfl⟩, h1, h2⟩
      refine ⟨h2, ?_⟩
      simp only [center, toQ_ll, toQ_ur] at h1
      push_cast
      linarith
    · rintro ⟨h2, h1⟩
      refine ⟨_, _, ⟨rfl, rfl⟩, ?_, h2⟩
      simp only [center, toQ_ll, toQ_ur]
      push_cast at h1
      linarith

theorem centerExpr_some (β : String → Box Int) (axis : Axis) (p : List String) (hp : OneOrTwo p) :
    ∃ e, centerExpr axis (p.map β) = some e := by
  rcases hp with ⟨a, rfl⟩ | ⟨a, b, rfl⟩ <;> exact ⟨_, rfl⟩

theorem symmRest_iff (β : String → Box Int) (axis : Axis) (line : ℚ) (r : Int)
    (hr : (r : ℚ) = 4 * line) :
    ∀ ps : List (List String), (∀ p ∈ ps, OneOrTwo p) →
      ∃ fs, symmRest β axis r ps = some fs ∧ ((∀ f ∈ fs, f = true) ↔
        ∀ p ∈ ps, PairOK axis line (p.map (fun i => (β i).toQ)))
  | [], _ => ⟨[], rfl, by simp⟩
  | p :: ps, hp => by
    obtain ⟨fs, h1, h2⟩ := symmRest_iff β axis line r hr ps (fun q hq => hp q (by simp [hq]))
    obtain ⟨e, he⟩ := centerExpr_some β axis p (hp p (by simp))
    refine ⟨pairFormulas β axis p ++ [r == e] ++ fs, by simp [symmRest, he, h1], ?_⟩
    have hk := pairOK_iff β axis line p (hp p (by simp))
    simp only [he, Option.some.injEq, exists_eq_left'] at hk
    have he' : ((e : ℚ) = 4 * line) ↔ r = e := by
      rw [← hr]
      constructor
      · intro h; exact_mod_cast h.symm
      · rintro rfl; rfl
    rw [he'] at hk
    simp only [List.mem_append, List.mem_cons, List.not_mem_nil, or_false, or_imp, forall_and,
      forall_eq, beq_iff_eq, h2, forall_eq_or_imp, hk]

theorem symmTranslate_iff (β : String → Box Int) (axis : Axis) (pairs : List (List String))
    (hp : ∀ p ∈ pairs, OneOrTwo p) :
    ∃ fs, symmTranslate β axis pairs = some fs ∧ ((∀ f ∈ fs, f = true) ↔
      SymmetricDoc (pairs.map (fun p => p.map (fun i => (β i).toQ))) axis) := by
  simp only [symmetricDoc_iff, List.mem_map, forall_exists_index, and_imp,
    forall_apply_eq_imp_iff₂]
  cases pairs with
  | nil => exact ⟨[], rfl, by simp⟩
  | cons p ps =>
    obtain ⟨e, he⟩ := centerExpr_some β axis p (hp p (by simp))
    obtain ⟨fs, h1, h2⟩ := symmRest_iff β axis ((e : ℚ) / 4) e (by ring) ps
      (fun q hq => hp q (by simp [hq]))
    refine ⟨pairFormulas β axis p ++ fs, by simp [symmTranslate, he, h1], ?_⟩
    have hk := fun line => pairOK_iff β axis line p (hp p (by simp))
    simp only [he, Option.some.injEq, exists_eq_left'] at hk
    simp only [List.mem_append, or_imp, forall_and, h2, List.forall_mem_cons]
    constructor
    · rintro ⟨h3, h4⟩
      refine ⟨(e : ℚ) / 4, (hk _).2 ⟨h3, by ring⟩, h4⟩
    · rintro ⟨line, h3, h4⟩
      have h3' := (hk line).1 h3
      have : line = (e : ℚ) / 4 := by linarith [h3'.2]
      subst this
      exact ⟨h3'.1, h4⟩

/-- `SymmetricBlocks` is satisfied exactly when there is a symmetry line for all the pairs. -/
theorem C38_symmetric_blocks (names : List String) (β : String → Box Int) (bb : Box Int)
    (pairs : List (List String)) (axis : Axis) (hp : ∀ p ∈ pairs, OneOrTwo p) :
    Satisfied names β bb (.symmetricBlocks pairs axis) ↔
      SymmetricDoc (pairs.map (fun p => p.map (fun i => (β i).toQ))) axis := by
  obtain ⟨fs, h1, h2⟩ := symmTranslate_iff β axis pairs hp
  simp only [Satisfied, translate, isUser, translateHard, Bool.false_eq_true, if_false, h1,
    Option.some.injEq, exists_eq_left', h2]

/-- Boxes of the same size at the same height, symmetric to the line, are mirror images of each
other: the sides of one are the mirrored sides of the other. -/
theorem C38_symmetric_is_mirror (axis : Axis) (line : ℚ) (b0 b1 : Box ℚ)
    (h : Mirror axis line b0 b1) (hw : b0.ur axis - b0.ll axis = b1.ur axis - b1.ll axis) :
    b0.ll axis = 2 * line - b1.ur axis ∧ b0.ur axis = 2 * line - b1.ll axis := by
  have := h.1
  simp only [center] at this
  constructor <;> linarith

/-- Blocks of a symmetric arrangement. -/
def symm3 (n : String) : Box Int :=
  if n = "A" then ⟨0, 0, 10, 8⟩ else if n = "B" then ⟨30, 1, 40, 9⟩ else ⟨15, 20, 25, 30⟩

example : Satisfied ["A", "B", "C"] symm3 ⟨0, 0, 40, 30⟩ (.symmetricBlocks [["A", "B"], ["C"]] .x) ∧
    ∀ p ∈ [["A", "B"], ["C"]], OneOrTwo p := by
  constructor
  · exact ⟨_, rfl, by decide⟩
  · intro p hp
    simp only [List.mem_cons, List.not_mem_nil, or_false] at hp
    rcases hp with rfl | rfl
    · exact Or.inr ⟨_, _, rfl⟩
    · exact Or.inl ⟨_, rfl⟩

/-! ## C38: `AlignInOrder` -/

/-- The side on which `AlignInOrder` aligns. -/
def sideOf : OLine → Option Line
  | .top => some .hTop
  | .bottom => some .hBottom
  | .left => some .vLeft
  | .right => some .vRight
  | .center => none

theorem satisfied_alignInOrder (names : List String) (β : String → Box Int) (bb : Box Int)
    (is : List String) (line : OLine) (axis : Axis) (abut : Bool) (l : Line)
    (hl : alignLine axis line = some l) :
    Satisfied names β bb (.alignInOrder is line axis abut) ↔
      Satisfied names β bb (.align is (some l)) ∧
      Satisfied names β bb
        (.order is (some (orderDir axis)) abut) := by
  simp only [Satisfied, translate, isUser, yieldConstraints, hl, translateHard, if_true,
    Bool.false_eq_true, if_false]
  simp only [Option.bind_eq_bind, Option.bind_some, List.mapM_cons, List.mapM_nil,
    translateHard, Option.pure_def, Option.some.injEq, exists_eq_left', List.flatten_cons,
    List.flatten_nil, List.append_nil, List.mem_append, or_imp, forall_and, List.nil_append]

/-- Horizontally, `AlignInOrder` means the documented alignment and the order from left to
right. -/
theorem C38_align_in_order_horizontal (names : List String) (β : String → Box Int) (bb : Box Int)
    (is : List String) (line : OLine) (abut : Bool) (l : Line)
    (hl : line = .top ∧ l = .hTop ∨ line = .bottom ∧ l = .hBottom)
    (hp : ∀ i ∈ is, Proper (β i)) :
    Satisfied names β bb (.alignInOrder is line .x abut) ↔
      AlignedSide (is.map β) l ∧ LeftToRight (is.map β) ∧
        (abut = true → Touching (is.map β) .leftToRight) := by
  have hs : IsSide l ∧ alignLine .x line = some l := by
    rcases hl with ⟨rfl, rfl⟩ | ⟨rfl, rfl⟩ <;> exact ⟨trivial, rfl⟩
  rw [satisfied_alignInOrder _ _ _ _ _ _ _ _ hs.2, C38_align_side _ _ _ _ _ hs.1,
    C38_order_directed _ _ _ _ _ _ (by exact trivial) hp]
  rfl

/-- Vertically, `AlignInOrder` means the alignment and the order from top to bottom.  Missing: the
documented order is from bottom to top, see `C38_violated_align_in_order`. -/
theorem C38_align_in_order_vertical_partial (names : List String) (β : String → Box Int)
    (bb : Box Int) (is : List String) (line : OLine) (abut : Bool) (l : Line)
    (hl : line = .left ∧ l = .vLeft ∨ line = .right ∧ l = .vRight)
    (hp : ∀ i ∈ is, Proper (β i)) :
    Satisfied names β bb (.alignInOrder is line .y abut) ↔
      AlignedSide (is.map β) l ∧ BottomToTop (is.map β).reverse ∧
        (abut = true → Touching (is.map β) .topToBottom) := by
  have hs : IsSide l ∧ alignLine .y line = some l := by
    rcases hl with ⟨rfl, rfl⟩ | ⟨rfl, rfl⟩ <;> exact ⟨trivial, rfl⟩
  rw [satisfied_alignInOrder _ _ _ _ _ _ _ _ hs.2, C38_align_side _ _ _ _ _ hs.1,
    C38_order_directed _ _ _ _ _ _ (by exact trivial) hp]
  rfl

/-- A column of two boxes, `A` below `B`. -/
def column (n : String) : Box Int := if n = "A" then ⟨0, 0, 10, 10⟩ else ⟨0, 20, 10, 30⟩

/-- The documented order of a vertical `AlignInOrder` is rejected and the reverse accepted. -/
theorem C38_violated_align_in_order :
    BottomToTop (["A", "B"].map column) ∧
      ¬ Satisfied ["A", "B"] column ⟨0, 0, 10, 30⟩ (.alignInOrder ["A", "B"] .left .y false) ∧
      Satisfied ["A", "B"] column ⟨0, 0, 10, 30⟩ (.alignInOrder ["B", "A"] .left .y false) := by
  refine ⟨?_, ?_, ?_⟩
  · simp [BottomToTop, column]
  · rintro ⟨fs, hf, h⟩
    have hf' : translate ["A", "B"] column ⟨0, 0, 10, 30⟩ (.alignInOrder ["A", "B"] .left .y false)
        = some [true, false] := by decide
    rw [hf'] at hf
    simp only [Option.some.injEq] at hf
    subst hf
    simp at h
  · exact ⟨[true, true], by decide, by decide⟩

/-! ## C38: `Floorplan` -/

/-- The documented floorplan: the regions stand from top to bottom, with `order` the instances of
each region from left to right, and with `symmetrize` each region is symmetric to one common
vertical line, the first instance being the image of the last and so on. -/
def FloorplanDoc (regions : List (List (Box ℚ))) (order symmetrize : Bool) : Prop :=
  regions.Pairwise (fun r1 r2 => ∀ a ∈ r1, ∀ b ∈ r2, b.ury ≤ a.lly) ∧
  (order = true → ∀ r ∈ regions, LeftToRight r) ∧
  (symmetrize = true → ∃ line : ℚ, ∀ r ∈ regions, ∀ i j : Nat, ∀ a b,
    r[i]? = some a → r[j]? = some b → i + j + 1 = r.length → Mirror .x line a b)

theorem mirror_comm {axis : Axis} {line : ℚ} {a b : Box ℚ} (h : Mirror axis line a b) :
    Mirror axis line b a := by
  obtain ⟨h1, h2, h3⟩ := h
  refine ⟨by rw [add_comm]; exact h1, ?_, ?_⟩
  · rw [abs_sub_comm]; exact h3
  · rw [abs_sub_comm]; exact h2

theorem mirror_self {axis : Axis} {line : ℚ} {a : Box ℚ} (ha : a.ll axis.orth ≤ a.ur axis.orth) :
    Mirror axis line a a ↔ center a axis = line := by
  constructor
  · intro h
    have := h.1
    linarith
  · intro h
    refine ⟨by linarith, ?_, ?_⟩ <;> simp <;> linarith

/-- The pairs made from a region express its symmetry. -/
theorem regionPairs_iff (β : String → Box Int) (line : ℚ) (r : List String) (hne : r ≠ [])
    (hp : ∀ i ∈ r, Proper (β i)) :
    (∀ p ∈ regionPairs r, PairOK .x line (p.map (fun i => (β i).toQ))) ↔
      ∀ i j : Nat, ∀ a b, (r.map (fun i => (β i).toQ))[i]? = some a →
        (r.map (fun i => (β i).toQ))[j]? = some b → i + j + 1 = r.length → Mirror .x line a b := by
  have hself : ∀ n ∈ r, (Mirror .x line (β n).toQ (β n).toQ ↔ center (β n).toQ .x = line) := by
    intro n hn
    apply mirror_self
    have := (hp n hn).2
    simp only [Axis.orth, toQ_ll, toQ_ur]
    exact_mod_cast this
  have h1 : ∀ x : Box ℚ, PairOK .x line [x] ↔ center x .x = line := by
    intro x; simp [PairOK]
  have h2 : ∀ x y : Box ℚ, PairOK .x line [x, y] ↔ Mirror .x line x y := by
    intro x y; simp [PairOK]
  unfold regionPairs
  split
  · rename_i hlen
    match r, hne, hlen with
    | [x], _, _ =>
      simp only [List.mem_singleton, forall_eq, List.map_cons, List.map_nil, h1]
      rw [← hself x (by simp)]
      constructor
      · intro h i j a b ha hb hij
        simp only [List.length_singleton] at hij
        have : i = 0 ∧ j = 0 := by omega
        obtain ⟨rfl, rfl⟩ := this
        simp only [List.getElem?_cons_zero, Option.some.injEq] at ha hb
        rw [← ha, ← hb]
        exact h
      · intro h
        exact h 0 0 _ _ rfl rfl rfl
    | [x, y], _, _ =>
      simp only [List.mem_singleton, forall_eq, List.map_cons, List.map_nil, h2]
      constructor
      · intro h i j a b ha hb hij
        simp only [List.length_cons, List.length_nil] at hij
        have : i = 0 ∧ j = 1 ∨ i = 1 ∧ j = 0 := by omega
        rcases this with ⟨rfl, rfl⟩ | ⟨rfl, rfl⟩
        · simp only [List.getElem?_cons_zero, List.getElem?_cons_succ, Option.some.injEq] at ha hb
          rw [← ha, ← hb]
          exact h
        · simp only [List.getElem?_cons_zero, List.getElem?_cons_succ, Option.some.injEq] at ha hb
          rw [← ha, ← hb]
          exact mirror_comm h
      · intro h
        exact h 0 1 _ _ rfl rfl rfl
  · rename_i hlen
    have hlen : 3 ≤ r.length := by omega
    have hget : ∀ k (hk : k < r.length), r.getD k "" = r[k] := by
      intro k hk
      rw [List.getD_eq_getElem?_getD, List.getElem?_eq_getElem hk]
      rfl
    constructor
    · intro h i j a b ha hb hij
      have hi : i < r.length := by omega
      have hj : j < r.length := by omega
      simp only [List.getElem?_map, List.getElem?_eq_getElem hi, List.getElem?_eq_getElem hj,
        Option.map_some, Option.some.injEq] at ha hb
      subst ha hb
      have hpair : ∀ k (hk : k < r.length / 2),
          Mirror .x line (β (r[k]'(by omega))).toQ (β (r[r.length - 1 - k]'(by omega))).toQ := by
        intro k hk
        have := h [r.getD k "", r.getD (r.length - 1 - k) ""]
          (List.mem_append_left _ (List.mem_map.2 ⟨k, List.mem_range.2 hk, rfl⟩))
        rw [List.map_cons, List.map_cons, List.map_nil, h2, hget k (by omega),
          hget _ (by omega)] at this
        exact this
      rcases Nat.lt_trichotomy i j with hlt | heq | hgt
      · have := hpair i (by omega)
        have hj' : j = r.length - 1 - i := by omega
        subst hj'
        exact this
      · subst heq
        rw [hself _ (List.getElem_mem _)]
        have hodd : r.length % 2 = 1 := by omega
        have := h [r.getD (r.length / 2) ""]
          (List.mem_append_right _ (by rw [if_pos hodd]; simp))
        rw [List.map_cons, List.map_nil, h1, hget _ (by omega)] at this
        have hi' : r.length / 2 = i := by omega
        simp only [hi'] at this
        exact this
      · have := hpair j (by omega)
        have hi' : i = r.length - 1 - j := by omega
        subst hi'
        exact mirror_comm this
    · intro h p hpm
      rcases List.mem_append.1 hpm with hpm | hpm
      · obtain ⟨k, hk, rfl⟩ := List.mem_map.1 hpm
        have hk := List.mem_range.1 hk
        rw [List.map_cons, List.map_cons, List.map_nil, h2, hget k (by omega), hget _ (by omega)]
        refine h k (r.length - 1 - k) _ _ ?_ ?_ (by omega)
        · rw [List.getElem?_map, List.getElem?_eq_getElem (by omega)]; rfl
        · rw [List.getElem?_map, List.getElem?_eq_getElem (by omega)]; rfl
      · split at hpm
        · rename_i hodd
          simp only [List.mem_singleton] at hpm
          subst hpm
          rw [List.map_cons, List.map_nil, h1, hget _ (by omega), ← hself _ (List.getElem_mem _)]
          refine h (r.length / 2) (r.length / 2) _ _ ?_ ?_ (by omega)
          · rw [List.getElem?_map, List.getElem?_eq_getElem (by omega)]; rfl
          · rw [List.getElem?_map, List.getElem?_eq_getElem (by omega)]; rfl
        · simp at hpm

theorem oneOrTwo_regionPairs (r : List String) (hne : r ≠ []) : ∀ p ∈ regionPairs r, OneOrTwo p := by
  intro p hp
  unfold regionPairs at hp
  split at hp
  · rename_i hlen
    simp only [List.mem_singleton] at hp
    subst hp
    match p, hne, hlen with
    | [x], _, _ => exact Or.inl ⟨x, rfl⟩
    | [x, y], _, _ => exact Or.inr ⟨x, y, rfl⟩
  · rcases List.mem_append.1 hp with hp | hp
    · obtain ⟨k, _, rfl⟩ := List.mem_map.1 hp
      exact Or.inr ⟨_, _, rfl⟩
    · split at hp
      · simp only [List.mem_singleton] at hp
        exact Or.inl ⟨_, hp⟩
      · simp at hp

/-- The generated pairs are those of instances in consecutive regions. -/
theorem aboveBelow_iff (R : String → String → Prop) :
    ∀ regions : List (List String), (∀ p ∈ aboveBelow regions, R p.1 p.2) ↔
      List.IsChain (fun r1 r2 => ∀ a ∈ r1, ∀ b ∈ r2, R a b) regions
  | [] => by simp [aboveBelow]
  | [r] => by simp [aboveBelow]
  | r1 :: r2 :: rs => by
    rw [List.isChain_cons_cons, ← aboveBelow_iff R (r2 :: rs)]
    simp only [aboveBelow, List.mem_append, or_imp, forall_and]
    refine and_congr ?_ Iff.rfl
    constructor
    · intro h a ha b hb
      exact h (a, b) (List.mem_flatMap.2 ⟨a, ha, List.mem_map.2 ⟨b, hb, rfl⟩⟩)
    · rintro h p hp
      obtain ⟨a, ha, hp⟩ := List.mem_flatMap.1 hp
      obtain ⟨b, hb, rfl⟩ := List.mem_map.1 hp
      exact h a ha b hb

theorem noReverse_iff : ∀ (seen l : List (String × String)),
    noReverse seen l = true ↔ l.Pairwise (fun p q => (q.2, q.1) ≠ p) ∧
      ∀ q ∈ l, q.1 ≠ q.2 ∧ (q.2, q.1) ∉ seen
  | _, [] => by simp [noReverse]
  | seen, (a, b) :: l => by
    simp only [noReverse, Bool.and_eq_true, Bool.not_eq_true', noReverse_iff, List.pairwise_cons,
      List.mem_cons, forall_eq_or_imp, not_or]
    rw [← Bool.not_eq_true, List.contains_iff_mem]
    simp only [List.mem_cons, not_or, Prod.mk.injEq, ne_eq]
    constructor
    · rintro ⟨⟨h1, h2⟩, h3, h4⟩
      refine ⟨⟨fun q hq => (h4 q hq).2.1, h3⟩, ⟨fun h => h1 ⟨h.symm, h⟩, h2⟩,
        fun q hq => ⟨(h4 q hq).1, (h4 q hq).2.2⟩⟩
    · rintro ⟨⟨h1, h2⟩, ⟨h3, h4⟩, h5⟩
      exact ⟨⟨fun h => h3 h.2, h4⟩, h2, fun q hq => ⟨(h5 q hq).1, h1 q hq, (h5 q hq).2⟩⟩

theorem mem_aboveBelow_subset : ∀ (regions : List (List String)) (p : String × String),
    p ∈ aboveBelow regions → p.1 ∈ regions.flatten ∧ p.2 ∈ regions.tail.flatten
  | [], p, h => by simp [aboveBelow] at h
  | [r], p, h => by simp [aboveBelow] at h
  | r1 :: r2 :: rs, p, h => by
    simp only [aboveBelow, List.mem_append] at h
    rcases h with h | h
    · obtain ⟨a, ha, h⟩ := List.mem_flatMap.1 h
      obtain ⟨b, hb, rfl⟩ := List.mem_map.1 h
      simp [ha, hb]
    · have ih := mem_aboveBelow_subset (r2 :: rs) p h
      refine ⟨?_, ?_⟩
      · rw [List.flatten_cons]; exact List.mem_append_right _ ih.1
      · have := ih.2
        simp only [List.tail_cons, List.flatten_cons, List.mem_append] at this ⊢
        exact Or.inr this

/-- With distinct instances no pair is generated in both senses, so the assertion holds. -/
theorem noReverse_of_nodup : ∀ regions : List (List String), regions.flatten.Nodup →
    noReverse [] (aboveBelow regions) = true := by
  intro regions hnd
  rw [noReverse_iff]
  suffices h : (aboveBelow regions).Pairwise (fun p q => (q.2, q.1) ≠ p) ∧
      ∀ q ∈ aboveBelow regions, q.1 ≠ q.2 by
    exact ⟨h.1, fun q hq => ⟨h.2 q hq, by simp⟩⟩
  induction regions with
  | nil => simp [aboveBelow]
  | cons r1 regions ih =>
    cases regions with
    | nil => simp [aboveBelow]
    | cons r2 rs =>
      rw [List.flatten_cons, List.nodup_append] at hnd
      obtain ⟨_, hnd2, hdis⟩ := hnd
      obtain ⟨ih1, ih2⟩ := ih hnd2
      have hfirst : ∀ q ∈ r1.flatMap (fun a => r2.map (fun b => (a, b))), q.1 ∈ r1 ∧ q.2 ∈ r2 := by
        intro q hq
        obtain ⟨a, ha, hq⟩ := List.mem_flatMap.1 hq
        obtain ⟨b, hb, rfl⟩ := List.mem_map.1 hq
        exact ⟨ha, hb⟩
      have hin : ∀ b ∈ r2, b ∈ (r2 :: rs).flatten := by
        intro b hb; simp [hb]
      constructor
      · rw [aboveBelow, List.pairwise_append]
        refine ⟨?_, ih1, ?_⟩
        · apply List.Pairwise.imp_of_mem (R := fun _ _ => True)
          · intro p q hp hq _ heq
            have h1 := (hfirst p hp).1
            have h2 := (hfirst q hq).2
            rw [← heq] at h1
            exact hdis _ h1 _ (hin _ h2) rfl
          · exact List.pairwise_of_forall (fun _ _ => trivial)
        · intro p hp q hq heq
          have h1 := (hfirst p hp).1
          rw [← heq] at h1
          have h2 := (mem_aboveBelow_subset _ q hq).2
          simp only [List.tail_cons] at h2
          refine hdis _ h1 _ ?_ rfl
          rw [List.flatten_cons]
          exact List.mem_append_right _ h2
      · intro q hq heq
        rw [aboveBelow] at hq
        rcases List.mem_append.1 hq with hq | hq
        · have h := hfirst q hq
          exact hdis _ h.1 _ (hin _ h.2) heq
        · exact ih2 q hq heq

theorem satisfied_user (names : List String) (β : String → Box Int) (bb : Box Int) (c : Cons)
    (ys : List Cons) (hu : isUser c = true) (hy : yieldConstraints c = some ys)
    (hys : ∀ y ∈ ys, isUser y = false) :
    Satisfied names β bb c ↔ ∀ y ∈ ys, Satisfied names β bb y := by
  have hm : ∀ l : List Cons, (∀ y ∈ l, isUser y = false) →
      ((∃ fs, l.mapM (translateHard names β bb) = some fs ∧ ∀ f ∈ fs.flatten, f = true) ↔
        ∀ y ∈ l, Satisfied names β bb y) := by
    intro l
    induction l with
    | nil => intro _; simp
    | cons y l ih =>
      intro hl
      have hy' : isUser y = false := hl y (by simp)
      have ih := ih (fun z hz => hl z (by simp [hz]))
      simp only [List.mem_cons, forall_eq_or_imp]
      rw [← ih]
      simp only [List.mapM_cons, Option.bind_eq_bind, Option.pure_def]
      simp only [Satisfied, translate, hy', Bool.false_eq_true, if_false]
      constructor
      · rintro ⟨fs, h1, h2⟩
        rw [Option.bind_eq_some_iff] at h1
        obtain ⟨a, h3, h1⟩ := h1
        rw [Option.bind_eq_some_iff] at h1
        obtain ⟨b, h4, h1⟩ := h1
        simp only [Option.some.injEq] at h1
        subst h1
        simp only [List.flatten_cons, List.mem_append, or_imp, forall_and] at h2
        exact ⟨⟨a, h3, h2.1⟩, b, h4, h2.2⟩
      · rintro ⟨⟨a, h3, h5⟩, b, h4, h6⟩
        refine ⟨a :: b, by rw [h3, Option.bind_some, h4, Option.bind_some], ?_⟩
        simp only [List.flatten_cons, List.mem_append, or_imp, forall_and]
        exact ⟨h5, h6⟩
  rw [← hm ys hys]
  simp only [Satisfied, translate, hu, if_true, hy, Option.bind_eq_bind, Option.bind_some,
    Option.bind_eq_some_iff, Option.some.injEq]
  constructor
  · rintro ⟨fs, ⟨g, h1, rfl⟩, h2⟩
    exact ⟨g, h1, h2⟩
  · rintro ⟨g, h1, h2⟩
    exact ⟨_, ⟨g, h1, rfl⟩, h2⟩

theorem satisfied_doNotIdentify (names : List String) (β : String → Box Int) (bb : Box Int)
    (is : List String) : Satisfied names β bb (.doNotIdentify is) :=
  ⟨[], rfl, by simp⟩

/-- `Floorplan` is satisfied exactly when the regions stand as documented. -/
theorem C38_floorplan (names : List String) (β : String → Box Int) (bb : Box Int)
    (regions : List (List String)) (order symmetrize : Bool)
    (hne : ∀ r ∈ regions, r ≠ []) (hnd : regions.flatten.Nodup)
    (hp : ∀ r ∈ regions, ∀ i ∈ r, Proper (β i)) :
    Satisfied names β bb (.floorplan regions order symmetrize) ↔
      FloorplanDoc (regions.map (fun r => r.map (fun i => (β i).toQ))) order symmetrize := by
  have hnr := noReverse_of_nodup regions hnd
  have hy : yieldConstraints (.floorplan regions order symmetrize) = some
      ((aboveBelow regions).map (fun p => .order [p.1, p.2] (some .topToBottom) false) ++
        (if order then
          (regions.filter (fun r => 1 < r.length)).map
            (fun r => .order r (some .leftToRight) false) else []) ++
        (if symmetrize then [.symmetricBlocks (regions.flatMap regionPairs) .x] else []) ++
        (if symmetrize && order then [.doNotIdentify regions.flatten] else [])) := by
    rw [yieldConstraints]
    simp only [hnr, if_true]
  rw [satisfied_user names β bb _ _ rfl hy]
  · simp only [List.mem_append, or_imp, forall_and, FloorplanDoc]
    have hp' : ∀ i, ∀ r ∈ regions, i ∈ r → (β i).toQ.llx ≤ (β i).toQ.urx := by
      intro i r hr hi
      have := (hp r hr i hi).1
      simp only [Box.toQ]
      exact_mod_cast this
    -- rows from top to bottom
    have part1 : (∀ y ∈ (aboveBelow regions).map
          (fun p => Cons.order [p.1, p.2] (some .topToBottom) false), Satisfied names β bb y) ↔
        (regions.map (fun r => r.map (fun i => (β i).toQ))).Pairwise
          (fun r1 r2 => ∀ a ∈ r1, ∀ b ∈ r2, b.ury ≤ a.lly) := by
      have e1 : (∀ y ∈ (aboveBelow regions).map
          (fun p => Cons.order [p.1, p.2] (some .topToBottom) false), Satisfied names β bb y) ↔
          ∀ p ∈ aboveBelow regions, (β p.2).ury ≤ (β p.1).lly := by
        simp only [List.mem_map, forall_exists_index, and_imp, forall_apply_eq_imp_iff₂]
        refine forall_congr' fun p => imp_congr_right fun _ => ?_
        rw [satisfied_order]
        simp [orderFormula, orderCc_iff, Box.ll, Box.ur]
      rw [e1, aboveBelow_iff (fun a b => (β b).ury ≤ (β a).lly), List.pairwise_map]
      have e2 : ∀ r1 r2 : List String, (∀ a ∈ r1.map (fun i => (β i).toQ),
          ∀ b ∈ r2.map (fun i => (β i).toQ), b.ury ≤ a.lly) ↔
          ∀ a ∈ r1, ∀ b ∈ r2, (β b).ury ≤ (β a).lly := by
        intro r1 r2
        simp only [List.mem_map, forall_exists_index, and_imp, forall_apply_eq_imp_iff₂, Box.toQ]
        refine forall_congr' fun a => imp_congr_right fun _ => forall_congr' fun b =>
          imp_congr_right fun _ => ?_
        exact_mod_cast Iff.rfl
      simp only [e2]
      constructor
      · intro h
        refine chain_pairwise (P := fun r => r ≠ [] ∧ ∀ i ∈ r, Proper (β i)) ?_
          (fun r hr => ⟨hne r hr, hp r hr⟩) h
        intro r1 r2 r3 h2 h12 h23 a ha c hc
        obtain ⟨b, hb⟩ := List.exists_mem_of_ne_nil r2 h2.1
        exact (h23 b hb c hc).trans (((h2.2 b hb).2).trans (h12 a ha b hb))
      · intro h
        exact h.isChain
    have part2 : (∀ y ∈ (if order = true then
          (regions.filter (fun r => 1 < r.length)).map
            (fun r => Cons.order r (some .leftToRight) false) else []), Satisfied names β bb y) ↔
        (order = true → ∀ r ∈ regions.map (fun r => r.map (fun i => (β i).toQ)), LeftToRight r) := by
      cases order
      · simp
      · simp only [if_true, List.forall_mem_map, List.mem_filter, decide_eq_true_eq, and_imp,
          forall_true_left]
        refine forall_congr' fun r => imp_congr_right fun hr => ?_
        have e : LeftToRight (r.map (fun i => (β i).toQ)) ↔ LeftToRight (r.map β) := by
          simp only [LeftToRight, List.pairwise_map, Box.toQ, Int.cast_le]
        rw [e]
        by_cases hlen : 1 < r.length
        · rw [C38_order_directed _ _ _ _ _ _ (by exact trivial) (hp r hr)]
          simp [hlen, Ordered]
        · simp only [hlen, false_imp_iff, true_iff]
          match r, hlen with
          | [], _ => simp [LeftToRight]
          | [x], _ => simp [LeftToRight]
          | x :: y :: l, hlen => simp at hlen
    have part3 : (∀ y ∈ (if symmetrize = true then
          [Cons.symmetricBlocks (regions.flatMap regionPairs) .x] else []),
          Satisfied names β bb y) ↔
        (symmetrize = true → ∃ line : ℚ, ∀ r ∈ regions.map (fun r => r.map (fun i => (β i).toQ)),
          ∀ i j : Nat, ∀ a b, r[i]? = some a → r[j]? = some b → i + j + 1 = r.length →
            Mirror .x line a b) := by
      cases symmetrize
      · simp
      · simp only [if_true, List.mem_singleton, forall_eq, forall_true_left]
        rw [C38_symmetric_blocks, symmetricDoc_iff]
        · refine exists_congr fun line => ?_
          simp only [List.forall_mem_map, List.length_map]
          constructor
          · intro h r hr
            rw [← regionPairs_iff β line r (hne r hr) (hp r hr)]
            intro p hpm
            exact h p (List.mem_flatMap.2 ⟨r, hr, hpm⟩)
          · intro h p hpm
            obtain ⟨r, hr, hpm⟩ := List.mem_flatMap.1 hpm
            exact (regionPairs_iff β line r (hne r hr) (hp r hr)).2 (h r hr) p hpm
        · intro p hpm
          obtain ⟨r, hr, hpm⟩ := List.mem_flatMap.1 hpm
          exact oneOrTwo_regionPairs r (hne r hr) p hpm
    have part4 : ∀ y ∈ (if (symmetrize && order) = true then [Cons.doNotIdentify regions.flatten]
        else []), Satisfied names β bb y := by
      intro y hy
      split at hy
      · simp only [List.mem_singleton] at hy
        subst hy
        exact satisfied_doNotIdentify _ _ _ _
      · simp at hy
    rw [part1, part2, part3]
    constructor
    · rintro ⟨⟨⟨h1, h2⟩, h3⟩, _⟩
      exact ⟨h1, h2, h3⟩
    · rintro ⟨h1, h2, h3⟩
      exact ⟨⟨⟨h1, h2⟩, h3⟩, part4⟩
  · intro y hy
    simp only [List.mem_append] at hy
    rcases hy with ((hy | hy) | hy) | hy
    · obtain ⟨p, _, rfl⟩ := List.mem_map.1 hy
      rfl
    · split at hy
      · obtain ⟨p, _, rfl⟩ := List.mem_map.1 hy
        rfl
      · simp at hy
    · split at hy
      · simp only [List.mem_singleton] at hy
        subst hy
        rfl
      · simp at hy
    · split at hy
      · simp only [List.mem_singleton] at hy
        subst hy
        rfl
      · simp at hy

/-- A floorplan of three rows. -/
def rows (n : String) : Box Int :=
  if n = "A" then ⟨0, 40, 10, 50⟩ else if n = "B" then ⟨15, 40, 25, 50⟩
  else if n = "C" then ⟨30, 40, 40, 50⟩ else if n = "D" then ⟨0, 20, 20, 30⟩
  else if n = "E" then ⟨20, 20, 40, 30⟩ else ⟨0, 0, 40, 10⟩

example : Satisfied [] rows ⟨0, 0, 40, 50⟩
      (.floorplan [["A", "B", "C"], ["D", "E"], ["F"]] true true) ∧
    (∀ r ∈ [["A", "B", "C"], ["D", "E"], ["F"]], r ≠ []) ∧
    [["A", "B", "C"], ["D", "E"], ["F"]].flatten.Nodup := by
  refine ⟨⟨_, rfl, by decide⟩, by decide, by decide⟩

/-! ## C39: the formulas of a sub-circuit -/

/-- The placement of the elements which the formulas of a sub-circuit are meant to describe. -/
def GoodPlacement (bs : List (Box ℚ)) (bb : Box ℚ) : Prop :=
  (bb.llx < bb.urx ∧ bb.lly < bb.ury) ∧
  (∀ b ∈ bs, (b.llx < b.urx ∧ b.lly < b.ury) ∧
    bb.llx ≤ b.llx ∧ bb.lly ≤ b.lly ∧ b.urx ≤ bb.urx ∧ b.ury ≤ bb.ury) ∧
  bs.Pairwise (fun a b => ¬ Overlap a b)

/-- The formulas mean that all the elements have positive size and lie in the box of the
sub-circuit; every good placement satisfies them.  Missing: that elements do not overlap, see
`C39_violated`. -/
theorem C39_elements_partial (names : List String) (β : String → Box Int) (bb : Box Int) :
    ((∀ f ∈ elementFormulas names β bb, f = true) ↔
      Solid bb ∧ ∀ n ∈ names, Solid (β n) ∧
        bb.llx ≤ (β n).llx ∧ bb.lly ≤ (β n).lly ∧ (β n).urx ≤ bb.urx ∧ (β n).ury ≤ bb.ury) ∧
    (GoodPlacement (names.map (fun n => (β n).toQ)) bb.toQ →
      ∀ f ∈ elementFormulas names β bb, f = true) := by
  have h1 : (∀ f ∈ elementFormulas names β bb, f = true) ↔
      Solid bb ∧ ∀ n ∈ names, Solid (β n) ∧
        bb.llx ≤ (β n).llx ∧ bb.lly ≤ (β n).lly ∧ (β n).urx ≤ bb.urx ∧ (β n).ury ≤ bb.ury := by
    simp only [elementFormulas, drain, combinations2, List.map_nil, List.append_nil,
      List.mem_append, List.mem_flatMap, List.mem_map, List.mem_cons, List.not_mem_nil, or_false]
    constructor
    · intro h
      refine ⟨⟨by simpa using h _ (Or.inl (Or.inl (Or.inl rfl))),
        by simpa using h _ (Or.inl (Or.inl (Or.inr rfl)))⟩, fun n hn => ⟨⟨?_, ?_⟩, ?_, ?_, ?_, ?_⟩⟩
      · simpa using h _ (Or.inl (Or.inr ⟨_, ⟨n, hn, rfl⟩, Or.inl rfl⟩))
      · simpa using h _ (Or.inl (Or.inr ⟨_, ⟨n, hn, rfl⟩, Or.inr rfl⟩))
      · simpa using h _ (Or.inr ⟨_, ⟨n, hn, rfl⟩, Or.inl rfl⟩)
      · simpa using h _ (Or.inr ⟨_, ⟨n, hn, rfl⟩, Or.inr (Or.inl rfl)⟩)
      · simpa using h _ (Or.inr ⟨_, ⟨n, hn, rfl⟩, Or.inr (Or.inr (Or.inl rfl))⟩)
      · simpa using h _ (Or.inr ⟨_, ⟨n, hn, rfl⟩, Or.inr (Or.inr (Or.inr rfl))⟩)
    · rintro ⟨hb, hn⟩ f (((rfl | rfl) | ⟨_, ⟨n, hm, rfl⟩, (rfl | rfl)⟩) |
        ⟨_, ⟨n, hm, rfl⟩, (rfl | rfl | rfl | rfl)⟩)
      · exact decide_eq_true hb.1
      · exact decide_eq_true hb.2
      · exact decide_eq_true (hn n hm).1.1
      · exact decide_eq_true (hn n hm).1.2
      · exact decide_eq_true (hn n hm).2.1
      · exact decide_eq_true (hn n hm).2.2.1
      · exact decide_eq_true (hn n hm).2.2.2.1
      · exact decide_eq_true (hn n hm).2.2.2.2
  refine ⟨h1, fun h => h1.2 ?_⟩
  obtain ⟨⟨b1, b2⟩, hn, _⟩ := h
  simp only [Box.toQ, List.mem_map, forall_exists_index, and_imp, forall_apply_eq_imp_iff₂,
    Int.cast_lt, Int.cast_le] at b1 b2 hn
  exact ⟨⟨b1, b2⟩, fun n hm => hn n hm⟩

/-- The formulas accept two elements on top of each other: the generator of the boxes is already
used up when the pairs are formed. -/
theorem C39_violated :
    (∀ f ∈ elementFormulas ["A", "B"] stacked ⟨0, 0, 500, 500⟩, f = true) ∧
      ¬ GoodPlacement (["A", "B"].map (fun n => (stacked n).toQ)) (Box.toQ ⟨0, 0, 500, 500⟩) := by
  constructor
  · decide
  · rintro ⟨_, _, h⟩
    simp only [List.map_cons, List.map_nil, List.pairwise_cons, List.mem_cons, List.not_mem_nil,
      or_false, forall_eq] at h
    apply h.1
    refine ⟨1, 1, ?_⟩
    norm_num [stacked, Box.toQ]

/-- With the boxes in a list instead of a generator the formulas would mean a good placement. -/
theorem combinations2_disjoint (bs : List (Box Int)) (hs : ∀ b ∈ bs, Solid b) :
    (∀ f ∈ (combinations2 bs).map (fun p => decide (p.1.urx ≤ p.2.llx) ||
      decide (p.2.urx ≤ p.1.llx) || decide (p.1.ury ≤ p.2.lly) || decide (p.2.ury ≤ p.1.lly)),
      f = true) ↔ (bs.map Box.toQ).Pairwise (fun a b => ¬ Overlap a b) := by
  have h0 : (∀ f ∈ (combinations2 bs).map (fun p => decide (p.1.urx ≤ p.2.llx) ||
      decide (p.2.urx ≤ p.1.llx) || decide (p.1.ury ≤ p.2.lly) || decide (p.2.ury ≤ p.1.lly)),
      f = true) ↔ bs.Pairwise (fun a b => a.urx ≤ b.llx ∨ b.urx ≤ a.llx ∨ a.ury ≤ b.lly ∨
        b.ury ≤ a.lly) := by
    rw [← mem_combinations2_iff]
    simp only [List.mem_map, forall_exists_index, and_imp, forall_apply_eq_imp_iff₂,
      Bool.or_eq_true, decide_eq_true_eq, or_assoc]
  rw [h0, List.pairwise_map]
  have h1 : ∀ a ∈ bs, ∀ b ∈ bs, (a.urx ≤ b.llx ∨ b.urx ≤ a.llx ∨ a.ury ≤ b.lly ∨ b.ury ≤ a.lly ↔
      ¬ Overlap a.toQ b.toQ) := by
    intro a ha b hb
    constructor
    · rintro h ⟨x, y, h1, h2, h3, h4, h5, h6, h7, h8⟩
      simp only [Box.toQ] at h1 h2 h3 h4 h5 h6 h7 h8
      rcases h with h | h | h | h <;> [have h' : (a.urx : ℚ) ≤ b.llx := (by exact_mod_cast h);
        have h' : (b.urx : ℚ) ≤ a.llx := (by exact_mod_cast h);
        have h' : (a.ury : ℚ) ≤ b.lly := (by exact_mod_cast h);
        have h' : (b.ury : ℚ) ≤ a.lly := (by exact_mod_cast h)] <;> linarith
    · intro h
      by_contra hc
      push Not at hc
      apply h
      obtain ⟨u, hu⟩ := (facing_iff a b .x ((hs a ha).axis _) ((hs b hb).axis _)).2 ⟨hc.1, hc.2.1⟩
      obtain ⟨v, hv⟩ := (facing_iff a b .y ((hs a ha).axis _) ((hs b hb).axis _)).2
        ⟨hc.2.2.1, hc.2.2.2⟩
      exact ⟨u, v, hu.1, hu.2.1, hu.2.2.1, hu.2.2.2, hv.1, hv.2.1, hv.2.2.1, hv.2.2.2⟩
  constructor
  · intro h
    exact h.imp_of_mem (fun ha hb => (h1 _ ha _ hb).1)
  · intro h
    exact h.imp_of_mem (fun ha hb => (h1 _ ha _ hb).2)

end Verif.Cons

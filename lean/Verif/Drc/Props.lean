import Verif.Drc.Model
import Verif.RemoveDup.Props
import Verif.Grid.Props

/-! # Properties C15–C18 of the design rule checks -/

namespace Verif.Drc

open Verif.RemoveDup (Rect Dir)

/-! ## Specification -/

/-- The rectangles of a scan line in order, with room between them. -/
def Separated (d : Dir) (rs : List Rect) : Prop := rs.Pairwise fun a b => a.hi d < b.lo d

/-- Each rectangle ends after its start. -/
def Proper (d : Dir) (rs : List Rect) : Prop := ∀ r ∈ rs, r.lo d ≤ r.hi d

/-- Inside one of the exempt regions. -/
def Exempt (regions : List Rect) (r : Rect) : Prop := ∃ g ∈ regions, Verif.RemoveDup.Inside r g

theorem containedIn_iff (regions : List Rect) (r : Rect) : containedIn regions r = true ↔ Exempt regions r := by
  induction regions with
  | nil => simp [containedIn, Exempt]
  | cons g gs ih =>
    unfold containedIn
    split
    · rename_i h
      simp only [true_iff]
      exact ⟨g, by simp, h.1, h.2.1, h.2.2.1, h.2.2.2⟩
    · rename_i h
      rw [ih]
      constructor
      · rintro ⟨g', hg', hi⟩; exact ⟨g', List.mem_cons_of_mem _ hg', hi⟩
      · rintro ⟨g', hg', hi⟩
        rcases List.mem_cons.mp hg' with rfl | hg'
        · exact absurd ⟨hi.1, hi.2.1, hi.2.2.1, hi.2.2.2⟩ h
        · exact ⟨g', hg', hi⟩

/-! ## C15 -/

theorem spacingLoop_nil_iff (regions : List Rect) (minS : Int) (d : Dir) : ∀ (rs : List Rect) (p : Rect),
    (p :: rs).Pairwise (fun a b => a.hi d < b.lo d) → (∀ r ∈ p :: rs, r.lo d ≤ r.hi d) →
    (spacingLoop regions minS d (some p) rs = [] ↔
      (p :: rs).Pairwise fun a b => Exempt regions b ∨ minS ≤ b.lo d - a.hi d) := by
  intro rs
  induction rs with
  | nil => intro p _ _; simp [spacingLoop]
  | cons r rs ih =>
    intro p hs hp
    have hs' := List.pairwise_cons.mp hs
    have hpr : p.hi d < r.lo d := hs'.1 r (by simp)
    have hr := List.pairwise_cons.mp hs'.2
    have hrr : r.lo d ≤ r.hi d := hp r (by simp)
    have ih' := ih r hs'.2 (fun x hx => hp x (List.mem_cons_of_mem _ hx))
    have hstep : (p :: r :: rs).Pairwise (fun a b => Exempt regions b ∨ minS ≤ b.lo d - a.hi d) ↔
        (Exempt regions r ∨ minS ≤ r.lo d - p.hi d) ∧
        (r :: rs).Pairwise (fun a b => Exempt regions b ∨ minS ≤ b.lo d - a.hi d) := by
      rw [List.pairwise_cons]
      constructor
      · rintro ⟨h1, h2⟩; exact ⟨h1 r (by simp), h2⟩
      · rintro ⟨h1, h2⟩
        refine ⟨fun b hb => ?_, h2⟩
        rcases List.mem_cons.mp hb with rfl | hb
        · exact h1
        · rcases (List.pairwise_cons.mp h2).1 b hb with h | h
          · exact Or.inl h
          · have := hr.1 b hb
            right; omega
    rw [hstep, ← ih']
    simp only [spacingLoop]
    by_cases hgap : 0 < r.lo d - p.hi d ∧ r.lo d - p.hi d < minS
    · rw [if_pos hgap]
      by_cases hc : containedIn regions r = true
      · rw [if_pos hc]
        exact ⟨fun h => ⟨Or.inl ((containedIn_iff _ _).mp hc), h⟩, fun h => h.2⟩
      · rw [if_neg hc]
        simp only [List.cons_ne_nil, false_iff, not_and]
        rintro (h | h) _
        · exact hc ((containedIn_iff _ _).mpr h)
        · omega
    · rw [if_neg hgap]
      exact ⟨fun h => ⟨Or.inr (by omega), h⟩, fun h => h.2⟩

/-- On a scan line with separated rectangles, the spacing check is silent exactly when every two rectangles (not
only neighbours) are at least the minimum apart, up to exempt ones. -/
theorem C15_min_spacing_iff (regions : List Rect) (minS : Int) (d : Dir) (rs : List Rect) (hsep : Separated d rs)
    (hp : Proper d rs) :
    checkMinSpacing regions minS d rs = [] ↔
      rs.Pairwise fun a b => Exempt regions b ∨ minS ≤ b.lo d - a.hi d := by
  cases rs with
  | nil => simp [checkMinSpacing, spacingLoop]
  | cons r rs => exact spacingLoop_nil_iff regions minS d rs r hsep hp

theorem spacingLoop_sound (regions : List Rect) (minS : Int) (d : Dir) : ∀ (rs : List Rect) (prev : Option Rect)
    (a b : Rect), (a, b) ∈ spacingLoop regions minS d prev rs →
      (prev = some a ∨ a ∈ rs) ∧ b ∈ rs ∧ 0 < b.lo d - a.hi d ∧ b.lo d - a.hi d < minS ∧ ¬ Exempt regions b := by
  intro rs
  induction rs with
  | nil => intro prev a b h; simp [spacingLoop] at h
  | cons r rs ih =>
    intro prev a b h
    have tail : (a, b) ∈ spacingLoop regions minS d (some r) rs →
        (prev = some a ∨ a ∈ r :: rs) ∧ b ∈ r :: rs ∧ 0 < b.lo d - a.hi d ∧ b.lo d - a.hi d < minS ∧
          ¬ Exempt regions b := by
      intro h
      obtain ⟨h1, h2, h3⟩ := ih (some r) a b h
      refine ⟨Or.inr ?_, List.mem_cons_of_mem _ h2, h3⟩
      rcases h1 with h1 | h1
      · simp only [Option.some.injEq] at h1; subst h1; simp
      · exact List.mem_cons_of_mem _ h1
    cases prev with
    | none => exact tail h
    | some p =>
      simp only [spacingLoop] at h
      split at h
      · rename_i hgap
        split at h
        · exact tail h
        · rename_i hc
          rcases List.mem_cons.mp h with h | h
          · obtain ⟨rfl, rfl⟩ := Prod.mk.injEq .. ▸ h
            refine ⟨Or.inl rfl, by simp, hgap.1, hgap.2, ?_⟩
            rw [← containedIn_iff]; exact hc
          · exact tail h
      · exact tail h

/-- Every report names two rectangles of the line that are really too close, the second not exempt (for any line,
separated or not). -/
theorem C15_reports_real (regions : List Rect) (minS : Int) (d : Dir) (rs : List Rect) (a b : Rect)
    (h : (a, b) ∈ checkMinSpacing regions minS d rs) :
    a ∈ rs ∧ b ∈ rs ∧ 0 < b.lo d - a.hi d ∧ b.lo d - a.hi d < minS ∧ ¬ Exempt regions b := by
  obtain ⟨h1, h2⟩ := spacingLoop_sound regions minS d rs none a b h
  exact ⟨h1.resolve_left (by simp), h2⟩

/-- The scan lines that `removeDuplicates` leaves (plain wires, no shorts) meet the hypothesis of
`C15_min_spacing_iff`, so there the check decides the rule. -/
theorem C15_after_removeDuplicates (skip : List String) (layers : List (String × Dir))
    (stack : List (String × Option String × Option String)) (ts : List RemoveDup.Shape) (s : RemoveDup.St)
    (ls : List RemoveDup.Line) (h : RemoveDup.run skip layers stack ts = some (s, ls)) (hs : s.shorts = [])
    (l : RemoveDup.Line) (hl : l ∈ ls)
    (hplain : RemoveDup.PlainLine l.dir (RemoveDup.onLine ts l.layer l.dir l.center))
    (hp : Proper l.dir (l.rects.map fun i => (s.node i).rect)) (regions : List Rect) (minS : Int) :
    checkMinSpacing regions minS l.dir (l.rects.map fun i => (s.node i).rect) = [] ↔
      (l.rects.map fun i => (s.node i).rect).Pairwise fun a b => Exempt regions b ∨ minS ≤ b.lo l.dir - a.hi l.dir := by
  refine C15_min_spacing_iff regions minS l.dir _ ?_ hp
  have := RemoveDup.C10_no_abutting skip layers stack ts s ls h hs l hl hplain
  exact List.pairwise_map.mpr this

/-- Without the hypothesis the check can miss a violation: a rectangle nested in its predecessor hides it. -/
theorem C15_nested_missed :
    checkMinSpacing [] 10 .h [⟨0, 0, 100, 4⟩, ⟨10, 0, 20, 4⟩, ⟨101, 0, 200, 4⟩] = [] ∧
    ¬ ([⟨0, 0, 100, 4⟩, ⟨10, 0, 20, 4⟩, ⟨101, 0, 200, 4⟩] : List Rect).Pairwise fun a b =>
      10 ≤ b.lo .h - a.hi .h ∨ b.lo .h ≤ a.hi .h := by
  constructor
  · decide
  · simp [Rect.lo, Rect.hi]

example : Separated .h [⟨0, 0, 10, 4⟩, ⟨20, 0, 30, 4⟩, ⟨41, 0, 50, 4⟩] ∧
    Proper .h [⟨0, 0, 10, 4⟩, ⟨20, 0, 30, 4⟩, ⟨41, 0, 50, 4⟩] := by
  simp [Separated, Proper, Rect.lo, Rect.hi]

/-- Via spacing along a line of separated vias: silent exactly when all vias are far enough apart. -/
theorem C15_via_spacing_iff (d : Dir) (space : Int) (rs : List Rect) (hsep : Separated d rs) (hp : Proper d rs) :
    viaSpaceErrors d space rs = [] ↔ rs.Pairwise fun a b => space ≤ b.lo d - a.hi d := by
  induction rs with
  | nil => simp [viaSpaceErrors]
  | cons r0 rs ih =>
    cases rs with
    | nil => simp [viaSpaceErrors]
    | cons r1 rs =>
      have hs' := List.pairwise_cons.mp hsep
      have h01 : r0.hi d < r1.lo d := hs'.1 r1 (by simp)
      have hr := List.pairwise_cons.mp hs'.2
      have hrr : r1.lo d ≤ r1.hi d := hp r1 (by simp)
      have ih' := ih hs'.2 (fun x hx => hp x (List.mem_cons_of_mem _ hx))
      have hstep : (r0 :: r1 :: rs).Pairwise (fun a b => space ≤ b.lo d - a.hi d) ↔
          space ≤ r1.lo d - r0.hi d ∧ (r1 :: rs).Pairwise (fun a b => space ≤ b.lo d - a.hi d) := by
        rw [List.pairwise_cons]
        constructor
        · rintro ⟨h1, h2⟩; exact ⟨h1 r1 (by simp), h2⟩
        · rintro ⟨h1, h2⟩
          refine ⟨fun b hb => ?_, h2⟩
          rcases List.mem_cons.mp hb with rfl | hb
          · exact h1
          · have := (List.pairwise_cons.mp h2).1 b hb
            have := hr.1 b hb
            omega
      rw [hstep, ← ih']
      simp only [viaSpaceErrors]
      split
      · rename_i h; simp only [List.cons_ne_nil, false_iff, not_and]; omega
      · rename_i h; exact ⟨fun h' => ⟨by omega, h'⟩, fun h' => h'.2⟩

/-! ## C16 -/

/-- The length check reports exactly the rectangles that are too short and not exempt, each as often as it occurs. -/
theorem C16_min_length_exact (regions : List Rect) (minL : Int) (d : Dir) (rs : List Rect) :
    (∀ r, r ∈ checkMinLength regions minL d rs ↔ r ∈ rs ∧ r.hi d - r.lo d < minL ∧ ¬ Exempt regions r) ∧
    (∀ r, (checkMinLength regions minL d rs).count r =
      if r.hi d - r.lo d < minL ∧ containedIn regions r = false then rs.count r else 0) := by
  constructor
  · intro r
    induction rs with
    | nil => simp [checkMinLength]
    | cons a rs ih =>
      have hc := containedIn_iff regions a
      unfold checkMinLength
      split
      · rename_i hlt
        split
        · rename_i hin
          rw [ih, List.mem_cons]
          constructor
          · rintro ⟨h1, h2⟩; exact ⟨Or.inr h1, h2⟩
          · rintro ⟨rfl | h1, h2⟩
            · exact absurd (hc.mp hin) h2.2
            · exact ⟨h1, h2⟩
        · rename_i hin
          rw [List.mem_cons, ih, List.mem_cons]
          constructor
          · rintro (rfl | ⟨h1, h2⟩)
            · exact ⟨Or.inl rfl, hlt, fun h => hin (hc.mpr h)⟩
            · exact ⟨Or.inr h1, h2⟩
          · rintro ⟨rfl | h1, h2⟩
            · exact Or.inl rfl
            · exact Or.inr ⟨h1, h2⟩
      · rename_i hlt
        rw [ih, List.mem_cons]
        constructor
        · rintro ⟨h1, h2⟩; exact ⟨Or.inr h1, h2⟩
        · rintro ⟨rfl | h1, h2⟩
          · exact absurd h2.1 hlt
          · exact ⟨h1, h2⟩
  · intro r
    induction rs with
    | nil => simp [checkMinLength]
    | cons a rs ih =>
      unfold checkMinLength
      by_cases har : a = r
      · subst har
        by_cases h1 : a.hi d - a.lo d < minL
        · rw [if_pos h1]
          cases h2 : containedIn regions a <;> simp [h1, h2] at ih ⊢ <;> omega
        · rw [if_neg h1]
          simp only [h1, false_and, if_false] at ih ⊢
          exact ih
      · have hra : ¬ (a == r) = true := by simpa using har
        split
        · split
          · rw [ih, List.count_cons, if_neg hra]; simp
          · rw [List.count_cons, if_neg hra, List.count_cons, if_neg hra, ih]; simp
        · rw [ih, List.count_cons, if_neg hra]; simp

example : checkMinLength [⟨0, 0, 10, 10⟩] 8 .h [⟨0, 0, 4, 4⟩, ⟨20, 0, 25, 4⟩, ⟨30, 0, 40, 4⟩] = [⟨20, 0, 25, 4⟩] := by
  decide

/-! ## C17 -/

/-- The search ends, never indexes outside the line, and returns a rectangle covering `v` among positions
`l ≤ i < u`, if there is one. -/
theorem binarySearch_spec (d : Dir) (rs : List Rect) (v : Int) (hsep : Separated d rs) (hp : Proper d rs) :
    ∀ (fuel l u : Nat), u - l < fuel → l ≤ u → u ≤ rs.length →
    ∃ res, binarySearch d rs v fuel l u = some res ∧
      (∀ r, res = some r → r ∈ rs ∧ r.lo d ≤ v ∧ v ≤ r.hi d) ∧
      (res = none → ∀ i r, l ≤ i → i < u → rs[i]? = some r → ¬ (r.lo d ≤ v ∧ v ≤ r.hi d)) := by
  intro fuel
  induction fuel with
  | zero => intro l u h; omega
  | succ f ih =>
    intro l u hf hlu hu
    unfold binarySearch
    by_cases h1 : l = u
    · rw [if_pos h1]
      exact ⟨none, rfl, by simp, fun _ i r h2 h3 => by omega⟩
    · rw [if_neg h1]
      by_cases h2 : l + 1 = u
      · rw [if_pos h2]
        have hl : l < rs.length := by omega
        rw [List.getElem?_eq_getElem hl]
        simp only
        split
        · rename_i hc
          refine ⟨_, rfl, ?_, by simp⟩
          intro r hr
          simp only [Option.some.injEq] at hr; subst hr
          exact ⟨List.getElem_mem hl, hc⟩
        · rename_i hc
          refine ⟨_, rfl, by simp, ?_⟩
          intro _ i r hi1 hi2 hr
          have : i = l := by omega
          subst this
          rw [List.getElem?_eq_getElem hl] at hr
          simp only [Option.some.injEq] at hr; subst hr
          exact hc
      · rw [if_neg h2]
        simp only
        have hm1 : l < (l + u + 1) / 2 := by omega
        have hm2 : (l + u + 1) / 2 < u := by omega
        generalize hm : (l + u + 1) / 2 = m at hm1 hm2
        have hml : m < rs.length := by omega
        rw [List.getElem?_eq_getElem hml]
        simp only
        rw [Separated, List.pairwise_iff_getElem] at hsep
        split
        · rename_i hc
          obtain ⟨res, he, h3, h4⟩ := ih m u (by omega) (by omega) hu
          refine ⟨res, he, h3, fun hn i r hi1 hi2 hr => ?_⟩
          by_cases him : m ≤ i
          · exact h4 hn i r him hi2 hr
          · have hil : i < rs.length := by omega
            rw [List.getElem?_eq_getElem hil] at hr
            simp only [Option.some.injEq] at hr; subst hr
            have := hsep i m hil hml (by omega)
            omega
        · rename_i hc
          obtain ⟨res, he, h3, h4⟩ := ih l m (by omega) (by omega) (by omega)
          refine ⟨res, he, h3, fun hn i r hi1 hi2 hr => ?_⟩
          by_cases him : i < m
          · exact h4 hn i r hi1 him hr
          · have hil : i < rs.length := by omega
            rw [List.getElem?_eq_getElem hil] at hr
            simp only [Option.some.injEq] at hr; subst hr
            by_cases hie : i = m
            · subst hie; omega
            · have := hsep m i hml hil (by omega)
              have := hp _ (List.getElem_mem hml)
              omega

/-- The lookup terminates and returns exactly the wire of the line that covers the (rounded) via centre. -/
theorem C17_lookup_exact (d : Dir) (rs : List Rect) (via : Rect) (hsep : Separated d rs) (hp : Proper d rs) :
    ∃ res, findCovering d rs via = some res ∧
      ∀ r, res = some r ↔
        r ∈ rs ∧ r.lo d ≤ (via.lo d + via.hi d) / 2 ∧ (via.lo d + via.hi d) / 2 ≤ r.hi d := by
  have hfd : (via.lo d + via.hi d).fdiv 2 = (via.lo d + via.hi d) / 2 :=
    Int.fdiv_eq_ediv_of_nonneg _ (by omega)
  obtain ⟨res, he, h1, h2⟩ := binarySearch_spec d rs ((via.lo d + via.hi d) / 2) hsep hp (rs.length + 1) 0
    rs.length (by omega) (by omega) (le_refl _)
  refine ⟨res, by rw [findCovering, hfd]; exact he, fun r => ⟨h1 r, ?_⟩⟩
  rintro ⟨hr, hc⟩
  obtain ⟨i, hi, hir⟩ := List.getElem_of_mem hr
  cases hres : res with
  | none => exact absurd hc (h2 hres i r (by omega) hi (by rw [List.getElem?_eq_getElem hi, hir]))
  | some r' =>
    obtain ⟨hr', hc'⟩ := h1 r' hres
    obtain ⟨j, hj, hjr⟩ := List.getElem_of_mem hr'
    rw [Separated, List.pairwise_iff_getElem] at hsep
    rcases Nat.lt_trichotomy i j with h | h | h
    · have := hsep i j hi hj h; rw [hir, hjr] at this; omega
    · subst h; rw [hir] at hjr; rw [hjr]
    · have := hsep j i hj hi h; rw [hir, hjr] at this; omega

/-- Hence the enclosure rule for one metal is silent exactly when some wire of the line extends over the via by the
required amount on both sides. -/
theorem C17_enclosure_exact (d : Dir) (rs : List Rect) (via : Rect) (enc : Int) (hsep : Separated d rs)
    (hp : Proper d rs) (hv : via.lo d ≤ via.hi d) (henc : 0 ≤ enc) :
    ∃ err, checkSingleMetal d rs via enc = some err ∧
      (err = false ↔ ∃ m ∈ rs, m.lo d ≤ via.lo d - enc ∧ via.hi d + enc ≤ m.hi d) := by
  obtain ⟨res, he, hr⟩ := C17_lookup_exact d rs via hsep hp
  refine ⟨_, by rw [checkSingleMetal, he]; rfl, ?_⟩
  cases res with
  | none =>
    simp only [Bool.true_eq_false, false_iff, not_exists, not_and]
    intro m hm h1 h2
    have := (hr m).mpr ⟨hm, by omega, by omega⟩
    simp at this
  | some m0 =>
    obtain ⟨hm0, -⟩ := (hr m0).mp rfl
    simp only [Bool.or_eq_false_iff, decide_eq_false_iff_not, Int.not_lt, gt_iff_lt]
    constructor
    · rintro ⟨h1, h2⟩; exact ⟨m0, hm0, h1, h2⟩
    · rintro ⟨m, hm, h1, h2⟩
      have := (hr m).mpr ⟨hm, by omega, by omega⟩
      simp only [Option.some.injEq] at this
      subst this
      exact ⟨h1, h2⟩

/-- Overlapping wires on the line can hide the covering wire from the search (here the first one covers 50). -/
theorem C17_overlap_missed :
    findCovering .h [⟨0, 0, 100, 4⟩, ⟨10, 0, 20, 4⟩] ⟨48, 0, 52, 4⟩ = some none := by decide

example : findCovering .h [⟨0, 0, 10, 4⟩, ⟨20, 0, 30, 4⟩, ⟨40, 0, 60, 4⟩] ⟨48, 0, 52, 4⟩ =
    some (some ⟨40, 0, 60, 4⟩) := by decide

/-! ## C18 -/

/-- `k + 1` consecutive tracks, somewhere in the list. -/
def HasRun (k : Nat) (idxs : List Int) : Prop :=
  ∃ pre suf a, idxs = pre ++ (List.range (k + 1)).map (fun i : Nat => a + (i : Int)) ++ suf

theorem run_snoc {n : Nat} {a : Int} : (List.range (n + 1)).map (fun i : Nat => a + (i : Int)) =
    (List.range n).map (fun i : Nat => a + (i : Int)) ++ [a + n] := by
  rw [List.range_succ, List.map_append]; rfl

theorem nextCount_next (p : Int) (c : Nat) : nextCount (some p) c (p + 1) = c + 1 := by
  simp [nextCount]

theorem nextCount_other (p x : Int) (c : Nat) (h : x ≠ p + 1) : nextCount (some p) c x = 0 := by
  have : ¬ x - p = 1 := by omega
  simp [nextCount, this]

/-- Invariant: `count ≤ n` for a run of length `n` ending just before the rest. -/
theorem adjacentLoop_sound (k : Nat) : ∀ (rest pre : List Int) (a : Int) (n count : Nat),
    1 ≤ n → count ≤ n →
    true ∈ adjacentLoop k (some (a + n - 1)) count rest →
    HasRun k (pre ++ (List.range n).map (fun i : Nat => a + (i : Int)) ++ rest) := by
  intro rest
  induction rest with
  | nil => intro pre a n count _ _ h; simp [adjacentLoop] at h
  | cons x rest ih =>
    intro pre a n count hn hc h
    simp only [adjacentLoop, List.mem_cons] at h
    by_cases hx : x = a + n - 1 + 1
    · have hxe : x = a + (n : Int) := by omega
      rw [hx, nextCount_next] at h
      have hlist : pre ++ (List.range n).map (fun i : Nat => a + (i : Int)) ++ x :: rest =
          pre ++ (List.range (n + 1)).map (fun i : Nat => a + (i : Int)) ++ rest := by
        rw [run_snoc, hxe]; simp
      rw [hlist]
      rcases h with h | h
      · have hk : k + 1 ≤ n + 1 := by
          have : count + 1 > k := by simpa using h
          omega
        refine ⟨pre ++ (List.range (n - k)).map (fun i : Nat => a + (i : Int)), rest, a + ((n - k : Nat) : Int), ?_⟩
        have hsplit : (List.range (n + 1)).map (fun i : Nat => a + (i : Int)) =
            (List.range (n - k)).map (fun i : Nat => a + (i : Int)) ++
              (List.range (k + 1)).map (fun i : Nat => a + ((n - k : Nat) : Int) + (i : Int)) := by
          conv_lhs => rw [show n + 1 = (n - k) + (k + 1) by omega]
          rw [List.range_add, List.map_append, List.map_map]
          congr 1
          apply List.map_congr_left
          intro i _
          simp only [Function.comp_apply]
          push_cast; omega
        rw [hsplit]; simp
      · refine ih pre a (n + 1) (count + 1) (by omega) (by omega) ?_
        have he : a + ((n + 1 : Nat) : Int) - 1 = a + (n : Int) - 1 + 1 := by push_cast; omega
        rw [he]; exact h
    · rw [nextCount_other _ _ _ hx] at h
      have hlist : pre ++ (List.range n).map (fun i : Nat => a + (i : Int)) ++ x :: rest =
          (pre ++ (List.range n).map (fun i : Nat => a + (i : Int))) ++
            (List.range 1).map (fun i : Nat => x + (i : Int)) ++ rest := by simp
      rw [hlist]
      rcases h with h | h
      · simp at h
      · refine ih _ x 1 0 (by omega) (by omega) ?_
        have : x + ((1 : Nat) : Int) - 1 = x := by push_cast; omega
        rw [this]; exact h

/-- A report is always justified: there are `k + 1` vias on consecutive tracks. -/
theorem C18_reports_real (k : Nat) (idxs : List Int) (h : adjacentError k idxs = true) :
    HasRun k idxs := by
  cases idxs with
  | nil => simp [adjacentError, adjacentLoop] at h
  | cons x rest =>
    simp only [adjacentError, adjacentLoop, List.any_cons, id, Bool.or_eq_true, decide_eq_true_eq] at h
    change 1 > k ∨ (adjacentLoop k (some x) 1 rest).any (fun b => b) = true at h
    rcases h with h | h
    · have : k = 0 := by omega
      subst this
      exact ⟨[], rest, x, by simp⟩
    · have hm : true ∈ adjacentLoop k (some x) 1 rest := by
        rw [List.any_eq_true] at h
        obtain ⟨b, hb, hbt⟩ := h
        subst hbt; exact hb
      have := adjacentLoop_sound k rest [] x 1 1 (by omega) (by omega) (by
        have he : x + ((1 : Nat) : Int) - 1 = x := by push_cast; omega
        rw [he]; exact hm)
      simpa using this

theorem run_cons (n : Nat) (a : Int) : (List.range (n + 1)).map (fun i : Nat => a + (i : Int)) =
    a :: (List.range n).map (fun i : Nat => a + 1 + (i : Int)) := by
  rw [List.range_succ_eq_map, List.map_cons, List.map_map]
  congr 1
  · simp
  · apply List.map_congr_left
    intro i _
    simp only [Function.comp_apply]
    push_cast; omega

/-- Reaching the end of `m` more consecutive tracks from a counter value. -/
theorem adjacentLoop_run (k : Nat) : ∀ (m : Nat) (a : Int) (count : Nat) (suf : List Int), 1 ≤ m → count + m > k →
    true ∈ adjacentLoop k (some a) count ((List.range m).map (fun i : Nat => a + 1 + (i : Int)) ++ suf) := by
  intro m
  induction m with
  | zero => intro a count suf h; omega
  | succ m ih =>
    intro a count suf _ hc
    rw [run_cons, List.cons_append]
    simp only [adjacentLoop, List.mem_cons]
    rw [nextCount_next]
    by_cases hm : m = 0
    · left; subst hm
      simp; omega
    · right
      exact ih (a + 1) (count + 1) suf (by omega) (by omega)

theorem adjacentLoop_pre (k : Nat) : ∀ (pre rest : List Int) (prev : Option Int) (count : Nat),
    (∀ prev count, true ∈ adjacentLoop k (some prev) count rest) → pre ≠ [] →
    true ∈ adjacentLoop k prev count (pre ++ rest) := by
  intro pre
  induction pre with
  | nil => intro rest prev count _ h; simp at h
  | cons x pre ih =>
    intro rest prev count h _
    simp only [List.cons_append, adjacentLoop, List.mem_cons]
    right
    by_cases hp : pre = []
    · subst hp; exact h _ _
    · exact ih rest _ _ h hp

/-- Any `k + 2` consecutive tracks are reported, and `k + 1` consecutive tracks at the beginning of the line are.
Missing: `k + 1` consecutive tracks later on the line (see `C18_violated_later_run`). -/
theorem C18_long_runs_reported_partial (k : Nat) (hk : 1 ≤ k) (idxs : List Int) :
    (HasRun (k + 1) idxs → adjacentError k idxs = true) ∧
    ((∃ a suf, idxs = (List.range (k + 1)).map (fun i : Nat => a + (i : Int)) ++ suf) →
      adjacentError k idxs = true) := by
  have toErr : true ∈ adjacentLoop k none 0 idxs → adjacentError k idxs = true := by
    intro h; rw [adjacentError, List.any_eq_true]; exact ⟨true, h, rfl⟩
  have first : ∀ (n : Nat) (a : Int) (suf : List Int), k ≤ n →
      true ∈ adjacentLoop k none 0 ((List.range (n + 1)).map (fun i : Nat => a + (i : Int)) ++ suf) := by
    intro n a suf hn
    rw [run_cons, List.cons_append]
    simp only [adjacentLoop, List.mem_cons]
    right
    exact adjacentLoop_run k n a 1 suf (by omega) (by omega)
  constructor
  · rintro ⟨pre, suf, a, rfl⟩
    apply toErr
    by_cases hp : pre = []
    · subst hp
      simpa using first (k + 1) a suf (by omega)
    · rw [List.append_assoc]
      refine adjacentLoop_pre _ pre _ none 0 (fun prev count => ?_) hp
      rw [run_cons, List.cons_append]
      simp only [adjacentLoop, List.mem_cons]
      right
      exact adjacentLoop_run k (k + 1) a _ suf (by omega) (by omega)
  · rintro ⟨a, suf, rfl⟩
    exact toErr (first k a suf (le_refl _))

/-- At most two adjacent vias allowed; three on the consecutive tracks 5, 6, 7 after one on track 0 are not
reported, because the counter restarts at 0 instead of 1. -/
theorem C18_violated_later_run : HasRun 2 [0, 5, 6, 7] ∧ adjacentError 2 [0, 5, 6, 7] = false :=
  ⟨⟨[0], [], 5, by decide⟩, by decide⟩

/-- The same three vias alone are reported. -/
example : adjacentError 2 [5, 6, 7] = true := by decide

/-- A grid with one track per period: offset `o`, pitch `p`. -/
def uniform (o p : Int) : Verif.Grid.Grid String := ⟨[(o, "c"), (o + p, "c")], [0]⟩

/-- On such a grid the number used for a via centred on track `t` is `t`. -/
theorem viaIndex_uniform (o p : Int) (hp : 0 < p) (d : Dir) (r : Rect) (t : Int)
    (hr : r.lo d + r.hi d = 2 * (o + t * p)) : viaIndex (uniform o p) d r = some t := by
  have hf : (r.lo d + r.hi d).fdiv 2 = o + t * p := by
    rw [hr, Int.fdiv_eq_ediv_of_nonneg _ (by omega)]; omega
  have h1 : (o + t * p - o).fdiv p = t := by
    rw [show o + t * p - o = t * p by omega]; exact Int.mul_fdiv_cancel t (by omega)
  have h2 : (o + t * p - o).fmod p = 0 := by
    rw [show o + t * p - o = t * p by omega]; exact Int.mul_fmod_left t p
  have hmg : (uniform o p).monotonicGrid = [(0, o), (1, o + p)] := by
    have hsorted : [(0, o), ((1 : Nat), o + p)].Pairwise
        (fun a b : Nat × Int => (fun a b : Nat × Int => decide (a.2 ≤ b.2)) a b = true) := by
      simp; omega
    exact Verif.pySort_of_pairwise _ hsorted
  have hper : (uniform o p).period = some p := by simp [uniform, Verif.Grid.Grid.period]
  have hhead : (uniform o p).grid.head? = some (o, "c") := rfl
  rw [viaIndex, hf, Verif.Grid.Grid.inverseBounds, hhead, hper]
  simp only [hmg]
  rw [if_neg (by omega), h1, h2]
  simp [Verif.Grid.scan]

/-- Hence on a grid with one track per period the check of a whole via line reports only real runs of more than
`k` vias on consecutive tracks, and reports every such run that is longer than `k + 1` or at the start of the line. -/
theorem C18_uniform_grid_partial (o p : Int) (hp : 0 < p) (d : Dir) (k : Nat) (hk : 1 ≤ k) (rs : List Rect)
    (tracks : List Int)
    (hon : List.Forall₂ (fun (r : Rect) (t : Int) => r.lo d + r.hi d = 2 * (o + t * p)) rs tracks) :
    ∃ err, checkMaxAdjacent (uniform o p) d k rs = some err ∧
      (err = true → HasRun k tracks) ∧ (HasRun (k + 1) tracks → err = true) := by
  have hm : rs.mapM (viaIndex (uniform o p) d) = some tracks := by
    induction hon with
    | nil => rfl
    | cons h _ ih => simp [List.mapM_cons, viaIndex_uniform o p hp d _ _ h, ih]
  refine ⟨adjacentError k tracks, by simp [checkMaxAdjacent, hm], C18_reports_real k tracks,
    (C18_long_runs_reported_partial k hk tracks).1⟩

example : List.Forall₂ (fun (r : Rect) (t : Int) => r.lo .v + r.hi .v = 2 * (5 + t * 10))
    [⟨0, 3, 4, 7⟩, ⟨0, 13, 4, 17⟩] [0, 1] := by decide

/-- The number used is the number of the *period*. On a grid with two tracks per period (two colours, tracks at
0, 10, 20, ...), vias on six consecutive tracks get the numbers 0, 0, 1, 1, 2, 2 and are not reported even with a
limit of two, while three vias on every other track are reported. -/
theorem C18_violated_period :
    let g : Verif.Grid.Grid String := ⟨[(0, "c1"), (10, "c2"), (20, "c1")], [0, 1]⟩
    let via : Int → Rect := fun t => ⟨-2, 10 * t - 2, 2, 10 * t + 2⟩
    checkMaxAdjacent g .v 2 ([0, 1, 2, 3, 4, 5].map via) = some false ∧
    checkMaxAdjacent g .v 2 ([0, 2, 4].map via) = some true := by decide

/-! ## Attackers (part of C15) -/

/-- The check of two neighbouring tracks reports exactly the pairs whose ends are between 1 and `dist` apart. -/
theorem C15_attacker_exact (o : Dir) (dist : Int) (v0 v1 : List Rect) (a b : Rect) :
    (a, b) ∈ attackerErrors o dist v0 v1 ↔
      a ∈ v0 ∧ b ∈ v1 ∧ a.hi o < b.lo o ∧ b.lo o - a.hi o ≤ dist := by
  simp only [attackerErrors, List.mem_flatMap, List.mem_map, List.mem_filter, Bool.and_eq_true, decide_eq_true_eq,
    Prod.mk.injEq]
  constructor
  · rintro ⟨r0, h0, r1, ⟨h1, h2, h3⟩, rfl, rfl⟩; exact ⟨h0, h1, by omega, h3⟩
  · rintro ⟨h0, h1, h2, h3⟩; exact ⟨a, h0, b, ⟨h1, by omega, h3⟩, rfl, rfl⟩

end Verif.Drc

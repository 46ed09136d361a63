import Verif.GridCons.Model
import Mathlib.Data.Int.ModEq
import Mathlib.Tactic.Ring
import Mathlib.Tactic.Linarith

/-! # Properties C23 and C24 of grid constraints -/

namespace Verif.GridCons

/-! ## Specification -/

/-- Position `x` with orientation `s` meets the constraint: some alternative allows the orientation and an offset
congruent to the position. -/
def Sat (r : Pog) (x s : Int) : Prop :=
  ∃ t ∈ r.terms, s ∈ t.scalings ∧ ∃ o ∈ t.offsets, ∃ k : Int, x = o + k * r.pitch

/-- What the constructor of a constraint checks, and a positive pitch. -/
def Valid (r : Pog) : Prop :=
  0 < r.pitch ∧ ∀ t ∈ r.terms, (∀ o ∈ t.offsets, 0 ≤ o ∧ o < r.pitch) ∧ ∀ s ∈ t.scalings, s = 1 ∨ s = -1

theorem mkPog_spec (d : Axis) (p : Int) (ts : List Term) (hp : 0 < p) (r : Pog) :
    mkPog d p ts = some r ↔ r = ⟨d, p, ts⟩ ∧ Valid r := by
  have hall : (ts.all fun t =>
      (t.offsets.all fun o => decide (0 ≤ o) && decide (o < p)) &&
      (t.scalings.all fun s => decide (s = 1) || decide (s = -1))) = true ↔ Valid ⟨d, p, ts⟩ := by
    simp only [List.all_eq_true, Bool.and_eq_true, Bool.or_eq_true, decide_eq_true_eq, Valid]
    exact ⟨fun h => ⟨hp, h⟩, fun h => h.2⟩
  unfold mkPog
  split
  · rename_i h
    rw [Option.some.injEq]
    constructor
    · rintro rfl; exact ⟨rfl, hall.mp h⟩
    · rintro ⟨rfl, -⟩; rfl
  · rename_i h
    simp only [reduceCtorEq, false_iff, not_and]
    rintro rfl hv
    exact h (hall.mpr hv)

/-- `check` decides `Sat` for valid constraints. -/
theorem check_iff (r : Pog) (hv : Valid r) (x s : Int) : check r x s = true ↔ Sat r x s := by
  obtain ⟨hp, hv⟩ := hv
  simp only [check, List.any_eq_true, Bool.and_eq_true, List.contains_iff_mem, Sat]
  rw [Int.fmod_eq_emod_of_nonneg _ (by omega)]
  constructor
  · rintro ⟨t, ht, h1, h2⟩
    refine ⟨t, ht, h2, _, h1, x / r.pitch, ?_⟩
    have := Int.mul_ediv_add_emod x r.pitch
    rw [Int.mul_comm] at this
    omega
  · rintro ⟨t, ht, h2, o, ho, k, rfl⟩
    refine ⟨t, ht, ?_, h2⟩
    have hb := (hv t ht).1 o ho
    rw [Int.add_mul_emod_self_right, Int.emod_eq_of_lt hb.1 hb.2]
    exact ho

/-! ## lcm -/

theorem lcm2_spec (a b : Int) (ha : 0 < a) (hb : 0 < b) :
    ∃ m, lcm2 a b = some m ∧ 0 < m ∧ a ∣ m ∧ b ∣ m := by
  have hg : Int.gcd a b ≠ 0 := by
    intro h; rw [Int.gcd_eq_zero_iff] at h; omega
  have hgp : (0 : Int) < Int.gcd a b := by omega
  refine ⟨(a * b).fdiv (Int.gcd a b), by simp [lcm2, hg], ?_, ?_, ?_⟩
  all_goals rw [Int.fdiv_eq_ediv_of_nonneg _ (by omega)]
  · apply Int.ediv_pos_of_pos_of_dvd (Int.mul_pos ha hb) (by omega)
    exact Dvd.dvd.mul_right (Int.gcd_dvd_left ..) b
  · have hk : ((Int.gcd a b : Nat) : Int) ∣ b := Int.gcd_dvd_right ..
    rw [Int.mul_ediv_assoc _ hk]
    exact Dvd.intro _ rfl
  · have hk : ((Int.gcd a b : Nat) : Int) ∣ a := Int.gcd_dvd_left ..
    rw [Int.mul_comm, Int.mul_ediv_assoc _ hk]
    exact Dvd.intro _ rfl

theorem lcm_spec (xs : List Int) (hne : xs ≠ []) (hpos : ∀ x ∈ xs, 0 < x) :
    ∃ m, lcm xs = some m ∧ 0 < m ∧ ∀ x ∈ xs, x ∣ m := by
  cases xs with
  | nil => simp at hne
  | cons x xs =>
    have : ∀ (ys : List Int) (a : Int), 0 < a → (∀ y ∈ ys, 0 < y) →
        ∃ m, ys.foldlM lcm2 a = some m ∧ 0 < m ∧ a ∣ m ∧ ∀ y ∈ ys, y ∣ m := by
      intro ys
      induction ys with
      | nil => intro a ha _; exact ⟨a, rfl, ha, dvd_refl _, by simp⟩
      | cons y ys ih =>
        intro a ha hy
        obtain ⟨m1, e1, p1, d1, d2⟩ := lcm2_spec a y ha (hy y (by simp))
        obtain ⟨m, e, p, d, d'⟩ := ih m1 p1 (fun z hz => hy z (List.mem_cons_of_mem _ hz))
        refine ⟨m, by simp [List.foldlM_cons, e1, e], p, d1.trans d, ?_⟩
        intro z hz
        rcases List.mem_cons.mp hz with rfl | hz
        · exact d2.trans d
        · exact d' z hz
    obtain ⟨m, e, p, d, d'⟩ := this xs x (hpos x (by simp)) (fun y hy => hpos y (List.mem_cons_of_mem _ hy))
    refine ⟨m, e, p, ?_⟩
    intro z hz
    rcases List.mem_cons.mp hz with rfl | hz
    · exact d
    · exact d' z hz

/-! ## Pairs -/

theorem mem_rangeStep (n step : Int) (hn : 0 < n) (hs : 0 < step) :
    ∃ l, rangeStep n step = some l ∧ ∀ c, c ∈ l ↔ 0 ≤ c ∧ c < n ∧ step ∣ c := by
  refine ⟨_, by unfold rangeStep; rw [if_neg (by omega), if_neg (by omega)], fun c => ?_⟩
  rw [Int.fdiv_eq_ediv_of_nonneg _ (by omega)]
  have h1 := Int.mul_ediv_add_emod (-n) step
  have h2 := Int.emod_nonneg (-n) (b := step) (by omega)
  have h3 := Int.emod_lt_of_pos (-n) hs
  generalize hq : (-n) / step = q at *
  have hqneg : q < 0 := by
    by_contra h
    have : 0 ≤ step * q := Int.mul_nonneg (by omega) (by omega)
    omega
  simp only [List.mem_map, List.mem_range]
  constructor
  · rintro ⟨i, hi, rfl⟩
    have hi' : (i : Int) < -q := by omega
    refine ⟨Int.mul_nonneg (by omega) (by omega), ?_, Dvd.intro_left _ rfl⟩
    have : (i : Int) * step ≤ (-q - 1) * step := Int.mul_le_mul_of_nonneg_right (by omega) (by omega)
    have e : (-q - 1) * step = -(step * q) - step := by ring
    omega
  · rintro ⟨h4, h5, k, rfl⟩
    have hk : 0 ≤ k := by
      by_contra hk
      have : step * k < 0 := Int.mul_neg_of_pos_of_neg hs (by omega)
      omega
    refine ⟨k.toNat, ?_, ?_⟩
    · have : k < -q := by
        by_contra hge
        have : step * (-q) ≤ step * k := Int.mul_le_mul_of_nonneg_left (by omega) (by omega)
        have e : step * (-q) = -(step * q) := by ring
        omega
      omega
    · rw [Int.toNat_of_nonneg hk, Int.mul_comm]

/-- The pairs generated for a constraint are the allowed positions in one period of the merged constraint. -/
theorem genPairs_spec (n : Int) (r : Pog) (hv : Valid r) (hn : 0 < n) (hd : r.pitch ∣ n) :
    ∃ l, genPairs n r = some l ∧ ∀ x s, (x, s) ∈ l ↔ 0 ≤ x ∧ x < n ∧ Sat r x s := by
  obtain ⟨hp, hv⟩ := hv
  obtain ⟨cs, hcs, hmem⟩ := mem_rangeStep n r.pitch hn hp
  refine ⟨_, by rw [genPairs, hcs]; rfl, fun x s => ?_⟩
  simp only [List.mem_flatMap, List.mem_map, Prod.mk.injEq]
  constructor
  · rintro ⟨c, hc, t, ht, o, ho, s', hs', rfl, rfl⟩
    obtain ⟨h1, h2, k, rfl⟩ := (hmem c).mp hc
    obtain ⟨h3, h4⟩ := (hv t ht).1 o ho
    refine ⟨by omega, ?_, t, ht, hs', o, ho, k, by ring⟩
    obtain ⟨m, rfl⟩ := hd
    have : k < m := by
      by_contra h
      have : r.pitch * m ≤ r.pitch * k := Int.mul_le_mul_of_nonneg_left (by omega) (by omega)
      omega
    have : r.pitch * (k + 1) ≤ r.pitch * m := Int.mul_le_mul_of_nonneg_left (by omega) (by omega)
    have e : r.pitch * (k + 1) = r.pitch * k + r.pitch := by ring
    omega
  · rintro ⟨h1, h2, t, ht, hs, o, ho, k, rfl⟩
    obtain ⟨h3, h4⟩ := (hv t ht).1 o ho
    refine ⟨k * r.pitch, (hmem _).mpr ⟨?_, by omega, Dvd.intro_left _ rfl⟩, t, ht, o, ho, s, hs, by ring, rfl⟩
    by_contra hneg
    have hk : k ≤ -1 := by
      by_contra hk
      have : 0 ≤ k * r.pitch := Int.mul_nonneg (by omega) (by omega)
      omega
    have : k * r.pitch ≤ -1 * r.pitch := Int.mul_le_mul_of_nonneg_right hk (by omega)
    omega

theorem mem_interAll (l : List (Int × Int)) (ls : List (List (Int × Int))) (p : Int × Int) :
    p ∈ interAll (l :: ls) ↔ ∀ l' ∈ l :: ls, p ∈ l' := by
  simp only [interAll, List.mem_filter, List.all_eq_true, List.contains_iff_mem, List.mem_cons, forall_eq_or_imp]

/-! ## simplify -/

theorem mem_sortedSet (l : List Int) (x : Int) : x ∈ sortedSet l ↔ x ∈ l := by
  rw [sortedSet, mem_pySort, List.mem_eraseDups]

/-- The terms allow exactly the pairs with orientation 1 or -1. -/
theorem simplify_spec (pairs : List (Int × Int)) (x s : Int) (hs : s = 1 ∨ s = -1) :
    (∃ t ∈ simplify pairs, s ∈ t.scalings ∧ x ∈ t.offsets) ↔ (x, s) ∈ pairs := by
  have hif : ∀ (l : List Int) (sc : List Int) (t : Term),
      t ∈ (if l = [] then [] else [(⟨sortedSet l, sc⟩ : Term)]) ↔ l ≠ [] ∧ t = ⟨sortedSet l, sc⟩ := by
    intro l sc t
    by_cases h : l = [] <;> simp [h]
  simp only [simplify, List.mem_append, hif]
  constructor
  · rintro ⟨t, ((⟨-, rfl⟩ | ⟨-, rfl⟩) | ⟨-, rfl⟩), h1, h2⟩ <;>
      simp only [mem_sortedSet, List.mem_filter, List.mem_map, decide_eq_true_eq, List.contains_iff_mem,
        Prod.exists, exists_and_right, exists_eq_right, List.mem_cons, List.not_mem_nil, or_false] at h1 h2
    · obtain ⟨h3, h4⟩ := h2
      rcases h1 with rfl | rfl
      · exact h3
      · exact h4
    · obtain ⟨h3, -⟩ := h2
      subst h1; exact h3
    · obtain ⟨h3, -⟩ := h2
      subst h1; exact h3
  · intro h
    have pm : ∀ (v : Int), x ∈ (pairs.filter fun p => decide (p.2 = v)).map Prod.fst ↔ (x, v) ∈ pairs := by
      intro v
      simp only [List.mem_map, List.mem_filter, decide_eq_true_eq, Prod.exists, exists_and_right,
        exists_eq_right]
    have ne : ∀ {l : List Int}, x ∈ l → l ≠ [] := fun h => List.ne_nil_of_mem h
    by_cases hb : (x, (1 : Int)) ∈ pairs ∧ (x, (-1 : Int)) ∈ pairs
    · have hm : x ∈ ((pairs.filter fun p => decide (p.2 = 1)).map Prod.fst).filter fun o =>
          ((pairs.filter fun p => decide (p.2 = -1)).map Prod.fst).contains o := by
        rw [List.mem_filter, List.contains_iff_mem, pm, pm]; exact hb
      refine ⟨_, Or.inl (Or.inl ⟨ne hm, rfl⟩), ?_, (mem_sortedSet _ _).mpr hm⟩
      rcases hs with rfl | rfl <;> simp
    · have hnb : x ∉ ((pairs.filter fun p => decide (p.2 = 1)).map Prod.fst).filter fun o =>
          ((pairs.filter fun p => decide (p.2 = -1)).map Prod.fst).contains o := by
        rw [List.mem_filter, List.contains_iff_mem, pm, pm]; exact hb
      rcases hs with rfl | rfl
      · have hm : x ∈ ((pairs.filter fun p => decide (p.2 = 1)).map Prod.fst).filter fun o =>
            !((((pairs.filter fun p => decide (p.2 = 1)).map Prod.fst).filter fun o =>
              ((pairs.filter fun p => decide (p.2 = -1)).map Prod.fst).contains o).contains o) := by
          rw [List.mem_filter, pm]
          refine ⟨h, ?_⟩
          simpa only [Bool.not_eq_true', ← Bool.not_eq_true, List.contains_iff_mem] using hnb
        exact ⟨_, Or.inl (Or.inr ⟨ne hm, rfl⟩), by simp, (mem_sortedSet _ _).mpr hm⟩
      · have hm : x ∈ ((pairs.filter fun p => decide (p.2 = -1)).map Prod.fst).filter fun o =>
            !((((pairs.filter fun p => decide (p.2 = 1)).map Prod.fst).filter fun o =>
              ((pairs.filter fun p => decide (p.2 = -1)).map Prod.fst).contains o).contains o) := by
          rw [List.mem_filter, pm]
          refine ⟨h, ?_⟩
          simpa only [Bool.not_eq_true', ← Bool.not_eq_true, List.contains_iff_mem] using hnb
        exact ⟨_, Or.inr ⟨ne hm, rfl⟩, by simp, (mem_sortedSet _ _).mpr hm⟩

theorem simplify_range (pairs : List (Int × Int)) (t : Term) (ht : t ∈ simplify pairs) :
    (∀ o ∈ t.offsets, ∃ s, (o, s) ∈ pairs) ∧ ∀ s ∈ t.scalings, s = 1 ∨ s = -1 := by
  have hsc : ∀ s ∈ t.scalings, s = 1 ∨ s = -1 := by
    have hif : ∀ (l : List Int) (sc : List Int) (t : Term),
        t ∈ (if l = [] then [] else [(⟨sortedSet l, sc⟩ : Term)]) → t.scalings = sc := by
      intro l sc t
      by_cases h : l = [] <;> simp [h]
      rintro rfl; rfl
    simp only [simplify, List.mem_append] at ht
    rcases ht with (ht | ht) | ht <;> rw [hif _ _ _ ht] <;> simp
  refine ⟨fun o ho => ?_, hsc⟩
  have hne : ∃ s, s ∈ t.scalings := by
    have hif : ∀ (l : List Int) (sc : List Int) (t : Term),
        t ∈ (if l = [] then [] else [(⟨sortedSet l, sc⟩ : Term)]) → t.scalings = sc := by
      intro l sc t
      by_cases h : l = [] <;> simp [h]
      rintro rfl; rfl
    simp only [simplify, List.mem_append] at ht
    rcases ht with (ht | ht) | ht <;> rw [hif _ _ _ ht] <;> simp
  obtain ⟨s, hs⟩ := hne
  exact ⟨s, (simplify_spec pairs o s (hsc s hs)).mp ⟨t, ht, hs, ho⟩⟩

/-! ## C23 -/

theorem mapM_some {α β : Type} (f : α → Option β) (P : α → β → Prop) : ∀ (l : List α),
    (∀ a ∈ l, ∃ b, f a = some b ∧ P a b) → ∃ bs, l.mapM f = some bs ∧ List.Forall₂ P l bs := by
  intro l
  induction l with
  | nil => intro _; exact ⟨[], rfl, List.Forall₂.nil⟩
  | cons a l ih =>
    intro h
    obtain ⟨b, hb, hP⟩ := h a (by simp)
    obtain ⟨bs, hbs, hPs⟩ := ih (fun a ha => h a (List.mem_cons_of_mem _ ha))
    exact ⟨b :: bs, by simp [List.mapM_cons, hb, hbs], List.Forall₂.cons hP hPs⟩

theorem forall₂_mem_right {α β : Type} {P : α → β → Prop} {l : List α} {bs : List β}
    (h : List.Forall₂ P l bs) {Q : β → Prop} (R : α → Prop) (hQR : ∀ a b, P a b → (Q b ↔ R a)) :
    (∀ b ∈ bs, Q b) ↔ ∀ a ∈ l, R a := by
  induction h with
  | nil => simp
  | cons hp _ ih => simp only [List.mem_cons, forall_eq_or_imp, hQR _ _ hp, ih]

/-- The orientation a constraint allows is 1 or -1. -/
theorem Sat.sign {r : Pog} {x s : Int} (hv : Valid r) (h : Sat r x s) : s = 1 ∨ s = -1 := by
  obtain ⟨t, ht, hs, -⟩ := h
  exact (hv.2 t ht).2 s hs

/-- `Sat` depends on the position modulo the pitch only. -/
theorem Sat.shift {r : Pog} {x y s : Int} (h : ∃ k : Int, y = x + k * r.pitch) (hs : Sat r x s) : Sat r y s := by
  obtain ⟨k, rfl⟩ := h
  obtain ⟨t, ht, h1, o, ho, j, rfl⟩ := hs
  exact ⟨t, ht, h1, o, ho, j + k, by ring⟩

/-- Merging succeeds for valid constraints of one direction, and a position and orientation meets the result exactly
when it meets all of them. -/
theorem C23_merge_is_conjunction (rs : List Pog) (hne : rs ≠ []) (hv : ∀ r ∈ rs, Valid r) (d : Axis)
    (hd : ∀ r ∈ rs, r.direction = d) :
    ∃ m, merge rs = some m ∧ Valid m ∧ m.direction = d ∧ ∀ x s, Sat m x s ↔ ∀ r ∈ rs, Sat r x s := by
  cases rs with
  | nil => simp at hne
  | cons r0 rs =>
    obtain ⟨n, hn, hpos, hdvd⟩ := lcm_spec ((r0 :: rs).map Pog.pitch) (by simp) (by
      intro x hx
      obtain ⟨r, hr, rfl⟩ := List.mem_map.mp hx
      exact (hv r hr).1)
    have hdvd' : ∀ r ∈ r0 :: rs, r.pitch ∣ n := fun r hr => hdvd _ (List.mem_map.mpr ⟨r, hr, rfl⟩)
    obtain ⟨sets, hsets, hall⟩ := mapM_some (genPairs n)
      (fun r l => ∀ x s, (x, s) ∈ l ↔ 0 ≤ x ∧ x < n ∧ (r ∈ r0 :: rs → Sat r x s)) (r0 :: rs) (by
        intro r hr
        obtain ⟨l, hl, hm⟩ := genPairs_spec n r (hv r hr) hpos (hdvd' r hr)
        exact ⟨l, hl, fun x s => by rw [hm]; exact ⟨fun ⟨a, b, c⟩ => ⟨a, b, fun _ => c⟩, fun ⟨a, b, c⟩ => ⟨a, b, c hr⟩⟩⟩)
    have hdir : ((r0 :: rs).all fun r => decide (r0.direction = r.direction)) = true := by
      rw [List.all_eq_true]
      intro r hr
      simp only [decide_eq_true_eq]
      rw [hd r0 (by simp), hd r hr]
    have hsne : ∃ l ls, sets = l :: ls := by
      cases hall with
      | cons _ _ => exact ⟨_, _, rfl⟩
    obtain ⟨l0, ls, rfl⟩ := hsne
    have hinter : ∀ x s, (x, s) ∈ interAll (l0 :: ls) ↔ 0 ≤ x ∧ x < n ∧ ∀ r ∈ r0 :: rs, Sat r x s := by
      intro x s
      rw [mem_interAll]
      rw [forall₂_mem_right hall (Q := fun l => (x, s) ∈ l) (fun r => 0 ≤ x ∧ x < n ∧ (r ∈ r0 :: rs → Sat r x s))
        (fun r l h => h x s)]
      constructor
      · intro h
        have h0 := h r0 (by simp)
        exact ⟨h0.1, h0.2.1, fun r hr => (h r hr).2.2 hr⟩
      · rintro ⟨h1, h2, h3⟩ r hr
        exact ⟨h1, h2, h3 r⟩
    have hvalid : Valid ⟨r0.direction, n, simplify (interAll (l0 :: ls))⟩ := by
      refine ⟨hpos, fun t ht => ?_⟩
      obtain ⟨h1, h2⟩ := simplify_range _ t ht
      refine ⟨fun o ho => ?_, h2⟩
      obtain ⟨s, hs⟩ := h1 o ho
      have := (hinter o s).mp hs
      exact ⟨this.1, this.2.1⟩
    refine ⟨_, ?_, hvalid, hd r0 (by simp), ?_⟩
    · unfold merge
      simp only [hn, Option.bind_some, hdir, if_true, hsets]
      exact (mkPog_spec _ _ _ hpos _).mpr ⟨rfl, hvalid⟩
    · intro x s
      have hperiod : ∀ r ∈ r0 :: rs, ∃ k : Int, x = x % n + k * r.pitch := by
        intro r hr
        obtain ⟨m, hm⟩ := hdvd' r hr
        refine ⟨m * (x / n), ?_⟩
        have := Int.mul_ediv_add_emod x n
        have e : m * (x / n) * r.pitch = n * (x / n) := by
          generalize x / n = y
          rw [hm]; ring
        omega
      have hback : ∀ r ∈ r0 :: rs, ∃ k : Int, x % n = x + k * r.pitch := by
        intro r hr
        obtain ⟨k, hk⟩ := hperiod r hr
        exact ⟨-k, by rw [Int.neg_mul]; omega⟩
      have hx1 := Int.emod_nonneg x (b := n) (by omega)
      have hx2 := Int.emod_lt_of_pos x hpos
      constructor
      · intro h r hr
        have hs := Sat.sign hvalid h
        have : Sat ⟨r0.direction, n, simplify (interAll (l0 :: ls))⟩ (x % n) s :=
          Sat.shift (x := x) ⟨-(x / n), by
            have := Int.mul_ediv_add_emod x n
            have e : -(x / n) * n = -(n * (x / n)) := by ring
            simp only; omega⟩ h
        rw [← check_iff _ hvalid] at this
        simp only [check, List.any_eq_true, Bool.and_eq_true, List.contains_iff_mem] at this
        rw [Int.fmod_eq_emod_of_nonneg _ (by omega), Int.emod_eq_of_lt hx1 hx2] at this
        obtain ⟨t, ht, h1, h2⟩ := this
        have := (hinter _ _).mp ((simplify_spec _ _ _ hs).mp ⟨t, ht, h2, h1⟩)
        exact Sat.shift (hperiod r hr) (this.2.2 r hr)
      · intro h
        have hs := Sat.sign (hv r0 (by simp)) (h r0 (by simp))
        have hm := (hinter (x % n) s).mpr ⟨hx1, hx2, fun r hr => Sat.shift (hback r hr) (h r hr)⟩
        obtain ⟨t, ht, h1, h2⟩ := (simplify_spec _ _ _ hs).mpr hm
        refine ⟨t, ht, h1, _, h2, x / n, ?_⟩
        have := Int.mul_ediv_add_emod x n
        have e : (x / n) * n = n * (x / n) := by ring
        simp only; omega

/-- In particular the function `check` of the code is a conjunction on the merged constraint. -/
theorem C23_check_merge (rs : List Pog) (hne : rs ≠ []) (hv : ∀ r ∈ rs, Valid r) (d : Axis)
    (hd : ∀ r ∈ rs, r.direction = d) :
    ∃ m, merge rs = some m ∧ ∀ x s, check m x s = rs.all fun r => check r x s := by
  obtain ⟨m, hm, hvm, -, h⟩ := C23_merge_is_conjunction rs hne hv d hd
  refine ⟨m, hm, fun x s => ?_⟩
  rw [Bool.eq_iff_iff, check_iff m hvm, h, List.all_eq_true]
  exact ⟨fun h r hr => (check_iff r (hv r hr) x s).mpr (h r hr), fun h r hr => (check_iff r (hv r hr) x s).mp (h r hr)⟩

/-- **C23** Constraints for different axes are never merged into one. -/
theorem C23_rejects_mixed (rs : List Pog) (r r' : Pog) (hr : r ∈ rs) (hr' : r' ∈ rs) (hd : r.direction ≠ r'.direction) :
    merge rs = none := by
  unfold merge
  cases rs with
  | nil => rfl
  | cons r0 rs =>
    simp only
    cases lcm ((r0 :: rs).map Pog.pitch) with
    | none => rfl
    | some n =>
      simp only [Option.bind_some]
      rw [if_neg]
      simp only [List.all_eq_true, decide_eq_true_eq]
      intro h
      exact hd ((h r hr).symm.trans (h r' hr'))

example : merge [⟨.H, 4, [⟨[1], [1]⟩]⟩, ⟨.V, 4, [⟨[1], [1]⟩]⟩] = none := by decide

/-- Pitches 4 and 6 with different orientations. -/
example : merge [⟨.H, 4, [⟨[1], [1, -1]⟩]⟩, ⟨.H, 6, [⟨[3, 1], [1]⟩]⟩] = some ⟨.H, 12, [⟨[1, 9], [1]⟩]⟩ := by decide
example : Valid ⟨.H, 4, [⟨[1], [1, -1]⟩]⟩ ∧ Valid ⟨.H, 6, [⟨[3, 1], [1]⟩]⟩ := by
  simp [Valid]

/-! ## C24 -/

/-- All constraints of a list are met by a template placed with transformation `t`. -/
def SatAll (ps : List Pog) (t : Tr) : Prop := ∀ p ∈ ps, Sat p (along t p.direction).2 (along t p.direction).1

/-- Reflections only. -/
def Proper (t : Tr) : Prop := (t.sX = 1 ∨ t.sX = -1) ∧ (t.sY = 1 ∨ t.sY = -1)

theorem Proper.along {t : Tr} (h : Proper t) (d : Axis) : (along t d).1 = 1 ∨ (along t d).1 = -1 := by
  cases d
  · exact h.2
  · exact h.1

theorem along_mult (T t : Tr) (d : Axis) :
    along (Verif.Geometry.Transformation.mult T t) d =
      ((along T d).1 * (along t d).1, (along T d).1 * (along t d).2 + (along T d).2) := by
  cases d <;> rfl

theorem liftPog_spec (t : Tr) (ht : Proper t) (p : Pog) (hv : Valid p) :
    ∃ q, liftPog t p = some q ∧ Valid q ∧ q.direction = p.direction ∧
      ∀ T : Tr, Proper T → (Sat q (along T p.direction).2 (along T p.direction).1 ↔
        Sat p (along (T.mult t) p.direction).2 (along (T.mult t) p.direction).1) := by
  obtain ⟨hp, hv⟩ := hv
  have hs := ht.along p.direction
  generalize hso : along t p.direction = so at hs
  obtain ⟨s, o⟩ := so
  simp only at hs
  have hvalid : Valid ⟨p.direction, p.pitch,
      p.terms.flatMap fun t => t.offsets.flatMap fun offset => t.scalings.map fun scaling =>
        ⟨[(offset - s * o * scaling).fmod p.pitch], [s * scaling]⟩⟩ := by
    refine ⟨hp, fun tm htm => ?_⟩
    simp only [List.mem_flatMap, List.mem_map] at htm
    obtain ⟨t0, ht0, off, hoff, sc, hsc, rfl⟩ := htm
    constructor
    · intro o' ho'
      simp only [List.mem_singleton] at ho'
      subst ho'
      rw [Int.fmod_eq_emod_of_nonneg _ (by omega)]
      exact ⟨Int.emod_nonneg _ (by omega), Int.emod_lt_of_pos _ hp⟩
    · intro s' hs'
      simp only [List.mem_singleton] at hs'
      subst hs'
      rcases hs with rfl | rfl <;> rcases (hv t0 ht0).2 sc hsc with rfl | rfl <;> simp
  refine ⟨_, ?_, hvalid, rfl, ?_⟩
  · unfold liftPog
    rw [hso]
    simp only
    rw [if_neg (by omega)]
    exact (mkPog_spec _ _ _ hp _).mpr ⟨rfl, hvalid⟩
  · intro T hT
    rw [along_mult, hso]
    have hS := hT.along p.direction
    generalize along T p.direction = SX at hS
    obtain ⟨S, X⟩ := SX
    simp only at hS ⊢
    constructor
    · rintro ⟨tm, htm, h1, o', ho', k, hk⟩
      simp only [List.mem_flatMap, List.mem_map] at htm
      obtain ⟨t0, ht0, off, hoff, sc, hsc, rfl⟩ := htm
      simp only [List.mem_singleton] at h1 ho'
      simp only at hk
      subst ho'
      rw [Int.fmod_eq_emod_of_nonneg _ (by omega)] at hk
      have hm := Int.mul_ediv_add_emod (off - s * o * sc) p.pitch
      have hss : s * s = 1 := by rcases hs with rfl | rfl <;> rfl
      refine ⟨t0, ht0, ?_, off, hoff, k - (off - s * o * sc) / p.pitch, ?_⟩
      · have : S * s = sc := by rw [h1]; calc s * sc * s = s * s * sc := by ring
          _ = sc := by rw [hss]; ring
        rw [this]; exact hsc
      · have e1 : S * o = s * o * sc := by rw [h1]; ring
        have e2 : (k - (off - s * o * sc) / p.pitch) * p.pitch =
            k * p.pitch - p.pitch * ((off - s * o * sc) / p.pitch) := by ring
        rw [e1, e2, hk]; omega
    · rintro ⟨t0, ht0, h1, off, hoff, k, hk⟩
      have hss : s * s = 1 := by rcases hs with rfl | rfl <;> rfl
      refine ⟨⟨[(off - s * o * (S * s)).fmod p.pitch], [s * (S * s)]⟩, ?_, ?_, _, List.mem_singleton.mpr rfl,
        k + (off - s * o * (S * s)) / p.pitch, ?_⟩
      · simp only [List.mem_flatMap, List.mem_map]
        exact ⟨t0, ht0, off, hoff, S * s, h1, rfl⟩
      · simp only [List.mem_singleton]
        calc S = s * s * S := by rw [hss]; ring
          _ = s * (S * s) := by ring
      · rw [Int.fmod_eq_emod_of_nonneg _ (by omega)]
        have hm := Int.mul_ediv_add_emod (off - s * o * (S * s)) p.pitch
        have e1 : s * o * (S * s) = S * o := by
          calc s * o * (S * s) = s * s * (S * o) := by ring
            _ = S * o := by rw [hss]; ring
        have e2 : (k + (off - s * o * (S * s)) / p.pitch) * p.pitch =
            k * p.pitch + p.pitch * ((off - s * o * (S * s)) / p.pitch) := by ring
        simp only
        rw [e2]; omega

theorem splitAndMerge_spec (ps : List Pog) (hv : ∀ p ∈ ps, Valid p) :
    ∃ ms, splitAndMerge ps = some ms ∧ (∀ m ∈ ms, Valid m) ∧ ∀ t, SatAll ms t ↔ SatAll ps t := by
  -- the groups
  have hgroup : ∀ (l : List Pog) (tbl : List (Axis × List Pog)),
      (∀ g ∈ tbl, g.2 ≠ [] ∧ ∀ p ∈ g.2, p.direction = g.1) →
      (∀ g ∈ l.foldl (fun tbl r => addBin r.direction r tbl) tbl, g.2 ≠ [] ∧ ∀ p ∈ g.2, p.direction = g.1) ∧
      ∀ p, (∃ g ∈ l.foldl (fun tbl r => addBin r.direction r tbl) tbl, p ∈ g.2) ↔
        p ∈ l ∨ ∃ g ∈ tbl, p ∈ g.2 := by
    have hadd : ∀ (r : Pog) (tbl : List (Axis × List Pog)),
        (∀ g ∈ tbl, g.2 ≠ [] ∧ ∀ p ∈ g.2, p.direction = g.1) →
        (∀ g ∈ addBin r.direction r tbl, g.2 ≠ [] ∧ ∀ p ∈ g.2, p.direction = g.1) ∧
        ∀ p, (∃ g ∈ addBin r.direction r tbl, p ∈ g.2) ↔ p = r ∨ ∃ g ∈ tbl, p ∈ g.2 := by
      intro r tbl
      induction tbl with
      | nil => intro _; simp [addBin]
      | cons g tbl ih =>
        intro hg
        obtain ⟨k, v⟩ := g
        have hk := hg (k, v) (by simp)
        obtain ⟨ih1, ih2⟩ := ih (fun g h => hg g (List.mem_cons_of_mem _ h))
        unfold addBin
        split
        · rename_i hkr
          constructor
          · intro g' hg'
            rcases List.mem_cons.mp hg' with rfl | hg'
            · refine ⟨by simp, fun p hp => ?_⟩
              rcases List.mem_append.mp hp with hp | hp
              · exact hk.2 p hp
              · simp only [List.mem_singleton] at hp; subst hp; exact hkr.symm
            · exact hg g' (List.mem_cons_of_mem _ hg')
          · intro p
            simp only [List.mem_cons, exists_eq_or_imp, List.mem_append, List.not_mem_nil, or_false]
            constructor
            · rintro ((h | h) | h)
              · exact Or.inr (Or.inl h)
              · exact Or.inl h
              · exact Or.inr (Or.inr h)
            · rintro (h | h | h)
              · exact Or.inl (Or.inr h)
              · exact Or.inl (Or.inl h)
              · exact Or.inr h
        · constructor
          · intro g' hg'
            rcases List.mem_cons.mp hg' with rfl | hg'
            · exact hk
            · exact ih1 g' hg'
          · intro p
            simp only [List.mem_cons, exists_eq_or_imp, ih2]
            constructor
            · rintro (h | h | h)
              · exact Or.inr (Or.inl h)
              · exact Or.inl h
              · exact Or.inr (Or.inr h)
            · rintro (h | h | h)
              · exact Or.inr (Or.inl h)
              · exact Or.inl h
              · exact Or.inr (Or.inr h)
    intro l
    induction l with
    | nil => intro tbl h; exact ⟨h, by simp⟩
    | cons r l ih =>
      intro tbl h
      obtain ⟨h1, h2⟩ := hadd r tbl h
      obtain ⟨h3, h4⟩ := ih _ h1
      refine ⟨h3, fun p => ?_⟩
      rw [List.foldl_cons, h4, h2, List.mem_cons]
      constructor
      · rintro (h | h | h)
        · exact Or.inl (Or.inr h)
        · exact Or.inl (Or.inl h)
        · exact Or.inr h
      · rintro ((h | h) | h)
        · exact Or.inr (Or.inl h)
        · exact Or.inl h
        · exact Or.inr (Or.inr h)
  obtain ⟨g1, g2⟩ := hgroup ps [] (by simp)
  obtain ⟨ms, hms, hall⟩ := mapM_some merge
    (fun rs m => Valid m ∧ ∀ t, Sat m (along t m.direction).2 (along t m.direction).1 ↔ SatAll rs t)
    ((ps.foldl (fun tbl r => addBin r.direction r tbl) []).map Prod.snd) (by
      intro rs hrs
      obtain ⟨g, hg, rfl⟩ := List.mem_map.mp hrs
      have hmem : ∀ r ∈ g.2, r ∈ ps := fun r hr => ((g2 r).mp ⟨g, hg, hr⟩).resolve_right (by simp)
      obtain ⟨m, hm, hvm, hdm, hsm⟩ := C23_merge_is_conjunction g.2 (g1 g hg).1
        (fun r hr => hv r (hmem r hr)) g.1 (g1 g hg).2
      refine ⟨m, hm, hvm, fun t => ?_⟩
      rw [hsm]
      constructor
      · intro h p hp
        have := h p hp
        rw [hdm, ← (g1 g hg).2 p hp] at this
        exact this
      · intro h p hp
        have := h p hp
        rw [(g1 g hg).2 p hp] at this
        rw [hdm]; exact this)
  refine ⟨ms, hms, ?_, fun t => ?_⟩
  · have := (forall₂_mem_right (Q := fun m => Valid m) hall (fun _ => True)
      (fun a b h => ⟨fun _ => trivial, fun _ => h.1⟩)).mpr (fun _ _ => trivial)
    exact this
  · have := forall₂_mem_right (Q := fun m => Sat m (along t m.direction).2 (along t m.direction).1) hall
      (fun rs => SatAll rs t) (fun a b h => h.2 t)
    unfold SatAll at this ⊢
    rw [this]
    constructor
    · intro h p hp
      obtain ⟨g, hg, hpg⟩ := (g2 p).mpr (Or.inl hp)
      exact h g.2 (List.mem_map.mpr ⟨g, hg, rfl⟩) p hpg
    · rintro h rs hrs p hp
      obtain ⟨g, hg, rfl⟩ := List.mem_map.mp hrs
      exact h p (((g2 p).mp ⟨g, hg, hp⟩).resolve_right (by simp))

/-- The entries of a table. -/
def consOf (tbl : Table) (n : String) : List Pog := (tbl.lookup n).getD []

/-- One module: the constraint derived from the instances is met by the module at `T` exactly when every instance,
at its location composed with `T`, meets all constraints of its template. -/
theorem C24_module_exact (tbl : Table) (insts : List Inst)
    (hv : ∀ i ∈ insts, ∀ p ∈ consOf tbl i.template, Valid p)
    (hk : ∀ i ∈ insts, (tbl.lookup i.template).isSome) (hp : ∀ i ∈ insts, Proper i.tr) :
    ∃ ps, derived tbl insts = some ps ∧ (∀ p ∈ ps, Valid p) ∧
      ∀ T : Tr, Proper T → (SatAll ps T ↔ ∀ i ∈ insts, SatAll (consOf tbl i.template) (T.mult i.tr)) := by
  obtain ⟨qss, hqss, hall⟩ := mapM_some
    (fun (i : Inst) => (tbl.lookup i.template).bind fun ps => ps.mapM (liftPog i.tr))
    (fun i qs => (∀ q ∈ qs, Valid q) ∧
      ∀ T : Tr, Proper T → (SatAll qs T ↔ SatAll (consOf tbl i.template) (T.mult i.tr))) insts (by
      intro i hi
      obtain ⟨ps, hps⟩ := Option.isSome_iff_exists.mp (hk i hi)
      have hcons : consOf tbl i.template = ps := by simp [consOf, hps]
      obtain ⟨qs, hqs, hq⟩ := mapM_some (liftPog i.tr)
        (fun p q => Valid q ∧ ∀ T : Tr, Proper T →
          (Sat q (along T q.direction).2 (along T q.direction).1 ↔
            Sat p (along (T.mult i.tr) p.direction).2 (along (T.mult i.tr) p.direction).1)) ps (by
          intro p hpp
          obtain ⟨q, h1, h2, h3, h4⟩ := liftPog_spec i.tr (hp i hi) p (hv i hi p (hcons ▸ hpp))
          exact ⟨q, h1, h2, fun T hT => by rw [h3]; exact h4 T hT⟩)
      refine ⟨qs, by simp [hps, hqs], ?_, fun T hT => ?_⟩
      · exact (forall₂_mem_right (Q := fun q => Valid q) hq (fun _ => True)
          (fun a b h => ⟨fun _ => trivial, fun _ => h.1⟩)).mpr (fun _ _ => trivial)
      · rw [hcons]
        exact forall₂_mem_right hq _ (fun p q h => h.2 T hT))
  have hflat : childPogs tbl insts = some qss.flatten := by simp [childPogs, hqss]
  have hvf : ∀ p ∈ qss.flatten, Valid p := by
    have := (forall₂_mem_right (Q := fun qs => ∀ q ∈ qs, Valid q) hall (fun _ => True)
      (fun a b h => ⟨fun _ => trivial, fun _ => h.1⟩)).mpr (fun _ _ => trivial)
    intro p hpp
    obtain ⟨qs, h1, h2⟩ := List.mem_flatten.mp hpp
    exact this qs h1 p h2
  have hsf : ∀ T : Tr, Proper T →
      (SatAll qss.flatten T ↔ ∀ i ∈ insts, SatAll (consOf tbl i.template) (T.mult i.tr)) := by
    intro T hT
    rw [← forall₂_mem_right (Q := fun qs => SatAll qs T) hall _ (fun i qs h => h.2 T hT)]
    constructor
    · intro h qs hqs p hpp
      exact h p (List.mem_flatten.mpr ⟨qs, hqs, hpp⟩)
    · intro h p hpp
      obtain ⟨qs, h1, h2⟩ := List.mem_flatten.mp hpp
      exact h qs h1 p h2
  by_cases hnil : qss.flatten = []
  · refine ⟨[], by simp [derived, hflat, hnil], by simp, fun T hT => ?_⟩
    rw [← hsf T hT, hnil]
  · obtain ⟨ms, h1, h2, h3⟩ := splitAndMerge_spec qss.flatten hvf
    refine ⟨ms, by simp only [derived, hflat, Option.bind_some, if_neg hnil, h1], h2, fun T hT => ?_⟩
    rw [h3, hsf T hT]

theorem consOf_extend (tbl : Table) (n m : String) (ps : List Pog) (hn : (tbl.lookup n).isSome) :
    consOf (tbl.extend n ps) m = (if m = n then consOf tbl n ++ ps else consOf tbl m) ∧
    ((tbl.extend n ps).lookup m).isSome = (tbl.lookup m).isSome := by
  have hl : ∀ (tbl : Table), (tbl.extend n ps).lookup m =
      (tbl.lookup m).map fun v => if m = n then v ++ ps else v := by
    intro tbl
    induction tbl with
    | nil => simp [Table.extend]
    | cons e tbl ih =>
      obtain ⟨k, v⟩ := e
      simp only [Table.extend, List.map_cons] at ih ⊢
      by_cases hk : k = n
      · subst hk
        simp only [if_true]
        by_cases hm : m = k
        · subst hm; simp
        · have : (m == k) = false := by simpa using hm
          simp only [List.lookup_cons, this]
          exact ih
      · simp only [hk, if_false]
        by_cases hm : m = k
        · subst hm; simp [hk]
        · have : (m == k) = false := by simpa using hm
          simp only [List.lookup_cons, this]
          exact ih
  rw [consOf, hl]
  constructor
  · by_cases hm : m = n
    · subst hm
      obtain ⟨v, hv⟩ := Option.isSome_iff_exists.mp hn
      simp [consOf, hv]
    · simp [hm, consOf]
  · simp

/-- Children are treated before their parents. -/
def ChildrenFirst (mods : List (String × List Inst)) (order : List String) : Prop :=
  ∀ pre n post, order = pre ++ n :: post → ∀ insts, mods.lookup n = some insts →
    n ∉ pre ∧ ∀ i ∈ insts, i.template ∈ pre

/-- The whole pass over a hierarchy in topological order: it succeeds, and in the resulting table the constraints of
each module are met at `T` exactly when its own initial constraints are met at `T` and each child instance meets the
constraints (of the resulting table) of its template at the composed location. Leaves keep their constraints. -/
theorem C24_hierarchy_exact (mods : List (String × List Inst)) (order : List String) (tbl : Table)
    (hv : ∀ n, ∀ p ∈ consOf tbl n, Valid p) (hk : ∀ n ∈ order, (tbl.lookup n).isSome)
    (hp : ∀ n insts, mods.lookup n = some insts → ∀ i ∈ insts, Proper i.tr)
    (hcf : ChildrenFirst mods order) :
    ∃ tbl', genConstraints mods order tbl = some tbl' ∧ (∀ n, ∀ p ∈ consOf tbl' n, Valid p) ∧
      (∀ n, mods.lookup n = none ∨ n ∉ order → consOf tbl' n = consOf tbl n) ∧
      (∀ n ∈ order, ∀ insts, mods.lookup n = some insts → ∀ T : Tr, Proper T →
        (SatAll (consOf tbl' n) T ↔ SatAll (consOf tbl n) T ∧
          ∀ i ∈ insts, SatAll (consOf tbl' i.template) (T.mult i.tr))) := by
  -- general statement over a suffix of the order
  have main : ∀ (rest pre : List String) (cur : Table), order = pre ++ rest →
      (∀ n, ∀ p ∈ consOf cur n, Valid p) → (∀ n ∈ order, (cur.lookup n).isSome) →
      (∀ n, mods.lookup n = none ∨ n ∉ pre → consOf cur n = consOf tbl n) →
      (∀ n ∈ pre, ∀ insts, mods.lookup n = some insts → ∀ T : Tr, Proper T →
        (SatAll (consOf cur n) T ↔ SatAll (consOf tbl n) T ∧
          ∀ i ∈ insts, SatAll (consOf cur i.template) (T.mult i.tr))) →
      ∃ tbl', genConstraints mods rest cur = some tbl' ∧ (∀ n, ∀ p ∈ consOf tbl' n, Valid p) ∧
        (∀ n, mods.lookup n = none ∨ n ∉ order → consOf tbl' n = consOf tbl n) ∧
        (∀ n ∈ order, ∀ insts, mods.lookup n = some insts → ∀ T : Tr, Proper T →
          (SatAll (consOf tbl' n) T ↔ SatAll (consOf tbl n) T ∧
            ∀ i ∈ insts, SatAll (consOf tbl' i.template) (T.mult i.tr))) := by
    intro rest
    induction rest with
    | nil =>
      intro pre cur ho h1 h2 h3 h4
      simp only [List.append_nil] at ho
      subst ho
      exact ⟨cur, rfl, h1, h3, h4⟩
    | cons n rest ih =>
      intro pre cur ho h1 h2 h3 h4
      have hno : n ∈ order := by rw [ho]; simp
      cases hm : mods.lookup n with
      | none =>
        obtain ⟨tbl', e, r⟩ := ih (pre ++ [n]) cur (by rw [ho]; simp) h1 h2 (by
          rintro m (h | h)
          · exact h3 m (Or.inl h)
          · exact h3 m (Or.inr fun h' => h (List.mem_append_left _ h'))) (by
          intro m hmp insts hmi
          rcases List.mem_append.mp hmp with h | h
          · exact h4 m h insts hmi
          · simp only [List.mem_singleton] at h; subst h; rw [hm] at hmi; cases hmi)
        refine ⟨tbl', ?_, r⟩
        simp only [genConstraints, hm, h2 n hno, if_true]
        exact e
      | some insts =>
        obtain ⟨hnpre, hch⟩ := hcf pre n rest ho insts hm
        have hpreo : ∀ m ∈ pre, m ∈ order := fun m h => by rw [ho]; exact List.mem_append_left _ h
        obtain ⟨ps, hps, hvps, hsat⟩ := C24_module_exact cur insts (fun i _ => h1 i.template)
          (fun i hi => h2 _ (hpreo _ (hch i hi))) (hp n insts hm)
        have hext := fun m => consOf_extend cur n m ps (h2 n hno)
        have hchild : ∀ i ∈ insts, consOf (cur.extend n ps) i.template = consOf cur i.template := by
          intro i hi
          rw [(hext _).1, if_neg]
          intro h; exact hnpre (h ▸ hch i hi)
        obtain ⟨tbl', e, r⟩ := ih (pre ++ [n]) (cur.extend n ps) (by rw [ho]; simp) (by
            intro m p hpm
            rw [(hext m).1] at hpm
            split at hpm
            · rcases List.mem_append.mp hpm with h | h
              · exact h1 n p h
              · exact hvps p h
            · exact h1 m p hpm)
          (by intro m hmo; rw [(hext m).2]; exact h2 m hmo)
          (by
            intro m hmor
            rw [(hext m).1]
            split
            · rename_i hmn
              subst hmn
              rcases hmor with h | h
              · rw [hm] at h; cases h
              · exact absurd (by simp) h
            · rcases hmor with h | h
              · exact h3 m (Or.inl h)
              · exact h3 m (Or.inr fun h' => h (List.mem_append_left _ h')))
          (by
            intro m hmp insts' hmi T hT
            rcases List.mem_append.mp hmp with h | h
            · have hmn : m ≠ n := fun h' => hnpre (h' ▸ h)
              rw [(hext m).1, if_neg hmn, h4 m h insts' hmi T hT]
              -- the children of `m` come before `m`, so before `n`
              obtain ⟨p1, p2, hp12⟩ := List.append_of_mem h
              have hcm := (hcf p1 m (p2 ++ n :: rest) (by rw [ho, hp12]; simp) insts' hmi).2
              have : ∀ i ∈ insts', consOf (cur.extend n ps) i.template = consOf cur i.template := by
                intro i hi
                rw [(hext _).1, if_neg]
                intro h'
                exact hnpre (by rw [hp12, ← h']; exact List.mem_append_left _ (hcm i hi))
              constructor
              · rintro ⟨a, b⟩; exact ⟨a, fun i hi => by rw [this i hi]; exact b i hi⟩
              · rintro ⟨a, b⟩; exact ⟨a, fun i hi => by rw [← this i hi]; exact b i hi⟩
            · simp only [List.mem_singleton] at h
              subst h
              rw [hm, Option.some.injEq] at hmi
              subst hmi
              rw [(hext m).1, if_pos rfl, h3 m (Or.inr hnpre)]
              have hsplit : SatAll (consOf tbl m ++ ps) T ↔ SatAll (consOf tbl m) T ∧ SatAll ps T := by
                unfold SatAll; rw [List.forall_mem_append]
              rw [hsplit, hsat T hT]
              constructor
              · rintro ⟨a, b⟩; exact ⟨a, fun i hi => by rw [hchild i hi]; exact b i hi⟩
              · rintro ⟨a, b⟩; exact ⟨a, fun i hi => by rw [← hchild i hi]; exact b i hi⟩)
        refine ⟨tbl', ?_, r⟩
        simp only [genConstraints, hm, hps, Option.bind_some]
        exact e
  obtain ⟨tbl', e, r⟩ := main order [] tbl (by simp) hv hk (fun _ _ => rfl) (by simp)
  exact ⟨tbl', e, r⟩

/-- A module with two mirrored instances of a leaf; the order lists the leaf first. -/
example :
    genConstraints [("top", [⟨"leaf", { oY := 3, sY := -1 }⟩, ⟨"leaf", { oY := 4 }⟩])] ["leaf", "top"]
      [("leaf", [⟨.H, 6, [⟨[1], [1, -1]⟩]⟩]), ("top", [])] =
    some [("leaf", [⟨.H, 6, [⟨[1], [1, -1]⟩]⟩]), ("top", [⟨.H, 6, []⟩])] := by decide

example : ChildrenFirst [("top", [⟨"leaf", { oY := 3, sY := -1 }⟩])] ["leaf", "top"] := by
  intro pre n post h insts hl
  rcases pre with _ | ⟨a, _ | ⟨b, pre⟩⟩
  · simp only [List.nil_append, List.cons.injEq] at h
    obtain ⟨rfl, rfl⟩ := h
    simp [List.lookup_cons] at hl
  · simp only [List.cons_append, List.nil_append, List.cons.injEq] at h
    obtain ⟨rfl, rfl, rfl⟩ := h
    simp [List.lookup_cons] at hl
    subst hl; simp
  · simp only [List.cons_append, List.cons.injEq] at h
    obtain ⟨rfl, rfl, h⟩ := h
    simp at h

end Verif.GridCons

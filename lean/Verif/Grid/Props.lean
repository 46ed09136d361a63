import Verif.Grid.Lemmas

/-! # Properties C06-C08: grid coordinates, bracketing, snapping -/

namespace Verif.Grid

variable {α : Type}

/-! ## C06 -/

/-- Every flat index has a coordinate, a larger index a larger coordinate, one pattern of indices further the
coordinate is one period further with the same attributes, and the coordinates reached are exactly the lines of
the grid. -/
theorem C06_value (g : Grid α) (f l : Int) (h : Increasing g f l) :
    ∃ coord : Int → Int, ∃ attr : Int → α,
      (∀ v, g.valueFlat v false = some (coord v, attr v)) ∧
      (∀ v w, v < w → coord v < coord w) ∧
      (∀ v, coord (v + ((g.grid.length : Int) - 1)) = coord v + (l - f) ∧
            attr (v + ((g.grid.length : Int) - 1)) = attr v) ∧
      (∀ (i : Nat) (hi : i + 1 < g.grid.length), (coord i, attr i) = g.grid[i]) ∧
      (∀ x, IsLine g.coords f l x ↔ ∃ v, coord v = x) := by
  have h2 := h.two
  have hb := h.bounded
  have hn : g.n = (g.grid.length : Int) - 1 := rfl
  have key := fun q i hi => valueFlat_split h.head h.getLast h2 q i hi
  have hex : ∀ v, ∃ p : Int × α, g.valueFlat v false = some p := by
    intro v
    obtain ⟨q, i, hi, rfl⟩ := flat_split h2 v
    exact ⟨_, key q i hi⟩
  choose p hp using hex
  have hc : ∀ q i (hi : i + 1 < g.grid.length),
      p (q * g.n + i) = ((g.grid[i]'(by omega)).1 + q * (l - f), (g.grid[i]'(by omega)).2) := by
    intro q i hi
    have := hp (q * g.n + i)
    rw [key q i hi] at this
    exact (Option.some.inj this).symm
  have hs := List.pairwise_iff_getElem.mp h.sorted
  have hlen : g.coords.length = g.grid.length := by simp [Grid.coords]
  have hlt : ∀ i j (hi : i < g.grid.length) (hj : j < g.grid.length), i < j →
      (g.grid[i]).1 < (g.grid[j]).1 := by
    intro i j hi hj hij
    have := hs i j (by omega) (by omega) hij
    simpa [Grid.coords] using this
  have hF : (g.grid[0]'(by omega)).1 = f := by
    have := h.head
    rw [Grid.coords, List.head?_map, List.head?_eq_getElem?,
      List.getElem?_eq_getElem (by omega)] at this
    simpa using this
  have hL : (g.grid[g.grid.length - 1]'(by omega)).1 = l := by
    have := h.getLast
    rw [Grid.coords, List.getLast?_map, List.getLast?_eq_getElem?,
      List.getElem?_eq_getElem (by omega)] at this
    simpa using this
  have hstep : ∀ v, (p v).1 < (p (v + 1)).1 := by
    intro v
    obtain ⟨q, i, hi, rfl⟩ := flat_split h2 v
    rw [hc q i hi]
    by_cases hlast : i + 2 < g.grid.length
    · have := hc q (i + 1) (by omega)
      rw [show q * g.n + (i : Int) + 1 = q * g.n + ((i + 1 : Nat) : Int) by push_cast; ring, this]
      have := hlt i (i + 1) (by omega) (by omega) (by omega)
      simp only; omega
    · have := hc (q + 1) 0 (by omega)
      rw [show q * g.n + (i : Int) + 1 = (q + 1) * g.n + ((0 : Nat) : Int) by
        have : (i : Int) + 1 = g.n := by rw [hn]; omega
        push_cast; linarith, this]
      have := hlt i (g.grid.length - 1) (by omega) (by omega) (by omega)
      simp only; rw [hF]
      rw [hL] at this
      linarith
  refine ⟨fun v => (p v).1, fun v => (p v).2, hp, ?_, ?_, ?_, ?_⟩
  · intro v w hvw
    obtain ⟨k, rfl⟩ : ∃ k : Nat, w = v + (k + 1 : Nat) := ⟨(w - v - 1).toNat, by omega⟩
    clear hvw
    induction k with
    | zero => simpa using hstep v
    | succ k ih =>
      have := hstep (v + (k + 1 : Nat))
      simp only at ih ⊢
      rw [show v + ((k + 1 + 1 : Nat) : Int) = v + (k + 1 : Nat) + 1 by push_cast; ring]
      omega
  · intro v
    obtain ⟨q, i, hi, rfl⟩ := flat_split h2 v
    have := hc (q + 1) i hi
    rw [show q * g.n + (i : Int) + ((g.grid.length : Int) - 1) = (q + 1) * g.n + i by
      rw [hn]; ring]
    simp only [this, hc q i hi]
    exact ⟨by ring, trivial⟩
  · intro i hi
    have := hc 0 i hi
    simp only [zero_mul, zero_add, add_zero] at this
    simp [this]
  · intro x
    constructor
    · rintro ⟨c, hcm, q, rfl⟩
      obtain ⟨i, hi, rfl⟩ := List.getElem_of_mem hcm
      rw [hlen] at hi
      by_cases hlast : i + 1 < g.grid.length
      · refine ⟨q * g.n + i, ?_⟩
        simp [hc q i hlast, Grid.coords]
      · refine ⟨(q + 1) * g.n + (0 : Nat), ?_⟩
        have hil : i = g.grid.length - 1 := by omega
        subst hil
        simp only [hc (q + 1) 0 (by omega), hF, Grid.coords, List.getElem_map, hL]
        ring
    · rintro ⟨v, rfl⟩
      obtain ⟨q, i, hi, rfl⟩ := flat_split h2 v
      refine ⟨(g.grid[i]'(by omega)).1, ?_, q, ?_⟩
      · exact List.mem_map_of_mem (List.getElem_mem _)
      · simp [hc q i hi]

/-- With the legality check, exactly the legal indices have a value, and it is the same one. -/
theorem C06_value_checked (g : Grid α) (h2 : 2 ≤ g.grid.length)
    (hl : ∀ i ∈ g.legalIndices, i + 1 < g.grid.length) (v : Int) :
    (LegalFlat g v → g.valueFlat v true = g.valueFlat v false) ∧
    (¬ LegalFlat g v → g.valueFlat v true = none) := by
  have hn : g.n = (g.grid.length : Int) - 1 := rfl
  have hpos : g.n > 0 := by rw [hn]; omega
  obtain ⟨q, i, hi, rfl⟩ := flat_split h2 v
  have hmod : (q * g.n + i).fmod g.n = i := by
    rw [Int.fmod_eq_emod_of_nonneg _ (by omega), Int.add_comm, Int.add_mul_emod_self_right,
      Int.emod_eq_of_lt (by omega) (by rw [hn]; omega)]
  have hiff : LegalFlat g (q * g.n + i) ↔ i ∈ g.legalIndices := by
    constructor
    · rintro ⟨q', j, hj, he⟩
      have hj' := hl j hj
      have h3 : (q' * g.n + j).fmod g.n = j := by
        rw [Int.fmod_eq_emod_of_nonneg _ (by omega), Int.add_comm, Int.add_mul_emod_self_right,
          Int.emod_eq_of_lt (by omega) (by rw [hn]; omega)]
      rw [← hn] at he
      rw [← he, hmod] at h3
      have : i = j := by omega
      rwa [this]
    · intro hm
      exact ⟨q, i, hm, by rw [hn]⟩
  rw [hiff]
  constructor
  · intro hm
    simp [Grid.valueFlat, hmod, hm]
  · intro hm
    simp [Grid.valueFlat, hmod, hm]

/-- Tuple indices are flat indices. -/
theorem C06_tuple (g : Grid α) (idx : Int × Int) (check : Bool) :
    g.value idx check = g.valueFlat (flat g idx) check := rfl

/-- The pattern 0, 3, 7, 10 is increasing. -/
example : Increasing (⟨[(0, ()), (3, ()), (7, ()), (10, ())], [1, 2]⟩ : Grid Unit) 0 10 :=
  ⟨by decide, by decide, by decide, by decide⟩

/-! ## C07 -/

/-- Bracketing, for every grid whose pattern lies between its first and last coordinate (this includes enclosure
grids whose stop points are not in order). -/
theorem C07_inverseBounds (g : Grid α) (f l : Int) (h : Bounded g f l) (x : Int) :
    ∃ lo hi : Int × Int, ∃ cl ch : Int, ∃ al ah : α,
      g.inverseBounds x = some (lo, hi) ∧
      g.value lo false = some (cl, al) ∧ g.value hi false = some (ch, ah) ∧
      cl ≤ x ∧ x ≤ ch ∧
      IsLine g.coords f l cl ∧ IsLine g.coords f l ch ∧
      (∀ y, IsLine g.coords f l y → ¬ (cl < y ∧ y < ch)) ∧
      (lo = hi ↔ IsLine g.coords f l x) ∧
      (0 ≤ lo.2 ∧ lo.2 < g.grid.length ∧ 0 ≤ hi.2 ∧ hi.2 < g.grid.length) := by
  have h2 := h.two
  have hP : 0 < l - f := by have := h.lt; omega
  have hper := period_eq h.head h.getLast
  have hF : (g.grid[0]'(by omega)).1 = f := by
    have := h.head
    rw [Grid.coords, List.head?_map, List.head?_eq_getElem?,
      List.getElem?_eq_getElem (by omega)] at this
    simpa using this
  have hL : (g.grid[g.grid.length - 1]'(by omega)).1 = l := by
    have := h.getLast
    rw [Grid.coords, List.getLast?_map, List.getLast?_eq_getElem?,
      List.getElem?_eq_getElem (by omega)] at this
    simpa using this
  have hhead : g.grid.head? = some (g.grid[0]'(by omega)) := by
    rw [List.head?_eq_getElem?, List.getElem?_eq_getElem (by omega)]
  obtain ⟨q, hq⟩ : ∃ q, q = (x - f) / (l - f) := ⟨_, rfl⟩
  obtain ⟨r, hr⟩ : ∃ r, r = (x - f) % (l - f) := ⟨_, rfl⟩
  have hr0 : 0 ≤ r := by rw [hr]; exact Int.emod_nonneg _ (by omega)
  have hr1 : r < l - f := by rw [hr]; exact Int.emod_lt_of_pos _ hP
  have hx : x = f + r + q * (l - f) := by
    have := Int.mul_ediv_add_emod (x - f) (l - f)
    rw [← hq, ← hr] at this
    linarith [Int.mul_comm q (l - f)]
  have hinv : g.inverseBounds x
      = scan f r q ((g.monotonicGrid.getLast?.map Prod.fst).getD 0) g.monotonicGrid := by
    simp only [Grid.inverseBounds, hhead, hper, hF]
    rw [if_neg (by omega), Int.fdiv_eq_ediv_of_nonneg _ (by omega),
      Int.fmod_eq_emod_of_nonneg _ (by omega), ← hq, ← hr]
  obtain ⟨A, e, B, hsplit, hA, he, hs⟩ := scan_spec f r q
    ((g.monotonicGrid.getLast?.map Prod.fst).getD 0) g.monotonicGrid
    ⟨(g.grid.length - 1, l), by rw [mem_monotonicGrid]; exact ⟨by simp only; omega, hL⟩, by simp only; omega⟩
  have hsorted := monotonicGrid_sorted g
  have hge : ∀ c ∈ g.coords, f ≤ c ∧ c ≤ l := fun c hc => ⟨h.ge c hc, h.le c hc⟩
  have hmemc : ∀ i (hi : i < g.grid.length), (g.grid[i]).1 ∈ g.coords :=
    fun i hi => List.mem_map_of_mem (List.getElem_mem _)
  obtain ⟨hei, hev⟩ := (mem_monotonicGrid e).mp (by rw [hsplit]; simp)
  have hele : e.2 ≤ l := by rw [← hev]; exact (hge _ (hmemc _ hei)).2
  -- every pattern coordinate is below the remainder, or at least the entry found
  have hdich : ∀ c ∈ g.coords, (∃ a ∈ A, a.2 = c) ∨ e.2 ≤ c := by
    intro c hc
    obtain ⟨i, hi, rfl⟩ := List.getElem_of_mem hc
    have hi' : i < g.grid.length := by simpa [Grid.coords] using hi
    have hm : (i, (g.grid[i]).1) ∈ g.monotonicGrid := by
      rw [mem_monotonicGrid]; exact ⟨hi', rfl⟩
    rw [hsplit] at hm hsorted
    simp only [Grid.coords, List.getElem_map]
    rcases List.mem_append.mp hm with hm | hm
    · exact Or.inl ⟨_, hm, rfl⟩
    · right
      rcases List.mem_cons.mp hm with hm | hm
      · rw [← hm]
      · have := (List.pairwise_append.mp hsorted).2.1
        exact (List.pairwise_cons.mp this).1 _ hm
  -- lines around x
  have hline : ∀ y, IsLine g.coords f l y →
      ∃ c ∈ g.coords, ∃ k : Int, y = c + k * (l - f) := fun y hy => hy
  by_cases heq : e.2 - f = r
  · obtain ⟨a, ha⟩ := value_tuple h.head h.getLast h2 q e.1 hei
    have hxe : (g.grid[e.1]).1 + q * (l - f) = x := by rw [hev, hx]; omega
    have hxl : IsLine g.coords f l x := ⟨_, hmemc _ hei, q, hxe.symm⟩
    refine ⟨(q, (e.1 : Int)), (q, (e.1 : Int)), x, x, a, a, ?_, ?_, ?_, le_refl _, le_refl _,
      hxl, hxl, ?_, ?_, ?_⟩
    · rw [hinv, hs, if_pos heq]
    · rw [ha, hxe]
    · rw [ha, hxe]
    · intro y _ hy; omega
    · simp [hxl]
    · simp only; omega
  · -- strictly between
    have hAne : A ≠ [] := by
      rintro rfl
      have hd := hdich f (by
        have := hmemc 0 (by omega); rwa [hF] at this)
      simp at hd
      omega
    obtain ⟨a, haL⟩ : ∃ a, A.getLast? = some a := by
      cases hh : A.getLast? with
      | none => exact absurd (by simpa using hh) hAne
      | some a => exact ⟨a, rfl⟩
    have haA : a ∈ A := List.mem_of_getLast? haL
    obtain ⟨hai, hav⟩ := (mem_monotonicGrid a).mp (by rw [hsplit]; simp [haA])
    have halt := hA a haA
    have hage : f ≤ a.2 := by rw [← hav]; exact (hge _ (hmemc _ hai)).1
    have hmax : ∀ b ∈ A, b.2 ≤ a.2 := by
      intro b hb
      obtain ⟨A', rfl⟩ := List.getLast?_eq_some_iff.mp haL
      rw [hsplit] at hsorted
      have hs1 := (List.pairwise_append.mp hsorted).1
      rcases List.mem_append.mp hb with hb | hb
      · exact (List.pairwise_append.mp hs1).2.2 b hb a (by simp)
      · simp at hb; rw [hb]
    obtain ⟨vl, hvl⟩ := value_tuple h.head h.getLast h2 q a.1 hai
    obtain ⟨vh, hvh⟩ := value_tuple h.head h.getLast h2 q e.1 hei
    have hnoline : ∀ y, IsLine g.coords f l y →
        ¬ (a.2 + q * (l - f) < y ∧ y < e.2 + q * (l - f)) := by
      rintro y ⟨c, hc, k, rfl⟩ ⟨hy1, hy2⟩
      have hcb := hge c hc
      have hk : k = q := by
        by_contra hne
        rcases Int.lt_or_gt_of_ne hne with hlt | hgt
        · have : (k + 1) * (l - f) ≤ q * (l - f) :=
            Int.mul_le_mul_of_nonneg_right (by omega) (by omega)
          have e1 : (k + 1) * (l - f) = k * (l - f) + (l - f) := by ring
          omega
        · have : (q + 1) * (l - f) ≤ k * (l - f) :=
            Int.mul_le_mul_of_nonneg_right (by omega) (by omega)
          have e1 : (q + 1) * (l - f) = q * (l - f) + (l - f) := by ring
          omega
      subst hk
      rcases hdich c hc with ⟨b, hb, rfl⟩ | hle
      · have := hmax b hb; omega
      · omega
    refine ⟨(q, (a.1 : Int)), (q, (e.1 : Int)), a.2 + q * (l - f), e.2 + q * (l - f), vl, vh,
      ?_, ?_, ?_, ?_, ?_, ⟨_, hmemc _ hai, q, by rw [hav]⟩, ⟨_, hmemc _ hei, q, by rw [hev]⟩,
      hnoline, ?_, ?_⟩
    · rw [hinv, hs, if_neg heq, haL]; rfl
    · rw [hvl, hav]
    · rw [hvh, hev]
    · omega
    · omega
    · have hne : ((q, (a.1 : Int)) : Int × Int) ≠ (q, (e.1 : Int)) := by
        intro hcon
        have : a.1 = e.1 := by simpa using hcon
        have h3 : a.2 = e.2 := by
          rw [← hav, ← hev]; simp only [this]
        omega
      constructor
      · intro hcon; exact absurd hcon hne
      · intro hxl
        exact absurd ⟨by omega, by omega⟩ (hnoline x hxl)
    · simp only; omega

/-- On an increasing grid the two indices are equal or neighbours. -/
theorem C07_adjacent (g : Grid α) (f l : Int) (h : Increasing g f l) (x : Int) (lo hi : Int × Int)
    (hb : g.inverseBounds x = some (lo, hi)) :
    flat g hi = flat g lo ∨ flat g hi = flat g lo + 1 := by
  obtain ⟨lo', hi', cl, ch, al, ah, h1, h3, h4, h5, h6, -, -, hno, heq, -⟩ :=
    C07_inverseBounds g f l h.bounded x
  rw [hb] at h1
  obtain ⟨rfl, rfl⟩ : lo = lo' ∧ hi = hi' := by simpa using h1
  obtain ⟨coord, attr, hv, hmono, -, -, hl⟩ := C06_value g f l h
  have e1 : coord (flat g lo) = cl := by
    have := hv (flat g lo)
    rw [← C06_tuple, h3] at this
    simp at this; exact this.1.symm
  have e2 : coord (flat g hi) = ch := by
    have := hv (flat g hi)
    rw [← C06_tuple, h4] at this
    simp at this; exact this.1.symm
  rcases lt_trichotomy (flat g hi) (flat g lo) with hlt | hE | hgt
  · have := hmono _ _ hlt; omega
  · exact Or.inl hE
  · right
    by_contra hne
    have a1 := hmono (flat g lo) (flat g lo + 1) (by omega)
    have a2 := hmono (flat g lo + 1) (flat g hi) (by omega)
    exact hno (coord (flat g lo + 1)) ((hl _).mpr ⟨_, rfl⟩) (by omega)

/-- The out-of-order enclosure grid with stop point 8 and pitch 10 is covered by `C07_inverseBounds`. -/
example : Bounded (enclosureGrid 10 3 8) 3 13 :=
  ⟨by decide, by decide, by decide, by decide, by decide⟩

/-! ## C08 -/

/-- The first and the last line of the pattern denote the same lines of the infinite grid; all grids built by the
code make both legal or none. -/
def EndsAgree (g : Grid α) : Prop := 0 ∈ g.legalIndices ↔ (g.grid.length - 1) ∈ g.legalIndices

/-- Snapping down: the result is legal, not above, and every legal index not above is not above the result. -/
theorem C08_snap_down (g : Grid α) (hne : g.legalIndices ≠ []) (h2 : 2 ≤ g.grid.length)
    (hl : ∀ i ∈ g.legalIndices, i < g.grid.length) (hends : EndsAgree g) (idx : Int × Int)
    (h0 : 0 ≤ idx.2) (h1 : idx.2 < g.grid.length) :
    ∃ out, g.snapToLegal idx (-1) = some out ∧ LegalFlat g (flat g out) ∧
      (0 ≤ out.2 ∧ out.2 < g.grid.length) ∧
      flat g out ≤ flat g idx ∧
      (∀ v, LegalFlat g v → v ≤ flat g idx → v ≤ flat g out) := by
  obtain ⟨q, r⟩ := idx
  simp only at h0 h1
  obtain ⟨N, hN⟩ : ∃ N : Int, N = (g.grid.length : Int) - 1 := ⟨_, rfl⟩
  have hmono : ∀ a b : Int, a ≤ b → a * N ≤ b * N := fun a b hab =>
    Int.mul_le_mul_of_nonneg_right hab (by omega)
  unfold Grid.snapToLegal
  simp only [hne, if_false, if_true]
  cases hm : (g.legalIndices.filter fun x : Nat => decide ((x : Int) ≤ r)).max? with
  | some m =>
    rw [List.max?_eq_some_iff] at hm
    obtain ⟨hmem, hmax⟩ := hm
    simp only [List.mem_filter, decide_eq_true_eq] at hmem hmax
    have hlm := hl m hmem.1
    refine ⟨(q, m), rfl, ⟨q, m, hmem.1, rfl⟩, by simp only; omega, ?_, ?_⟩
    · simp only [flat]; omega
    · rintro v ⟨q', i, hi, rfl⟩ hv
      simp only [flat, ← hN] at hv ⊢
      have hil := hl i hi
      rcases lt_trichotomy q' q with hlt | rfl | hgt
      · have := hmono (q' + 1) q (by omega)
        have e1 : (q' + 1) * N = q' * N + N := by ring
        omega
      · have := hmax i ⟨hi, by omega⟩; omega
      · have := hmono (q + 1) q' (by omega)
        have e1 : (q + 1) * N = q * N + N := by ring
        have hi0 : i = 0 := by omega
        have hm2 := hmax (g.grid.length - 1) ⟨hends.mp (hi0 ▸ hi), by omega⟩
        omega
  | none =>
    have hnone : ∀ i ∈ g.legalIndices, r < (i : Int) := by
      intro i hi
      rw [List.max?_eq_none_iff, List.filter_eq_nil_iff] at hm
      have := hm i hi
      simp at this; omega
    cases hM : g.legalIndices.max? with
    | none => rw [List.max?_eq_none_iff] at hM; exact absurd hM hne
    | some m =>
      rw [List.max?_eq_some_iff] at hM
      obtain ⟨hmem, hmax⟩ := hM
      have hlm := hl m hmem
      have e0 : (q + -1) * N = q * N - N := by ring
      refine ⟨(q + -1, m), rfl, ⟨q + -1, m, hmem, rfl⟩, by simp only; omega, ?_, ?_⟩
      · simp only [flat, ← hN]; omega
      · rintro v ⟨q', i, hi, rfl⟩ hv
        simp only [flat, ← hN] at hv ⊢
        have hil := hl i hi
        have hir := hnone i hi
        have him := hmax i hi
        rcases lt_trichotomy q' q with hlt | rfl | hgt
        · have := hmono q' (q + -1) (by omega)
          omega
        · omega
        · have := hmono (q + 1) q' (by omega)
          have e1 : (q + 1) * N = q * N + N := by ring
          omega

/-- Snapping up: the result is legal, not below, and every legal index not below is not below the result. -/
theorem C08_snap_up (g : Grid α) (hne : g.legalIndices ≠ []) (h2 : 2 ≤ g.grid.length)
    (hl : ∀ i ∈ g.legalIndices, i < g.grid.length) (hends : EndsAgree g) (idx : Int × Int)
    (h0 : 0 ≤ idx.2) (h1 : idx.2 < g.grid.length) :
    ∃ out, g.snapToLegal idx 1 = some out ∧ LegalFlat g (flat g out) ∧
      (0 ≤ out.2 ∧ out.2 < g.grid.length) ∧
      flat g idx ≤ flat g out ∧
      (∀ v, LegalFlat g v → flat g idx ≤ v → flat g out ≤ v) := by
  obtain ⟨q, r⟩ := idx
  simp only at h0 h1
  obtain ⟨N, hN⟩ : ∃ N : Int, N = (g.grid.length : Int) - 1 := ⟨_, rfl⟩
  have hmono : ∀ a b : Int, a ≤ b → a * N ≤ b * N := fun a b hab =>
    Int.mul_le_mul_of_nonneg_right hab (by omega)
  unfold Grid.snapToLegal
  simp only [hne, if_false, show ¬ ((1 : Int) = -1) by decide, if_true]
  cases hm : (g.legalIndices.filter fun x : Nat => decide ((x : Int) ≥ r)).min? with
  | some m =>
    rw [List.min?_eq_some_iff] at hm
    obtain ⟨hmem, hmin⟩ := hm
    simp only [List.mem_filter, decide_eq_true_eq] at hmem hmin
    have hlm := hl m hmem.1
    refine ⟨(q, m), rfl, ⟨q, m, hmem.1, rfl⟩, by simp only; omega, ?_, ?_⟩
    · simp only [flat]; omega
    · rintro v ⟨q', i, hi, rfl⟩ hv
      simp only [flat, ← hN] at hv ⊢
      have hil := hl i hi
      rcases lt_trichotomy q' q with hlt | rfl | hgt
      · have := hmono (q' + 1) q (by omega)
        have e1 : (q' + 1) * N = q' * N + N := by ring
        have hi0 : i = g.grid.length - 1 := by omega
        have hm2 := hmin 0 ⟨hends.mpr (hi0 ▸ hi), by omega⟩
        omega
      · have := hmin i ⟨hi, by omega⟩; omega
      · have := hmono (q + 1) q' (by omega)
        have e1 : (q + 1) * N = q * N + N := by ring
        omega
  | none =>
    have hnone : ∀ i ∈ g.legalIndices, (i : Int) < r := by
      intro i hi
      rw [List.min?_eq_none_iff, List.filter_eq_nil_iff] at hm
      have := hm i hi
      simp at this; omega
    cases hM : g.legalIndices.min? with
    | none => rw [List.min?_eq_none_iff] at hM; exact absurd hM hne
    | some m =>
      rw [List.min?_eq_some_iff] at hM
      obtain ⟨hmem, hmin⟩ := hM
      have hlm := hl m hmem
      have e0 : (q + 1) * N = q * N + N := by ring
      refine ⟨(q + 1, m), rfl, ⟨q + 1, m, hmem, rfl⟩, by simp only; omega, ?_, ?_⟩
      · simp only [flat, ← hN]; omega
      · rintro v ⟨q', i, hi, rfl⟩ hv
        simp only [flat, ← hN] at hv ⊢
        have hil := hl i hi
        have hir := hnone i hi
        have him := hmin i hi
        rcases lt_trichotomy q' q with hlt | rfl | hgt
        · have := hmono (q' + 1) q (by omega)
          have e1 : (q' + 1) * N = q' * N + N := by ring
          omega
        · omega
        · have := hmono (q + 1) q' (by omega)
          omega

/-- Without legal lines, or with another direction, the call is rejected. -/
theorem C08_rejects (g : Grid α) (idx : Int × Int) (d : Int)
    (h : g.legalIndices = [] ∨ (d ≠ 1 ∧ d ≠ -1)) : g.snapToLegal idx d = none := by
  rcases h with h | ⟨h1, h2⟩
  · simp [Grid.snapToLegal, h]
  · simp [Grid.snapToLegal, h1, h2]

/-- Enclosure grids and center line grids satisfy the hypotheses. -/
example : EndsAgree (enclosureGrid 10 3 4) ∧ (enclosureGrid 10 3 4).legalIndices ≠ [] ∧
    (∀ i ∈ (enclosureGrid 10 3 4).legalIndices, i < (enclosureGrid 10 3 4).grid.length) := by
  unfold EndsAgree; decide

/-- The hypothesis on the ends cannot be dropped: here line 0 is legal but its other name, line 2, is not, and
snapping that name down moves to another line. -/
example : (⟨[(0, ()), (5, ()), (10, ())], [0, 1]⟩ : Grid Unit).snapToLegal (0, 2) (-1) = some (0, 1) := by
  decide

end Verif.Grid

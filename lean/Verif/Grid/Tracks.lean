import Verif.Grid.Props

/-! # Properties C09 and C57: track templates, wires over vias -/

namespace Verif.Grid

/-! ## Helper lemmas -/

theorem foldlM_addCenterLine {γ : Type} (width : Int) (hw : width.fmod 2 = 0) (val : γ → Int)
    (col : γ → Option String) (xs : List γ) (g : Grid LineAttr) :
    xs.foldlM (fun g x => addCenterLine g (val x) width true (col x)) g
      = some ⟨g.grid ++ xs.map (fun x => (val x, (width, col x))),
              g.legalIndices ++ List.range' g.grid.length xs.length⟩ := by
  induction xs generalizing g with
  | nil => simp
  | cons x xs ih =>
    rw [List.foldlM_cons]
    have h1 : addCenterLine g (val x) width true (col x)
        = some (g.addGridLine (val x) true (width, col x)) := by simp [addCenterLine, hw]
    rw [h1]
    simp only [Option.bind_eq_bind, Option.bind_some]
    rw [ih]
    simp [Grid.addGridLine, List.range'_succ]

/-- A center line grid with `k + 1` lines at `offset + i * pitch`, all legal, and periodic attributes. -/
theorem equidistant_value (attrs : List LineAttr) (pitch offset : Int) (hne : attrs ≠ [])
    (g : Grid LineAttr)
    (hg : g.grid = (attrs ++ [attrs.head hne]).zipIdx.map fun ai => (offset + ai.2 * pitch, ai.1))
    (hlegal : ∀ i, i < attrs.length → i ∈ g.legalIndices) (v : Int) :
    ∃ h : (v % (attrs.length : Int)).toNat < attrs.length,
      g.valueFlat v true = some (offset + v * pitch, attrs[(v % (attrs.length : Int)).toNat]) := by
  have hpos : 0 < attrs.length := List.length_pos_iff.mpr hne
  have hlen : g.grid.length = attrs.length + 1 := by simp [hg]
  have hn : g.n = attrs.length := by simp [Grid.n, hlen]
  have hm0 := Int.emod_nonneg v (show (attrs.length : Int) ≠ 0 by omega)
  have hm1 := Int.emod_lt_of_pos v (show (0 : Int) < attrs.length by omega)
  have hlt : (v % (attrs.length : Int)).toNat < attrs.length := by omega
  refine ⟨hlt, ?_⟩
  have hgl : g.grid.getLast? = some (offset + attrs.length * pitch, attrs.head hne) := by
    rw [hg, List.getLast?_eq_getElem?]
    simp
  have hgh : g.grid.head? = some (offset, attrs.head hne) := by
    rw [hg, List.head?_eq_getElem?]
    obtain ⟨a, as, rfl⟩ := List.exists_cons_of_ne_nil hne
    simp
  have hper : g.period = some (attrs.length * pitch) := by
    simp only [Grid.period, hgl, hgh]
    congr 1; ring
  have hget : g.grid[(v % (attrs.length : Int)).toNat]?
      = some (offset + (v % (attrs.length : Int)) * pitch,
              attrs[(v % (attrs.length : Int)).toNat]) := by
    rw [hg, List.getElem?_map, List.getElem?_zipIdx, List.getElem?_append_left hlt,
      List.getElem?_eq_getElem hlt]
    simp only [Option.map_some, Nat.zero_add, Int.toNat_of_nonneg hm0]
  simp only [Grid.valueFlat, hn, show ((attrs.length : Int) > 0) by omega, if_true,
    Int.fdiv_eq_ediv_of_nonneg _ (show (0 : Int) ≤ attrs.length by omega),
    Int.fmod_eq_emod_of_nonneg _ (show (0 : Int) ≤ attrs.length by omega), hget, hper]
  have hc : g.legalIndices.contains (v % (attrs.length : Int)).toNat = true := by
    simpa using hlegal _ hlt
  simp only [hc, Bool.not_true, Bool.and_false, Bool.false_eq_true, if_false, Option.some.injEq,
    Prod.mk.injEq, and_true]
  have := Int.mul_ediv_add_emod v attrs.length
  calc offset + v % (attrs.length : Int) * pitch + v / (attrs.length : Int) * (attrs.length * pitch)
      = offset + (attrs.length * (v / attrs.length) + v % attrs.length) * pitch := by ring
    _ = offset + v * pitch := by rw [this]

/-! ## C09 -/

/-- Uncoloured tracks: track `v`, for every integer `v`, is at `offset + v * pitch` and has the given width. -/
theorem C09_uncolored (pitch width offset : Int) (k : Nat) (hk : 0 < k) (hw : width % 2 = 0) :
    ∃ g, uncoloredCenterLineGrid pitch width offset k = some g ∧
      ∀ v, g.valueFlat v true = some (offset + v * pitch, (width, none)) := by
  have hw' : width.fmod 2 = 0 := by rw [Int.fmod_eq_emod_of_nonneg _ (by omega)]; exact hw
  have hf := foldlM_addCenterLine width hw' (fun i : Nat => offset + i * pitch) (fun _ => none)
    (List.range (k + 1)) Grid.empty
  simp only [Grid.empty, List.nil_append, List.length_nil, List.length_range] at hf
  have hsem : centerLineSemantic
      ⟨(List.range (k + 1)).map (fun i : Nat => (offset + i * pitch, ((width, none) : LineAttr))),
       List.range' 0 (k + 1)⟩ = some
      ⟨(List.range (k + 1)).map (fun i : Nat => (offset + i * pitch, ((width, none) : LineAttr))),
       List.range' 0 (k + 1)⟩ := by
    unfold centerLineSemantic
    rw [if_pos]
    refine ⟨by simp [Grid.n]; omega, ?_⟩
    rw [List.head?_eq_getElem?, List.getLast?_eq_getElem?]
    simp
  refine ⟨_, by rw [uncoloredCenterLineGrid, Grid.empty, hf, Option.bind_some, hsem], ?_⟩
  intro v
  obtain ⟨h, hv⟩ := equidistant_value (List.replicate k ((width, none) : LineAttr)) pitch offset
    (by simp; omega)
    ⟨(List.range (k + 1)).map (fun i : Nat => (offset + i * pitch, ((width, none) : LineAttr))),
       List.range' 0 (k + 1)⟩ (by
      apply List.ext_getElem
      · simp
      · intro i h1 h2
        simp at h1 h2
        simp only [List.getElem_map, List.getElem_range, List.getElem_zipIdx, Nat.zero_add]
        congr 1
        rw [List.getElem_append]
        split <;> simp) (by intro i hi; simp at hi; rw [List.mem_range'_1]; omega) v
  rw [hv]; simp

/-- Coloured tracks: the colour of track `v` is the colour at position `v` modulo the pattern length of the
pattern made of the first `repeat` colours (or of all colours). -/
theorem C09_colored (colors : List String) (pitch width offset : Int) (rep : Option Nat)
    (hc : colors ≠ []) (heven : colors.length % 2 = 0) (hrep : rep ≠ some 0) (hw : width % 2 = 0) :
    ∃ g, coloredCenterLineGrid colors pitch width offset rep = some g ∧
      ∀ v : Int, g.valueFlat v true = some (offset + v * pitch,
        (width, colors[(v % ((rep.getD colors.length : Nat) : Int)).toNat % colors.length]?)) := by
  have hw' : width.fmod 2 = 0 := by rw [Int.fmod_eq_emod_of_nonneg _ (by omega)]; exact hw
  have hcl : 0 < colors.length := List.length_pos_iff.mpr hc
  -- the colour list used
  obtain ⟨c, hcdef⟩ : ∃ c, c = repeatColors colors rep := ⟨_, rfl⟩
  have hclen : c.length = rep.getD colors.length := by
    rw [hcdef]
    cases rep with
    | none => rfl
    | some k =>
      have hsum : ((List.replicate k colors).flatten).length = k * colors.length := by
        clear hcdef
        induction k with
        | zero => simp
        | succ k ih => simp
      simp only [repeatColors, List.length_take, hsum, Option.getD_some]
      exact Nat.min_eq_left (Nat.le_mul_of_pos_right k hcl)
  have hcget : ∀ i (hi : i < c.length), colors[i % colors.length]? = some (c[i]) := by
    intro i hi
    have aux : ∀ (k : Nat) (i : Nat), i < k * colors.length →
        ((List.replicate k colors).flatten)[i]? = colors[i % colors.length]? := by
      intro k
      induction k with
      | zero => intro i hi; simp at hi
      | succ k ih =>
        intro i hi
        simp only [List.replicate_succ, List.flatten_cons]
        by_cases hlt : i < colors.length
        · rw [List.getElem?_append_left hlt, Nat.mod_eq_of_lt hlt]
        · rw [List.getElem?_append_right (by omega), ih _ (by rw [Nat.succ_mul] at hi; omega)]
          congr 1
          exact (Nat.mod_eq_sub_mod (by omega)).symm
    cases rep with
    | none =>
      simp only [repeatColors] at hcdef; subst hcdef
      rw [Nat.mod_eq_of_lt hi, List.getElem?_eq_getElem hi]
    | some k =>
      simp only [repeatColors] at hcdef
      simp only [Option.getD_some] at hclen
      have := aux k i (by rw [hclen] at hi; exact Nat.lt_of_lt_of_le hi (Nat.le_mul_of_pos_right k hcl))
      rw [← this, ← List.getElem?_eq_getElem hi, hcdef, List.getElem?_take, if_pos (by omega)]
  have hcne : c ≠ [] := by
    intro h0
    rw [h0] at hclen
    cases rep with
    | none => simp at hclen; omega
    | some k => simp at hclen; exact hrep (by rw [hclen])
  obtain ⟨c0, cs, hcs⟩ := List.exists_cons_of_ne_nil hcne
  have hf := foldlM_addCenterLine width hw' (fun ci : String × Nat => offset + ci.2 * pitch)
    (fun ci => some ci.1) (c ++ [c0]).zipIdx Grid.empty
  simp only [Grid.empty, List.nil_append, List.length_nil, List.length_zipIdx] at hf
  obtain ⟨G, hG⟩ : ∃ G : Grid LineAttr, G =
    ⟨(c ++ [c0]).zipIdx.map (fun ci : String × Nat => (offset + ci.2 * pitch, (width, some ci.1))),
       List.range' 0 (c ++ [c0]).length⟩ := ⟨_, rfl⟩
  rw [← hG] at hf
  have hsem : centerLineSemantic G = some G := by
    unfold centerLineSemantic
    rw [if_pos]
    subst hG
    refine ⟨by simp [Grid.n, hcs], ?_⟩
    rw [List.head?_eq_getElem?, List.getLast?_eq_getElem?]
    simp [hcs]
  have hcol : coloredCenterLineGrid colors pitch width offset rep = some G := by
    unfold coloredCenterLineGrid
    rw [if_pos heven]
    simp only
    rw [← hcdef]
    rw [hcs] at hf ⊢
    simp only
    rw [Grid.empty, hf, Option.bind_some, hsem]
  refine ⟨G, hcol, ?_⟩
  intro v
  have hattrs : (c.map fun x => ((width, some x) : LineAttr)) ≠ [] := by simp [hcne]
  obtain ⟨h, hv⟩ := equidistant_value (c.map fun x => ((width, some x) : LineAttr)) pitch offset
    hattrs G (by
      subst hG
      apply List.ext_getElem
      · simp
      · intro i h1 h2
        simp at h1 h2
        simp only [List.getElem_map, List.getElem_zipIdx]
        congr 1
        rw [List.getElem_append, List.getElem_append]
        simp only [List.length_map]
        split
        · simp
        · simp [hcs]) (by
      intro i hi
      subst hG
      simp at hi
      rw [List.mem_range'_1]
      simp; omega) v
  rw [hv]
  simp only [List.length_map] at h ⊢
  simp only [List.getElem_map, Option.some.injEq, Prod.mk.injEq, true_and]
  rw [← hclen, hcget _ h]

/-- When the repeat count is left out or a multiple of the number of colours, colours follow the list cyclically
over all tracks, so that cyclically different neighbours give differently coloured neighbouring tracks. -/
theorem C09_colors_cyclic (colors : List String) (pitch width offset : Int) (rep : Option Nat)
    (hc : colors ≠ []) (heven : colors.length % 2 = 0) (hrep : rep ≠ some 0) (hw : width % 2 = 0)
    (hmul : ∀ k, rep = some k → colors.length ∣ k) :
    ∃ g, coloredCenterLineGrid colors pitch width offset rep = some g ∧
      ∀ v : Int, g.valueFlat v true = some (offset + v * pitch,
        (width, colors[(v % (colors.length : Int)).toNat]?)) := by
  obtain ⟨g, hg, hv⟩ := C09_colored colors pitch width offset rep hc heven hrep hw
  refine ⟨g, hg, fun v => ?_⟩
  rw [hv]
  have hcl : 0 < colors.length := List.length_pos_iff.mpr hc
  congr 4
  have hdvd : (colors.length : Int) ∣ ((rep.getD colors.length : Nat) : Int) := by
    cases rep with
    | none => simp
    | some k => simpa using Int.natCast_dvd_natCast.mpr (hmul k rfl)
  have hpos : (0 : Int) < ((rep.getD colors.length : Nat) : Int) := by
    cases rep with
    | none => simpa using hcl
    | some k =>
      have : k ≠ 0 := fun h => hrep (by rw [h])
      simp; omega
  have e1 := Int.emod_nonneg v (show ((rep.getD colors.length : Nat) : Int) ≠ 0 by omega)
  have e2 : (v % ((rep.getD colors.length : Nat) : Int)) % (colors.length : Int)
      = v % (colors.length : Int) := Int.emod_emod_of_dvd v hdvd
  have e3 := Int.toNat_of_nonneg e1
  have e4 : (((v % ((rep.getD colors.length : Nat) : Int)).toNat % colors.length : Nat) : Int)
      = v % (colors.length : Int) := by
    rw [Int.natCast_mod, e3, e2]
  omega

/-- Otherwise two neighbouring tracks can get the same colour: with colours A, B and repeat 3, tracks 2 and 3 are
both A. -/
theorem C09_colors_violated :
    (coloredCenterLineGrid ["A", "B"] 10 4 0 (some 3)).bind (fun g => g.valueFlat 2 true)
        = some (20, (4, some "A")) ∧
    (coloredCenterLineGrid ["A", "B"] 10 4 0 (some 3)).bind (fun g => g.valueFlat 3 true)
        = some (30, (4, some "A")) := by
  decide

/-- A wire drawn on track `t` of equidistant tracks has exactly the track width and is centred on the track; two
wires on tracks `t` and `t + 1` are exactly `pitch - width` apart. -/
theorem C09_wire {β : Type} (pitch width offset : Int) (k : Nat) (hk : 0 < k) (hw : width % 2 = 0)
    (spg : Grid β) (bIdx eIdx : Int × Int) (b e : Int × β)
    (hb : spg.value bIdx true = some b) (he : spg.value eIdx true = some e) :
    ∃ g, uncoloredCenterLineGrid pitch width offset k = some g ∧ ∀ t : Int,
      ∃ c0 c1 d0 d1 : Int,
        wireSegment g spg true (0, t) bIdx eIdx = some [b.1, c0, e.1, c1] ∧
        wireSegment g spg false (0, t) bIdx eIdx = some [c0, b.1, c1, e.1] ∧
        wireSegment g spg true (0, t + 1) bIdx eIdx = some [b.1, d0, e.1, d1] ∧
        c1 - c0 = width ∧ c0 + c1 = 2 * (offset + t * pitch) ∧ d0 - c1 = pitch - width := by
  obtain ⟨g, hg, hv⟩ := C09_uncolored pitch width offset k hk hw
  refine ⟨g, hg, fun t => ?_⟩
  have hval : ∀ t : Int, g.value (0, t) true = some (offset + t * pitch, (width, none)) := by
    intro t
    rw [Grid.value]; simp only [Int.zero_mul, Int.zero_add]; exact hv t
  have hh : width.fdiv 2 * 2 = width := by
    rw [Int.fdiv_eq_ediv_of_nonneg _ (by omega)]; omega
  refine ⟨offset + t * pitch - width.fdiv 2, offset + t * pitch + width.fdiv 2,
    offset + (t + 1) * pitch - width.fdiv 2, offset + (t + 1) * pitch + width.fdiv 2, ?_, ?_, ?_,
    ?_, ?_, ?_⟩
  · simp [wireSegment, hval, hb, he]
  · simp [wireSegment, hval, hb, he]
  · simp [wireSegment, hval, hb, he]
  · omega
  · omega
  · have : (t + 1) * pitch = t * pitch + pitch := by ring
    omega

example : ∃ g, uncoloredCenterLineGrid 10 4 5 2 = some g := ⟨_, rfl⟩

/-! ## C57 -/

/-- Snapping a coordinate range outwards to legal stop points. -/
theorem span_of_bounds {β : Type} (spg : Grid β) (f l : Int) (hinc : Increasing spg f l)
    (hne : spg.legalIndices ≠ []) (hl : ∀ i ∈ spg.legalIndices, i < spg.grid.length)
    (hends : EndsAgree spg) (mnP mxP : Int) :
    ∃ lo lo' hi hi' : Int × Int, ∃ mn mx : Int × Int, ∃ b e : Int × β,
      spg.inverseBounds mnP = some (lo, lo') ∧ spg.inverseBounds mxP = some (hi', hi) ∧
      spg.snapToLegal lo (-1) = some mn ∧ spg.snapToLegal hi 1 = some mx ∧
      spg.value mn true = some b ∧ spg.value mx true = some e ∧
      b.1 ≤ mnP ∧ mxP ≤ e.1 ∧
      (∀ v p, LegalFlat spg v → spg.valueFlat v false = some p → p.1 ≤ mnP → p.1 ≤ b.1) ∧
      (∀ v p, LegalFlat spg v → spg.valueFlat v false = some p → mxP ≤ p.1 → e.1 ≤ p.1) := by
  have h2 := hinc.two
  obtain ⟨coord, attr, hv, hmono, -, -, hline⟩ := C06_value spg f l hinc
  have hmono' : ∀ v w, v ≤ w → coord v ≤ coord w := by
    intro v w h
    rcases Int.lt_or_eq_of_le h with h | h
    · exact le_of_lt (hmono v w h)
    · rw [h]
  have hrefl : ∀ v w, coord v < coord w → v < w := by
    intro v w h
    by_contra hc
    have := hmono' w v (by omega); omega
  -- legal index has a value with the check on
  have hchk : ∀ out : Int × Int, LegalFlat spg (flat spg out) →
      spg.value out true = some (coord (flat spg out), attr (flat spg out)) := by
    intro out hleg
    rw [C06_tuple, ← hv]
    obtain ⟨q, i, hi, he⟩ := hleg
    have hil := hl i hi
    by_cases hlast : i + 1 < spg.grid.length
    · have hmod : (flat spg out).fmod spg.n = i := by
        rw [he, Int.fmod_eq_emod_of_nonneg _ (by simp only [Grid.n]; omega), Int.add_comm]
        simp only [Grid.n]
        rw [Int.add_mul_emod_self_right, Int.emod_eq_of_lt (by omega) (by omega)]
      simp [Grid.valueFlat, hmod, hi]
    · have hmod : (flat spg out).fmod spg.n = 0 := by
        have : flat spg out = (q + 1) * spg.n := by
          rw [he]; simp only [Grid.n]
          have : (i : Int) = (spg.grid.length : Int) - 1 := by omega
          rw [this]; ring
        rw [this, Int.fmod_eq_emod_of_nonneg _ (by simp only [Grid.n]; omega)]
        exact Int.mul_emod_left _ _
      have h0 : 0 ∈ spg.legalIndices := hends.mpr (by
        have : i = spg.grid.length - 1 := by omega
        rwa [← this])
      simp [Grid.valueFlat, hmod, h0]
  obtain ⟨lo, lo', cl, ch, al, ah, h1, h3, h4, h5, h6, -, -, hno, -, hr⟩ :=
    C07_inverseBounds spg f l hinc.bounded mnP
  obtain ⟨hi', hi, cl', ch', al', ah', g1, g3, g4, g5, g6, -, -, gno, -, gr⟩ :=
    C07_inverseBounds spg f l hinc.bounded mxP
  obtain ⟨mn, s1, s2, -, s3, s4⟩ := C08_snap_down spg hne h2 hl hends lo hr.1 hr.2.1
  obtain ⟨mx, t1, t2, -, t3, t4⟩ := C08_snap_up spg hne h2 hl hends hi gr.2.2.1 gr.2.2.2
  have ecl : coord (flat spg lo) = cl := by
    have := hv (flat spg lo); rw [← C06_tuple, h3] at this; simp at this; exact this.1.symm
  have ech : coord (flat spg lo') = ch := by
    have := hv (flat spg lo'); rw [← C06_tuple, h4] at this; simp at this; exact this.1.symm
  have ecl' : coord (flat spg hi') = cl' := by
    have := hv (flat spg hi'); rw [← C06_tuple, g3] at this; simp at this; exact this.1.symm
  have ech' : coord (flat spg hi) = ch' := by
    have := hv (flat spg hi); rw [← C06_tuple, g4] at this; simp at this; exact this.1.symm
  refine ⟨lo, lo', hi, hi', mn, mx, _, _, h1, g1, s1, t1, hchk mn s2, hchk mx t2, ?_, ?_, ?_, ?_⟩
  · have := hmono' _ _ s3; simp only; omega
  · have := hmono' _ _ t3; simp only; omega
  · intro v p hleg hp hle
    rw [hv] at hp
    obtain rfl : (coord v, attr v) = p := by simpa using hp
    simp only at hle ⊢
    apply hmono'
    apply s4 v hleg
    by_contra hc
    have a1 := hmono _ _ (show flat spg lo < v by omega)
    have hnot := hno (coord v) ((hline _).mpr ⟨v, rfl⟩)
    have hch : ch ≤ coord v := by omega
    have hcheq : coord v = ch := by omega
    have hmn : mnP = ch := by omega
    -- then mnP is a line, so lo = lo'
    obtain ⟨-, hx⟩ := (show True ∧ True from ⟨trivial, trivial⟩)
    have hadj := C07_adjacent spg f l hinc mnP lo lo' h1
    obtain ⟨lo2, hi2, _, _, _, _, k1, -, -, -, -, -, -, -, k9, -⟩ :=
      C07_inverseBounds spg f l hinc.bounded mnP
    rw [h1] at k1
    obtain ⟨rfl, rfl⟩ : lo = lo2 ∧ lo' = hi2 := by simpa using k1
    have : lo = lo' := k9.mpr ((hline _).mpr ⟨v, by omega⟩)
    rw [← this] at ech
    omega
  · intro v p hleg hp hle
    rw [hv] at hp
    obtain rfl : (coord v, attr v) = p := by simpa using hp
    simp only at hle ⊢
    apply hmono'
    apply t4 v hleg
    by_contra hc
    have a1 := hmono _ _ (show v < flat spg hi by omega)
    have hnot := gno (coord v) ((hline _).mpr ⟨v, rfl⟩)
    have hmx : mxP = coord v := by omega
    obtain ⟨lo2, hi2, _, _, _, _, k1, -, -, -, -, -, -, -, k9, -⟩ :=
      C07_inverseBounds spg f l hinc.bounded mxP
    rw [g1] at k1
    obtain ⟨rfl, rfl⟩ : hi' = lo2 ∧ hi = hi2 := by simpa using k1
    have : hi' = hi := k9.mpr ((hline _).mpr ⟨v, by omega⟩)
    rw [this] at ecl'
    omega

/-- If all vias on the wire have the same end extension and the stop point grid is increasing, the wire covers
every via including its extension, and it is the shortest wire between legal stop points that does so.
Missing from the full property: vias with different extensions and enclosure grids whose stop point exceeds half
the pitch, for which it fails (see `C57_violated_mixed`, `C57_violated_enclosure`). -/
theorem C57_wire_covers_vias_partial {β : Type} (spg : Grid β) (f l : Int) (hinc : Increasing spg f l)
    (hne : spg.legalIndices ≠ []) (hl : ∀ i ∈ spg.legalIndices, i < spg.grid.length)
    (hends : EndsAgree spg) (vias : List (Int × Int)) (hv : vias ≠ []) (ext : Int)
    (hext : ∀ v ∈ vias, v.2 = ext) :
    ∃ b e, viaWireSpan spg vias = some (b, e) ∧
      (∀ v ∈ vias, b ≤ v.1 - v.2 ∧ v.1 + v.2 ≤ e) ∧
      (∀ i p, LegalFlat spg i → spg.valueFlat i false = some p →
        (∀ v ∈ vias, p.1 ≤ v.1 - v.2) → p.1 ≤ b) ∧
      (∀ i p, LegalFlat spg i → spg.valueFlat i false = some p →
        (∀ v ∈ vias, v.1 + v.2 ≤ p.1) → e ≤ p.1) := by
  have hne' : vias.map Prod.fst ≠ [] := by simpa using hv
  obtain ⟨mn0, hmn⟩ : ∃ m, (vias.map Prod.fst).min? = some m := by
    cases h : (vias.map Prod.fst).min? with
    | none => rw [List.min?_eq_none_iff] at h; exact absurd h hne'
    | some m => exact ⟨m, rfl⟩
  obtain ⟨mx0, hmx⟩ : ∃ m, (vias.map Prod.fst).max? = some m := by
    cases h : (vias.map Prod.fst).max? with
    | none => rw [List.max?_eq_none_iff] at h; exact absurd h hne'
    | some m => exact ⟨m, rfl⟩
  obtain ⟨m1, m2⟩ := List.min?_eq_some_iff.mp hmn
  obtain ⟨n1, n2⟩ := List.max?_eq_some_iff.mp hmx
  obtain ⟨vmn, hfmn⟩ : ∃ v, vias.find? (fun v => decide (v.1 = mn0)) = some v := by
    rw [← Option.isSome_iff_exists, List.find?_isSome]
    obtain ⟨v, hv, rfl⟩ := List.mem_map.mp m1
    exact ⟨v, hv, by simp⟩
  obtain ⟨vmx, hfmx⟩ : ∃ v, vias.find? (fun v => decide (v.1 = mx0)) = some v := by
    rw [← Option.isSome_iff_exists, List.find?_isSome]
    obtain ⟨v, hv, rfl⟩ := List.mem_map.mp n1
    exact ⟨v, hv, by simp⟩
  have hvmn := List.mem_of_find?_eq_some hfmn
  have hvmx := List.mem_of_find?_eq_some hfmx
  have hvmn1 : vmn.1 = mn0 := by simpa using List.find?_some hfmn
  have hvmx1 : vmx.1 = mx0 := by simpa using List.find?_some hfmx
  obtain ⟨lo, lo', hi, hi', mn, mx, b, e, a1, a2, a3, a4, a5, a6, a7, a8, a9, a10⟩ :=
    span_of_bounds spg f l hinc hne hl hends (mn0 - vmn.2) (mx0 + vmx.2)
  refine ⟨b.1, e.1, ?_, ?_, ?_, ?_⟩
  · simp only [viaWireSpan, hmn, hmx, hfmn, hfmx, a1, a2, a3, a4, a5, a6, Option.bind_eq_bind,
      Option.bind_some]
  · intro v hvm
    have e1 := hext v hvm
    have e2 := hext vmn hvmn
    have e3 := hext vmx hvmx
    have := m2 v.1 (List.mem_map_of_mem hvm)
    have := n2 v.1 (List.mem_map_of_mem hvm)
    omega
  · intro i p hleg hp hall
    have := hall vmn hvmn
    exact a9 i p hleg hp (by omega)
  · intro i p hleg hp hall
    have := hall vmx hvmx
    exact a10 i p hleg hp (by omega)

/-- Two vias on an increasing stop point grid meet the hypotheses, with the resulting wire. -/
example : viaWireSpan (enclosureGrid 100 0 20) [(150, 30), (320, 30)] = some (120, 380) := by decide

/-- Violation: a via with a short extension at 100 and one with a long extension at 110. The wire starts at 80,
but the second via needs metal from 50. -/
theorem C57_violated_mixed :
    ∃ b e, viaWireSpan (enclosureGrid 100 0 20) [(100, 10), (110, 60)] = some (b, e) ∧ 110 - 60 < b :=
  ⟨80, 180, by decide, by decide⟩

/-- Violation: stop point 8 on pitch 10 (legal lines out of order). The via needs metal from 6; the wire starts
at 8. -/
theorem C57_violated_enclosure :
    ∃ b e, viaWireSpan (enclosureGrid 10 0 8) [(8, 2)] = some (b, e) ∧ 8 - 2 < b :=
  ⟨8, 18, by decide, by decide⟩

end Verif.Grid

import Verif.Canvas.Join

/-!
# C58: dropping vias

Model of `Canvas.drop_via` (`align/cell_fabric/canvas.py` 148-202), `_construct_via_matrix` (210-220) and
`_drop_via_if_dr_clean` (222-280).  The scan lines of the two metals and of the via layer come from
`removeDuplicates` (`Verif/RemoveDup`); each is a list of pairs of twice the center line and the rectangles.
-/

namespace Verif.Canvas

open Verif.Grid Verif.RemoveDup

/-! ## Model -/

/-- The rules of the via layer (223-236); `encH`, `encV` are the enclosures of the horizontal and the vertical wire
(231-236). -/
structure ViaDef where
  widthX : Int
  widthY : Int
  spaceX : Int
  spaceY : Int
  encH : Int
  encV : Int

/-- The nested dictionary `via_matrix`: the entries `via_matrix[k1][k2] = rect`, each pair of keys once. -/
abbrev Matrix := List ((Int × Int) × Rect)

/-- `via_matrix[k1][k2] = r` -/
def Matrix.set (m : Matrix) (k : Int × Int) (r : Rect) : Matrix := (m.filter fun e => e.1 ≠ k) ++ [(k, r)]

/-- `via_matrix[k1].items()`, empty without the key `k1`: the second keys and the rectangles. -/
def Matrix.row (m : Matrix) (k1 : Int) : List (Int × Rect) :=
  (m.filter fun e => e.1.1 = k1).map fun e => (e.1.2, e.2)

/-- `_construct_via_matrix` (210-220), as written: the first key is twice the center in x. -/
def constructMatrix (vias : List Rect) : Matrix :=
  vias.foldl (fun m r => m.set (r.x0 + r.x1, r.y0 + r.y1) r) []

/-- `via_rect` (226-227). -/
def viaRect (vd : ViaDef) (mhCl mvCl : Int) : Rect :=
  ⟨mvCl.fdiv 2 - vd.widthX.fdiv 2, mhCl.fdiv 2 - vd.widthY.fdiv 2,
   mvCl.fdiv 2 + vd.widthX.fdiv 2, mhCl.fdiv 2 + vd.widthY.fdiv 2⟩

/-- Lines 238-246: both wires enclose the via. -/
def encloses (vd : ViaDef) (v mh mv : Rect) : Bool :=
  !(decide (mh.x0 > v.x0 - vd.encH) || decide (mh.x1 < v.x1 + vd.encH) ||
    decide (mv.y0 > v.y0 - vd.encV) || decide (mv.y1 < v.y1 + vd.encV))

/-- Lines 249-254: no via of the same row is too close. -/
def rowClear (vd : ViaDef) (m : Matrix) (mhCl : Int) (v : Rect) : Bool :=
  (m.row mhCl).all fun e =>
    !(decide (e.2.x1 < v.x0 ∧ e.2.x1 > v.x0 - vd.spaceX) || decide (e.2.x0 > v.x1 ∧ e.2.x0 < v.x1 + vd.spaceX))

/-- Lines 262-266. -/
def belowClear (vd : ViaDef) (m : Matrix) (below mvCl : Int) (v : Rect) : Bool :=
  (m.row below).all fun e => !(decide (e.1 = mvCl ∧ e.2.y1 < v.y0 ∧ e.2.y1 > v.y0 - vd.spaceY))

/-- Lines 269-273. -/
def aboveClear (vd : ViaDef) (m : Matrix) (above mvCl : Int) (v : Rect) : Bool :=
  (m.row above).all fun e => !(decide (e.1 = mvCl ∧ e.2.y0 > v.y1 ∧ e.2.y0 < v.y1 + vd.spaceY))

/-- Lines 256-259: twice the center lines of the tracks below and above. -/
def neighbours (clg : Grid LineAttr) (mhCl : Int) : Option (Int × Int) :=
  (clg.inverseBounds (mhCl.fdiv 2 - 1)).bind fun p => (clg.value p.1 true).bind fun b =>
    (clg.inverseBounds (mhCl.fdiv 2 + 1)).bind fun q => (clg.value q.2 true).map fun a => (2 * b.1, 2 * a.1)

/-- A via that was added: its net, twice its row and column, its rectangle. -/
structure Drop where
  net : Option String
  mhCl : Int
  mvCl : Int
  rect : Rect
deriving DecidableEq

/-- The vias added so far and the matrix. -/
structure VSt where
  drops : List Drop
  matrix : Matrix

/-- The tests of `_drop_via_if_dr_clean` after the enclosures (249-273). -/
def clear (vd : ViaDef) (m : Matrix) (mhCl mvCl : Int) (nb : Int × Int) : Bool :=
  belowClear vd m nb.1 mvCl (viaRect vd mhCl mvCl) && aboveClear vd m nb.2 mvCl (viaRect vd mhCl mvCl)

/-- `_drop_via_if_dr_clean` (222-280).  The drawn via is recorded by `via_rect`: it is drawn at the grid lines of
the centers. -/
def dropIfClean (vd : ViaDef) (clg : Grid LineAttr) (s : VSt) (mhCl : Int) (mh : Node) (mvCl : Int) (mv : Node) :
    Option VSt :=
  if !(encloses vd (viaRect vd mhCl mvCl) mh.rect mv.rect) then some s
  else if !(rowClear vd s.matrix mhCl (viaRect vd mhCl mvCl)) then some s
  else (neighbours clg mhCl).map fun nb =>
    if clear vd s.matrix mhCl mvCl nb then
      ⟨s.drops ++ [⟨mh.netName, mhCl, mvCl, viaRect vd mhCl mvCl⟩],
        s.matrix.set (mhCl, mvCl) (viaRect vd mhCl mvCl)⟩
    else s

/-- The innermost loop (189-202) over the vertical wires of a center line, with `continue` and `break`. -/
def dropInner (vd : ViaDef) (clg : Grid LineAttr) (mhCl : Int) (mh : Node) (mvCl : Int) :
    VSt → List Node → Option VSt
  | s, [] => some s
  | s, mv :: rest =>
    if mv.netName = none ∨ mv.netName ≠ mh.netName then dropInner vd clg mhCl mh mvCl s rest
    else if mhCl > 2 * mv.rect.y1 then dropInner vd clg mhCl mh mvCl s rest
    else if mhCl < 2 * mv.rect.y0 then some s
    else if s.matrix.any fun e => e.1 = (mhCl, mvCl) then dropInner vd clg mhCl mh mvCl s rest
    else (dropIfClean vd clg s mhCl mh mvCl mv).bind fun s' => dropInner vd clg mhCl mh mvCl s' rest

/-- The loop over the vertical center lines (183-202) for one horizontal wire. -/
def dropLines (vd : ViaDef) (clg : Grid LineAttr) (mhCl : Int) (mh : Node) (mvLines : List (Int × List Node))
    (s : VSt) : Option VSt :=
  mvLines.foldlM (fun s l =>
    if l.1 < 2 * mh.rect.x0 then some s
    else if l.1 > 2 * mh.rect.x1 then some s
    else dropInner vd clg mhCl mh l.1 s l.2) s

/-- One horizontal wire (178-202). -/
def dropWire (vd : ViaDef) (clg : Grid LineAttr) (allowed : String → Bool) (mvLines : List (Int × List Node))
    (mhCl : Int) (s : VSt) (mh : Node) : Option VSt :=
  if mh.netName.all fun nm => !(allowed nm) then some s else dropLines vd clg mhCl mh mvLines s

/-- `drop_via` (148-202). -/
def dropVia (vd : ViaDef) (clg : Grid LineAttr) (allowed : String → Bool) (mhLines mvLines : List (Int × List Node))
    (vias : List Rect) : Option (List Drop) :=
  (mhLines.foldlM (fun (s : VSt) (l : Int × List Node) => l.2.foldlM (dropWire vd clg allowed mvLines l.1) s)
    ⟨[], constructMatrix vias⟩).map VSt.drops

/-! ## Specification -/

/-- The via lies in both wires, with the required enclosures along them. -/
def OnCrossing (vd : ViaDef) (v mh mv : Rect) : Prop :=
  mh.x0 + vd.encH ≤ v.x0 ∧ v.x1 + vd.encH ≤ mh.x1 ∧ mv.y0 + vd.encV ≤ v.y0 ∧ v.y1 + vd.encV ≤ mv.y1

/-- `t` is a track next to `c`: another track with none between. -/
def NextTrack (isTrack : Int → Prop) (c t : Int) : Prop :=
  isTrack t ∧ t ≠ c ∧ ∀ y, isTrack y → ¬ (min c t < y ∧ y < max c t)

/-- The distances that are kept between two vias: in a row to any via that is apart, in a column to those on the
next tracks that are apart. -/
def Spaced (vd : ViaDef) (isTrack : Int → Prop) (p q : Drop) : Prop :=
  ¬ (p.mhCl = q.mhCl ∧ p.mvCl = q.mvCl) ∧
  (p.mhCl = q.mhCl → (p.rect.x1 < q.rect.x0 → p.rect.x1 + vd.spaceX ≤ q.rect.x0) ∧
    (q.rect.x1 < p.rect.x0 → q.rect.x1 + vd.spaceX ≤ p.rect.x0)) ∧
  (p.mvCl = q.mvCl → NextTrack isTrack (q.mhCl / 2) (p.mhCl / 2) → p.mhCl % 2 = 0 → q.mhCl % 2 = 0 →
    (p.rect.y1 < q.rect.y0 → p.rect.y1 + vd.spaceY ≤ q.rect.y0) ∧
    (q.rect.y1 < p.rect.y0 → q.rect.y1 + vd.spaceY ≤ p.rect.y0))

/-! ## Proofs -/

theorem mem_set {m : Matrix} {k : Int × Int} {r : Rect} {e : (Int × Int) × Rect} :
    e ∈ m.set k r ↔ (e ∈ m ∧ e.1 ≠ k) ∨ e = (k, r) := by
  simp [Matrix.set, List.mem_append, List.mem_filter]

theorem mem_row {m : Matrix} {k1 : Int} {e : Int × Rect} : e ∈ m.row k1 ↔ ((k1, e.1), e.2) ∈ m := by
  simp only [Matrix.row, List.mem_map, List.mem_filter, decide_eq_true_eq]
  constructor
  · rintro ⟨⟨⟨a, b⟩, r⟩, ⟨h1, h2⟩, rfl⟩
    simp only at h2
    subst h2
    exact h1
  · intro h
    exact ⟨_, ⟨h, rfl⟩, rfl⟩

/-- All vias added so far are in the matrix under the keys that are looked up. -/
def Recorded (s : VSt) : Prop := ∀ p ∈ s.drops, ((p.mhCl, p.mvCl), p.rect) ∈ s.matrix

/-- A property kept by every addition of a via is kept by the whole run. -/
theorem dropVia_induction {vd : ViaDef} {clg : Grid LineAttr} {allowed : String → Bool}
    {mhLines mvLines : List (Int × List Node)} {vias : List Rect} (P : VSt → Prop)
    (h0 : P ⟨[], constructMatrix vias⟩)
    (hstep : ∀ s, P s → ∀ l ∈ mhLines, ∀ mh ∈ l.2, ∀ k ∈ mvLines, ∀ mv ∈ k.2,
      (∃ nm, mh.netName = some nm ∧ allowed nm = true) → mv.netName = mh.netName →
      2 * mh.rect.x0 ≤ k.1 → k.1 ≤ 2 * mh.rect.x1 → 2 * mv.rect.y0 ≤ l.1 → l.1 ≤ 2 * mv.rect.y1 →
      (∀ e ∈ s.matrix, e.1 ≠ (l.1, k.1)) →
      ∀ s', dropIfClean vd clg s l.1 mh k.1 mv = some s' → P s')
    {out : List Drop} (h : dropVia vd clg allowed mhLines mvLines vias = some out) : ∃ s, P s ∧ s.drops = out := by
  have fold : ∀ {α : Type} (f : VSt → α → Option VSt) (l : List α),
      (∀ s a s', a ∈ l → P s → f s a = some s' → P s') → ∀ s s', P s → l.foldlM f s = some s' → P s' := by
    intro α f l
    induction l with
    | nil => intro _ s s' hs h; simp only [List.foldlM_nil, Option.pure_def, Option.some.injEq] at h; subst h; exact hs
    | cons a l ih =>
      intro hf s s' hs h
      simp only [List.foldlM_cons, Option.bind_eq_bind, Option.bind_eq_some_iff] at h
      obtain ⟨s1, h1, h2⟩ := h
      exact ih (fun s b s' hb => hf s b s' (List.mem_cons_of_mem _ hb)) s1 s'
        (hf s a s1 List.mem_cons_self hs h1) h2
  simp only [dropVia, Option.map_eq_some_iff] at h
  obtain ⟨s, hs, rfl⟩ := h
  refine ⟨s, ?_, rfl⟩
  refine fold _ mhLines ?_ _ _ h0 hs
  intro s l s' hl hP h
  refine fold _ l.2 ?_ _ _ hP h
  intro s mh s' hmh hP h
  simp only [dropWire] at h
  split at h
  · simp only [Option.some.injEq] at h; subst h; exact hP
  · rename_i hall
    have hnm : ∃ nm, mh.netName = some nm ∧ allowed nm = true := by
      cases hn : mh.netName with
      | none => rw [hn] at hall; simp at hall
      | some nm => rw [hn] at hall; exact ⟨nm, rfl, by simpa using hall⟩
    refine fold _ mvLines ?_ _ _ hP h
    intro s k s' hk hP h
    split at h
    · simp only [Option.some.injEq] at h; subst h; exact hP
    · split at h
      · simp only [Option.some.injEq] at h; subst h; exact hP
      · rename_i hx0 hx1
        have inner : ∀ (ns : List Node), (∀ n ∈ ns, n ∈ k.2) → ∀ s s', P s →
            dropInner vd clg l.1 mh k.1 s ns = some s' → P s' := by
          intro ns
          induction ns with
          | nil => intro _ s s' hP h; simp only [dropInner, Option.some.injEq] at h; subst h; exact hP
          | cons mv ns ih =>
            intro hns s s' hP h
            have hns' : ∀ n ∈ ns, n ∈ k.2 := fun n hn => hns n (List.mem_cons_of_mem _ hn)
            simp only [dropInner] at h
            split at h
            · exact ih hns' s s' hP h
            · rename_i hname
              split at h
              · exact ih hns' s s' hP h
              · rename_i hy1
                split at h
                · simp only [Option.some.injEq] at h; subst h; exact hP
                · rename_i hy0
                  split at h
                  · exact ih hns' s s' hP h
                  · rename_i hany
                    simp only [Option.bind_eq_some_iff] at h
                    obtain ⟨s1, h1, h2⟩ := h
                    refine ih hns' s1 s' ?_ h2
                    rw [not_or, not_not] at hname
                    refine hstep s hP l hl mh hmh k hk mv (hns mv List.mem_cons_self) hnm hname.2
                      (by omega) (by omega) (by omega) (by omega) ?_ s1 h1
                    intro e he heq
                    apply hany
                    rw [List.any_eq_true]
                    exact ⟨e, he, by simpa using heq⟩
        exact inner k.2 (fun n hn => hn) s s' hP h

/-- What one call of `_drop_via_if_dr_clean` does. -/
theorem dropIfClean_spec {vd : ViaDef} {clg : Grid LineAttr} {s s' : VSt} {mhCl mvCl : Int} {mh mv : Node}
    (h : dropIfClean vd clg s mhCl mh mvCl mv = some s') :
    s' = s ∨ (OnCrossing vd (viaRect vd mhCl mvCl) mh.rect mv.rect ∧
      rowClear vd s.matrix mhCl (viaRect vd mhCl mvCl) = true ∧
      (∃ nb, neighbours clg mhCl = some nb ∧ clear vd s.matrix mhCl mvCl nb = true) ∧
      s' = ⟨s.drops ++ [⟨mh.netName, mhCl, mvCl, viaRect vd mhCl mvCl⟩],
        s.matrix.set (mhCl, mvCl) (viaRect vd mhCl mvCl)⟩) := by
  unfold dropIfClean at h
  split at h
  · left; simpa using h.symm
  · rename_i henc
    split at h
    · left; simpa using h.symm
    · rename_i hrow
      simp only [Option.map_eq_some_iff] at h
      obtain ⟨nb, hnb, h⟩ := h
      split at h
      · rename_i hc
        right
        refine ⟨?_, by simpa using hrow, ⟨nb, hnb, hc⟩, h.symm⟩
        simp only [encloses, Bool.not_eq_true', Bool.not_eq_false', Bool.not_not, Bool.or_eq_true,
          decide_eq_true_eq, not_or, Bool.not_eq_true, Bool.or_eq_false_iff, decide_eq_false_iff_not, not_lt,
          gt_iff_lt] at henc
        unfold OnCrossing
        omega
      · left; exact h.symm

/-- **C58, vias are on crossings.**  Every added via lies, with the required enclosures along the wires, in a
horizontal and a vertical wire of the same allowed net. -/
theorem C58_on_crossing {vd : ViaDef} {clg : Grid LineAttr} {allowed : String → Bool}
    {mhLines mvLines : List (Int × List Node)} {vias : List Rect} {out : List Drop}
    (h : dropVia vd clg allowed mhLines mvLines vias = some out) :
    ∀ p ∈ out, ∃ l ∈ mhLines, ∃ mh ∈ l.2, ∃ k ∈ mvLines, ∃ mv ∈ k.2, ∃ nm,
      mh.netName = some nm ∧ mv.netName = some nm ∧ p.net = some nm ∧ allowed nm = true ∧
      p.mhCl = l.1 ∧ p.mvCl = k.1 ∧ p.rect = viaRect vd l.1 k.1 ∧ OnCrossing vd p.rect mh.rect mv.rect := by
  obtain ⟨s, hs, rfl⟩ := dropVia_induction (fun s => ∀ p ∈ s.drops, ∃ l ∈ mhLines, ∃ mh ∈ l.2, ∃ k ∈ mvLines,
      ∃ mv ∈ k.2, ∃ nm, mh.netName = some nm ∧ mv.netName = some nm ∧ p.net = some nm ∧ allowed nm = true ∧
      p.mhCl = l.1 ∧ p.mvCl = k.1 ∧ p.rect = viaRect vd l.1 k.1 ∧ OnCrossing vd p.rect mh.rect mv.rect)
    (by simp) (by
      intro s hP l hl mh hmh k hk mv hmv ⟨nm, hnm, hall⟩ hname _ _ _ _ _ s' hs'
      rcases dropIfClean_spec hs' with rfl | ⟨henc, _, _, rfl⟩
      · exact hP
      · intro p hp
        rcases List.mem_append.mp hp with hp | hp
        · exact hP p hp
        · rw [List.mem_singleton] at hp
          subst hp
          exact ⟨l, hl, mh, hmh, k, hk, mv, hmv, nm, hnm, hname.trans hnm, hnm, hall, rfl, rfl, rfl, henc⟩) h
  exact hs

/-- The tracks found by `neighbours` are those next to the row. -/
theorem neighbours_next {clg : Grid LineAttr} {f l : Int} (hb : Bounded clg f l) {mhCl : Int} {nb : Int × Int}
    (h : neighbours clg mhCl = some nb) {t : Int}
    (hn : NextTrack (IsLine clg.coords f l) (mhCl / 2) t) :
    (t < mhCl / 2 ∧ 2 * t = nb.1) ∨ (mhCl / 2 < t ∧ 2 * t = nb.2) := by
  have hdiv : mhCl.fdiv 2 = mhCl / 2 := Int.fdiv_eq_ediv_of_nonneg _ (by omega)
  simp only [neighbours, Option.bind_eq_some_iff, Option.map_eq_some_iff] at h
  obtain ⟨p, hp, b, hbv, q, hq, a, hav, rfl⟩ := h
  rw [hdiv] at hp hq
  obtain ⟨hline, hne, hno⟩ := hn
  rcases lt_or_gt_of_ne hne with hlt | hgt
  · left
    obtain ⟨lo, hi, cl, ch, al, ah, h1, h2, h3, h4, h5, h6, h7, h8, h10, -⟩ := C07_inverseBounds clg f l hb (mhCl / 2 - 1)
    rw [hp, Option.some.injEq] at h1
    subst h1
    have h9 : clg.value lo false = some b := valueFlat_true hbv
    rw [h2, Option.some.injEq] at h9
    rw [← h9]
    simp only
    have e1 : ¬ (cl < t ∧ t < ch) := h8 t hline
    have e2 : ¬ (min (mhCl / 2) t < cl ∧ cl < max (mhCl / 2) t) := hno cl h6
    rw [min_eq_right hlt.le, max_eq_left hlt.le] at e2
    have e3 : ¬ (min (mhCl / 2) t < ch ∧ ch < max (mhCl / 2) t) := hno ch h7
    rw [min_eq_right hlt.le, max_eq_left hlt.le] at e3
    refine ⟨hlt, ?_⟩
    by_contra hne'
    have ht : t = mhCl / 2 - 1 := by omega
    have := h10.mpr (by rw [← ht]; exact hline)
    subst this
    rw [h2] at h3
    simp only [Option.some.injEq, Prod.mk.injEq] at h3
    omega
  · right
    obtain ⟨lo, hi, cl, ch, al, ah, h1, h2, h3, h4, h5, h6, h7, h8, h10, -⟩ := C07_inverseBounds clg f l hb (mhCl / 2 + 1)
    rw [hq, Option.some.injEq] at h1
    subst h1
    have h9 : clg.value hi false = some a := valueFlat_true hav
    rw [h3, Option.some.injEq] at h9
    rw [← h9]
    simp only
    have e1 : ¬ (cl < t ∧ t < ch) := h8 t hline
    have e2 : ¬ (min (mhCl / 2) t < cl ∧ cl < max (mhCl / 2) t) := hno cl h6
    rw [min_eq_left hgt.le, max_eq_right hgt.le] at e2
    have e3 : ¬ (min (mhCl / 2) t < ch ∧ ch < max (mhCl / 2) t) := hno ch h7
    rw [min_eq_left hgt.le, max_eq_right hgt.le] at e3
    refine ⟨hgt, ?_⟩
    by_contra hne'
    have ht : t = mhCl / 2 + 1 := by omega
    have := h10.mpr (by rw [← ht]; exact hline)
    subst this
    rw [h2] at h3
    simp only [Option.some.injEq, Prod.mk.injEq] at h3
    omega

/-- **C58, vias added in one call.**  No two are at the same place, those in a row that are apart keep the spacing,
and so do those in a column on neighbouring tracks.  Missing from C58: vias that existed before (see
`C58_violated_existing`), vias that abut or overlap, vias two tracks apart, and diagonal neighbours. -/
theorem C58_added_partial {vd : ViaDef} {clg : Grid LineAttr} {f l : Int} (hb : Bounded clg f l)
    {allowed : String → Bool} {mhLines mvLines : List (Int × List Node)} {vias : List Rect} {out : List Drop}
    (hw : 0 ≤ vd.widthY) (h : dropVia vd clg allowed mhLines mvLines vias = some out) :
    out.Pairwise (Spaced vd (IsLine clg.coords f l)) := by
  have hdiv : ∀ x : Int, x.fdiv 2 = x / 2 := fun x => Int.fdiv_eq_ediv_of_nonneg x (by omega)
  obtain ⟨s, ⟨-, -, hs⟩, rfl⟩ := dropVia_induction
    (fun s => Recorded s ∧ (∀ p ∈ s.drops, p.rect = viaRect vd p.mhCl p.mvCl) ∧
      s.drops.Pairwise (Spaced vd (IsLine clg.coords f l)))
    ⟨by intro p hp; simp at hp, by simp, by simp⟩ (by
      intro s ⟨hrec, hrect, hP⟩ ln hl mh hmh k hk mv hmv _ _ _ _ _ _ hnew s' hs'
      rcases dropIfClean_spec hs' with rfl | ⟨_, hrow, ⟨nb, hnb, hcl⟩, rfl⟩
      · exact ⟨hrec, hrect, hP⟩
      · refine ⟨?_, ?_, ?_⟩
        · intro p hp
          rw [mem_set]
          rcases List.mem_append.mp hp with hp | hp
          · exact Or.inl ⟨hrec p hp, hnew _ (hrec p hp)⟩
          · rw [List.mem_singleton] at hp
            subst hp
            exact Or.inr rfl
        · intro p hp
          rcases List.mem_append.mp hp with hp | hp
          · exact hrect p hp
          · rw [List.mem_singleton] at hp
            subst hp
            rfl
        · rw [List.pairwise_append]
          refine ⟨hP, by simp, ?_⟩
          intro p hp q hq
          rw [List.mem_singleton] at hq
          subst hq
          have hpm := hrec p hp
          have hpr := hrect p hp
          refine ⟨?_, ?_, ?_⟩
          · rintro ⟨h1, h2⟩
            simp only at h1 h2
            exact hnew _ hpm (by rw [h1, h2])
          · intro h1
            simp only at h1 ⊢
            rw [h1] at hpm
            simp only [rowClear, List.all_eq_true] at hrow
            have := hrow (p.mvCl, p.rect) (mem_row.mpr hpm)
            simp only [Bool.not_eq_true', Bool.or_eq_false_iff, decide_eq_false_iff_not] at this
            constructor <;> intro hlt <;> omega
          · intro h1 hn hev1 hev2
            simp only at h1 hn hev2 ⊢
            have hcl' := hcl
            simp only [clear, belowClear, aboveClear, Bool.and_eq_true, List.all_eq_true] at hcl'
            have hy0 : p.rect.y0 = p.mhCl / 2 - vd.widthY / 2 := by rw [hpr]; simp [viaRect, hdiv]
            have hy1 : p.rect.y1 = p.mhCl / 2 + vd.widthY / 2 := by rw [hpr]; simp [viaRect, hdiv]
            have hq0 : (viaRect vd ln.1 k.1).y0 = ln.1 / 2 - vd.widthY / 2 := by simp [viaRect, hdiv]
            have hq1 : (viaRect vd ln.1 k.1).y1 = ln.1 / 2 + vd.widthY / 2 := by simp [viaRect, hdiv]
            rw [h1] at hpm
            rcases neighbours_next hb hnb hn with ⟨hlt, hnb1⟩ | ⟨hgt, hnb2⟩
            · have hk : p.mhCl = nb.1 := by omega
              rw [hk] at hpm
              have := hcl'.1 (k.1, p.rect) (mem_row.mpr hpm)
              simp only [Bool.not_eq_true', decide_eq_false_iff_not, true_and] at this
              constructor <;> intro hlt' <;> omega
            · have hk : p.mhCl = nb.2 := by omega
              rw [hk] at hpm
              have := hcl'.2 (k.1, p.rect) (mem_row.mpr hpm)
              simp only [Bool.not_eq_true', decide_eq_false_iff_not, true_and] at this
              constructor <;> intro hlt' <;> omega) h
  exact hs

/-! ## Examples and violations -/

/-- Vias of size 4 by 4, spacing 8, enclosure 1. -/
def via4 : ViaDef := ⟨4, 4, 8, 8, 1, 1⟩

def hWire (y : Int) : Int × List Node := (2 * y, [⟨⟨0, y - 2, 60, y + 2⟩, some "a", .drawing, none, false⟩])
def vWire (x : Int) : Int × List Node := (2 * x, [⟨⟨x - 2, 0, x + 2, 60⟩, some "a", .drawing, none, false⟩])

/-- On tracks every 10, the via beside the first one would be 6 away: it is left out, the next is added. -/
example : (dropVia via4 clg10 (netAllowed [] none) [hWire 20, hWire 30] [vWire 10, vWire 20, vWire 30] []).map
    (fun o => o.map fun p => (p.mvCl / 2, p.mhCl / 2)) = some [(10, 20), (30, 20), (20, 30)] := by decide

example : Bounded clg10 0 10 := ⟨by decide, by decide, by decide, by decide, by decide⟩

/-- **C58 is violated by existing vias.**  The matrix of existing vias is built with the keys for x and y exchanged,
so a via at (10, 20) is not found, and a second one is added on top of it. -/
theorem C58_violated_existing :
    dropVia via4 clg10 (netAllowed [] none) [hWire 20] [vWire 10] [⟨8, 18, 12, 22⟩] =
      some [⟨some "a", 40, 20, ⟨8, 18, 12, 22⟩⟩] := by decide

/-- **C58 is violated between existing and new vias.**  The existing via at (10, 20) is 6 away from the new one at
(20, 20), which is less than 8. -/
theorem C58_violated_existing_spacing :
    dropVia via4 clg10 (netAllowed [] none) [hWire 20] [vWire 20] [⟨8, 18, 12, 22⟩] =
      some [⟨some "a", 40, 40, ⟨18, 18, 22, 22⟩⟩] := by decide

/-- **C58 is violated across two tracks.**  With a spacing of 18, vias at distance 16 are accepted in a column,
because only the next tracks are looked at. -/
theorem C58_violated_two_tracks :
    (dropVia ⟨4, 4, 18, 18, 1, 1⟩ clg10 (netAllowed [] none) [hWire 20, hWire 40] [vWire 10] []).map
      (fun o => o.map fun p => p.rect) = some [⟨8, 18, 12, 22⟩, ⟨8, 38, 12, 42⟩] := by decide

/-- **C58 is violated by vias that abut.**  Vias as wide as the distance of the columns are drawn side by side. -/
theorem C58_violated_abutting :
    (dropVia ⟨10, 4, 8, 8, 1, 1⟩ clg10 (netAllowed [] none) [hWire 20] [vWire 10, vWire 20] []).map
      (fun o => o.map fun p => p.rect) = some [⟨5, 18, 15, 22⟩, ⟨15, 18, 25, 22⟩] := by decide

end Verif.Canvas

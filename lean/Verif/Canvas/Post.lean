import Verif.Grid.Tracks
import Verif.Geometry.Model
import Verif.Hier.HpwlProps
import Verif.Pnr.Subset
import Mathlib.Tactic.Ring
import Mathlib.Tactic.Linarith

/-!
# Postprocessing of the layout

`align/cell_fabric/postprocess.py`, `align/primitive/default/via.py` and their use in
`align/primitive/default/canvas.py`.
-/

namespace Verif.Post

open Verif.Geometry (Rect)
open Verif.Grid

/-- An entry of `data['terminals']` (other keys are copied by `deepcopy` and left out). -/
structure Term where
  net : Option String
  layer : String
  rect : Rect
  color : Option String
deriving DecidableEq, Repr

/-- A postprocessor: the new terminals and the terminals it reports an error for; `none` if it
raises.  A single terminal returned instead of a list is a list of one (`postprocess.py:31-33`). -/
abbrev Proc := Term → Option (List Term × List Term)

/-- `PostProcessor.register` (`postprocess.py:13-15`). -/
def register (pps : List (String × Proc)) (layer : String) (f : Proc) :
    Option (List (String × Proc)) :=
  if layer ∈ pps.map (·.1) then none else some (pps ++ [(layer, f)])

/-- The body of the loop of `PostProcessor.run` (`postprocess.py:25-41`). -/
def step (pps : List (String × Proc)) (t : Term) : Option (List Term × List Term) :=
  match pps.lookup t.layer with
  | some f => f t
  | none => some ([t], [])

/-- `PostProcessor.run` (`postprocess.py:21-47`): the terminals and the errors. -/
def run (pps : List (String × Proc)) (ts : List Term) : Option (List Term × List Term) :=
  (ts.mapM (step pps)).map (fun rs => ((rs.map (·.1)).flatten, (rs.map (·.2)).flatten))

/-- The keyword arguments of `ViaArrayGenerator` (`via.py:6`). -/
structure Cut where
  widthX : Int
  widthY : Int
  spaceX : Int
  spaceY : Int
  numX : Nat
  numY : Nat
deriving DecidableEq, Repr

/-- `xstart` (`via.py:9`) and `ystart` (`via.py:10`). -/
def start (lo hi width space : Int) (num : Nat) : Int :=
  (lo + hi).fdiv 2 - (width * num + space * ((num : Int) - 1)).fdiv 2

/-- `ViaArrayGenerator` (`via.py:6-20`). -/
def viaArray (p : Cut) (t : Term) : List Term :=
  let xstart := start t.rect.llx t.rect.urx p.widthX p.spaceX p.numX
  let ystart := start t.rect.lly t.rect.ury p.widthY p.spaceY p.numY
  (List.range p.numX).flatMap (fun (i : Nat) => (List.range p.numY).map (fun (j : Nat) =>
    { t with
      rect :=
        { llx := xstart + i * (p.widthX + p.spaceX)
          lly := ystart + j * (p.widthY + p.spaceY)
          urx := xstart + i * (p.widthX + p.spaceX) + p.widthX
          ury := ystart + j * (p.widthY + p.spaceY) + p.widthY } }))

/-- The postprocessor of a via layer with `ViaCut` (`canvas.py:127-130`). -/
def viaProc (p : Cut) : Proc := fun t => some (viaArray p t, [])

/-- A metal layer of the PDK with a single width. -/
structure Metal where
  colors : List String
  horizontal : Bool
  pitch : Int
  width : Int
  offset : Int
deriving DecidableEq, Repr

/-- The tracks of a coloured layer (`canvas.py:88-91`). -/
def metalGrid (L : Metal) : Option (Grid LineAttr) :=
  coloredCenterLineGrid L.colors L.pitch L.width L.offset none

/-- `ColorClosure` (`via.py:22-47`) as registered by `_create_metal` (`canvas.py:46-48`).  A zero
pitch raises in `divmod`. -/
def colorProc (L : Metal) : Proc := fun t =>
  if L.colors = [] ∨ L.pitch = 0 then none
  else
    let c2 := if L.horizontal then t.rect.lly + t.rect.ury else t.rect.llx + t.rect.urx
    let q := c2.fdiv (2 * L.pitch)
    let r := c2.fmod (2 * L.pitch)
    if r = 0 then
      (L.colors[(q.fmod L.colors.length).toNat]?).map (fun c => ([t, { t with color := some c }], []))
    else some ([t], [t])

/-! ## Specification of via arrays -/

/-- Two cuts are at least the spacing apart, in one direction or the other. -/
def Apart (p : Cut) (a b : Rect) : Prop :=
  a.urx + p.spaceX ≤ b.llx ∨ b.urx + p.spaceX ≤ a.llx ∨
    a.ury + p.spaceY ≤ b.lly ∨ b.ury + p.spaceY ≤ a.lly

/-- The length of a row of cuts. -/
def rowLen (w s : Int) (n : Nat) : Int := n * w + (n - 1) * s

/-- `x0` and `x1` are the outermost sides of the intervals in the list. -/
def Extent (l : List (Int × Int)) (x0 x1 : Int) : Prop :=
  (∀ e ∈ l, x0 ≤ e.1 ∧ e.2 ≤ x1) ∧ (∃ e ∈ l, e.1 = x0) ∧ ∃ e ∈ l, e.2 = x1

/-- The cuts drawn for a via. -/
structure CutsOf (p : Cut) (t : Term) (cs : List Term) : Prop where
  /-- their number -/
  count : cs.length = p.numX * p.numY
  /-- their size; nothing else is changed -/
  size : ∀ c ∈ cs, c.net = t.net ∧ c.layer = t.layer ∧ c.color = t.color ∧
    c.rect.urx - c.rect.llx = p.widthX ∧ c.rect.ury - c.rect.lly = p.widthY
  /-- their spacing -/
  apart : cs.Pairwise (fun a b => Apart p a.rect b.rect)
  /-- the array has the length of its rows and is in the middle of the via, up to rounding -/
  middleX : 0 < p.numX → 0 < p.numY → ∃ x0 x1,
    Extent (cs.map (fun c => (c.rect.llx, c.rect.urx))) x0 x1 ∧
    x1 - x0 = rowLen p.widthX p.spaceX p.numX ∧ |(x0 + x1) - (t.rect.llx + t.rect.urx)| ≤ 1
  middleY : 0 < p.numX → 0 < p.numY → ∃ y0 y1,
    Extent (cs.map (fun c => (c.rect.lly, c.rect.ury))) y0 y1 ∧
    y1 - y0 = rowLen p.widthY p.spaceY p.numY ∧ |(y0 + y1) - (t.rect.lly + t.rect.ury)| ≤ 1
  /-- where the via is large enough, the cuts are inside it -/
  insideX : rowLen p.widthX p.spaceX p.numX ≤ t.rect.urx - t.rect.llx →
    ∀ c ∈ cs, t.rect.llx ≤ c.rect.llx ∧ c.rect.urx ≤ t.rect.urx
  insideY : rowLen p.widthY p.spaceY p.numY ≤ t.rect.ury - t.rect.lly →
    ∀ c ∈ cs, t.rect.lly ≤ c.rect.lly ∧ c.rect.ury ≤ t.rect.ury

/-! ## Proofs -/

theorem start_spec (lo hi w s : Int) (n : Nat) :
    |(start lo hi w s n + (start lo hi w s n + rowLen w s n)) - (lo + hi)| ≤ 1 ∧
    (rowLen w s n ≤ hi - lo →
      lo ≤ start lo hi w s n ∧ start lo hi w s n + rowLen w s n ≤ hi) := by
  have e : w * n + s * ((n : Int) - 1) = rowLen w s n := by unfold rowLen; ring
  unfold start
  rw [e]
  generalize rowLen w s n = T
  rw [Int.fdiv_eq_ediv_of_nonneg _ (by omega), Int.fdiv_eq_ediv_of_nonneg _ (by omega), abs_le]
  omega

theorem mem_viaArray (p : Cut) (t c : Term) : c ∈ viaArray p t ↔ ∃ i < p.numX, ∃ j < p.numY,
    c = { t with
      rect := ⟨start t.rect.llx t.rect.urx p.widthX p.spaceX p.numX + i * (p.widthX + p.spaceX),
        start t.rect.lly t.rect.ury p.widthY p.spaceY p.numY + j * (p.widthY + p.spaceY),
        start t.rect.llx t.rect.urx p.widthX p.spaceX p.numX + i * (p.widthX + p.spaceX) + p.widthX,
        start t.rect.lly t.rect.ury p.widthY p.spaceY p.numY + j * (p.widthY + p.spaceY) +
          p.widthY⟩ } := by
  unfold viaArray
  simp only [List.mem_flatMap, List.mem_range, List.mem_map, eq_comm]

theorem row_bounds (w s : Int) (hw : 0 ≤ w) (hs : 0 ≤ s) (n i : Nat) (h : i < n) :
    0 ≤ (i : Int) * (w + s) ∧ (i : Int) * (w + s) + w ≤ rowLen w s n := by
  constructor
  · positivity
  · unfold rowLen
    have h1 : ((i : Int) + 1) * (w + s) ≤ (n : Int) * (w + s) :=
      mul_le_mul_of_nonneg_right (by exact_mod_cast h) (by omega)
    nlinarith

theorem step_apart (w s : Int) (hw : 0 ≤ w) (hs : 0 ≤ s) (i i' : Nat) (h : i < i') :
    (i : Int) * (w + s) + w + s ≤ (i' : Int) * (w + s) := by
  have h1 : ((i : Int) + 1) * (w + s) ≤ (i' : Int) * (w + s) :=
    mul_le_mul_of_nonneg_right (by exact_mod_cast h) (by omega)
  linarith

theorem rowLen_last (w s : Int) (n : Nat) (h : 0 < n) :
    ((n - 1 : Nat) : Int) * (w + s) + w = rowLen w s n := by
  unfold rowLen
  rw [Nat.cast_sub h]
  push_cast
  ring

theorem pairwise_range (n : Nat) : (List.range n).Pairwise (· < ·) := List.pairwise_lt_range

theorem viaArray_cuts (p : Cut) (hwx : 0 ≤ p.widthX) (hwy : 0 ≤ p.widthY) (hsx : 0 ≤ p.spaceX)
    (hsy : 0 ≤ p.spaceY) (t : Term) : CutsOf p t (viaArray p t) := by
  constructor
  · unfold viaArray
    simp [List.length_flatMap]
  · intro c hc
    obtain ⟨i, hi, j, hj, rfl⟩ := (mem_viaArray p t c).1 hc
    simp
  · unfold viaArray
    simp only
    rw [List.pairwise_flatMap]
    constructor
    · intro i _
      rw [List.pairwise_map]
      refine (pairwise_range _).imp ?_
      intro j j' hj
      have := step_apart p.widthY p.spaceY hwy hsy j j' hj
      right; right; left
      simp only
      linarith
    · refine (pairwise_range _).imp ?_
      intro i i' hi a ha b hb
      obtain ⟨j, _, rfl⟩ := List.mem_map.1 ha
      obtain ⟨j', _, rfl⟩ := List.mem_map.1 hb
      have := step_apart p.widthX p.spaceX hwx hsx i i' hi
      left
      simp only
      linarith
  · intro hx hy
    refine ⟨_, _, ⟨?_, ?_, ?_⟩, add_sub_cancel_left _ _,
      (start_spec t.rect.llx t.rect.urx p.widthX p.spaceX p.numX).1⟩
    · intro e he
      obtain ⟨c, hc, rfl⟩ := List.mem_map.1 he
      obtain ⟨i, hi, j, hj, rfl⟩ := (mem_viaArray p t c).1 hc
      have := row_bounds p.widthX p.spaceX hwx hsx p.numX i hi
      simp only
      constructor <;> linarith
    · refine ⟨_, List.mem_map.2 ⟨_, (mem_viaArray p t _).2 ⟨0, hx, 0, hy, rfl⟩, rfl⟩, ?_⟩
      simp
    · refine ⟨_, List.mem_map.2 ⟨_, (mem_viaArray p t _).2 ⟨p.numX - 1, by omega, 0, hy, rfl⟩, rfl⟩, ?_⟩
      have := rowLen_last p.widthX p.spaceX p.numX hx
      simp only
      linarith
  · intro hx hy
    refine ⟨_, _, ⟨?_, ?_, ?_⟩, add_sub_cancel_left _ _,
      (start_spec t.rect.lly t.rect.ury p.widthY p.spaceY p.numY).1⟩
    · intro e he
      obtain ⟨c, hc, rfl⟩ := List.mem_map.1 he
      obtain ⟨i, hi, j, hj, rfl⟩ := (mem_viaArray p t c).1 hc
      have := row_bounds p.widthY p.spaceY hwy hsy p.numY j hj
      simp only
      constructor <;> linarith
    · refine ⟨_, List.mem_map.2 ⟨_, (mem_viaArray p t _).2 ⟨0, hx, 0, hy, rfl⟩, rfl⟩, ?_⟩
      simp
    · refine ⟨_, List.mem_map.2 ⟨_, (mem_viaArray p t _).2 ⟨0, hx, p.numY - 1, by omega, rfl⟩, rfl⟩, ?_⟩
      have := rowLen_last p.widthY p.spaceY p.numY hy
      simp only
      linarith
  · intro hf c hc
    obtain ⟨i, hi, j, hj, rfl⟩ := (mem_viaArray p t c).1 hc
    have h1 := row_bounds p.widthX p.spaceX hwx hsx p.numX i hi
    have h2 := (start_spec t.rect.llx t.rect.urx p.widthX p.spaceX p.numX).2 hf
    simp only
    constructor <;> linarith
  · intro hf c hc
    obtain ⟨i, hi, j, hj, rfl⟩ := (mem_viaArray p t c).1 hc
    have h1 := row_bounds p.widthY p.spaceY hwy hsy p.numY j hj
    have h2 := (start_spec t.rect.lly t.rect.ury p.widthY p.spaceY p.numY).2 hf
    simp only
    constructor <;> linarith

/-- The layers of a PDK for which `DefaultCanvas` registers a postprocessor, in the order of the
PDK (`canvas.py:25-31`). -/
inductive LayerProc
  | via (p : Cut)
  | metal (L : Metal)

/-- What is registered for a layer. -/
def LayerProc.proc : LayerProc → Proc
  | .via p => viaProc p
  | .metal L => colorProc L

/-- The registrations of `DefaultCanvas`. -/
def registerAll (ls : List (String × LayerProc)) : Option (List (String × Proc)) :=
  ls.foldlM (fun pps l => register pps l.1 l.2.proc) []

theorem registerAll_lookup (ls : List (String × LayerProc)) :
    ∀ (pps0 pps : List (String × Proc)),
      ls.foldlM (fun pps l => register pps l.1 l.2.proc) pps0 = some pps →
      pps = pps0 ++ ls.map (fun l => (l.1, l.2.proc)) ∧
        ((pps0.map (·.1)).Nodup → (pps.map (·.1)).Nodup) := by
  induction ls with
  | nil =>
    intro pps0 pps h
    cases h
    simp
  | cons l ls ih =>
    intro pps0 pps h
    rw [List.foldlM_cons] at h
    unfold register at h
    split at h
    · cases h
    · rename_i hn
      obtain ⟨h1, h2⟩ := ih _ _ h
      refine ⟨by rw [h1]; simp, fun hd => h2 ?_⟩
      rw [List.map_append, List.nodup_append]
      refine ⟨hd, by simp, ?_⟩
      intro a ha b hb he
      simp only [List.map_cons, List.map_nil, List.mem_singleton] at hb
      rw [he, hb] at ha
      exact hn ha

theorem step_registered (ls : List (String × LayerProc)) (pps : List (String × Proc))
    (h : registerAll ls = some pps) (t : Term) :
    (∀ l, (t.layer, l) ∈ ls → step pps t = l.proc t) ∧
    ((∀ l, (t.layer, l) ∉ ls) → step pps t = some ([t], [])) := by
  obtain ⟨h1, h2⟩ := registerAll_lookup ls [] pps h
  have hn := h2 (by simp)
  rw [List.nil_append] at h1
  constructor
  · intro l hl
    unfold step
    rw [(Hier.lookup_iff_mem hn).2 (show (t.layer, l.proc) ∈ pps by
      rw [h1]; exact List.mem_map.2 ⟨_, hl, rfl⟩)]
  · intro hl
    unfold step
    cases hc : pps.lookup t.layer with
    | none => rfl
    | some f =>
      have := Hier.lookup_mem hc
      rw [h1] at this
      obtain ⟨l, hl', he⟩ := List.mem_map.1 this
      simp only [Prod.mk.injEq] at he
      exact absurd (show (t.layer, l.2) ∈ ls by rw [← he.1]; exact hl') (hl _)

/-- C90: in the layout that is written, every via of a layer with via cuts is replaced, at its
place, by its array of cuts; shapes of layers without a postprocessor are left as they are. -/
theorem C90_cuts (ls : List (String × LayerProc)) (pps : List (String × Proc))
    (h : registerAll ls = some pps)
    (hp : ∀ (n : String) (p : Cut), (n, LayerProc.via p) ∈ ls →
      0 ≤ p.widthX ∧ 0 ≤ p.widthY ∧ 0 ≤ p.spaceX ∧ 0 ≤ p.spaceY)
    (ts out errs : List Term) (hr : run pps ts = some (out, errs)) :
    ∃ parts : List (List Term), out = parts.flatten ∧
      List.Forall₂ (fun t ps =>
        (∀ p, (t.layer, LayerProc.via p) ∈ ls → CutsOf p t ps) ∧
        ((∀ l, (t.layer, l) ∉ ls) → ps = [t])) ts parts := by
  unfold run at hr
  rw [Option.map_eq_some_iff] at hr
  obtain ⟨rs, h1, h2⟩ := hr
  simp only [Prod.mk.injEq] at h2
  refine ⟨_, h2.1.symm, ?_⟩
  have hf := Hier.mapM_forall₂ h1
  rw [List.forall₂_map_right_iff]
  refine hf.imp ?_
  intro t r htr
  obtain ⟨s1, s2⟩ := step_registered ls pps h t
  constructor
  · intro p hl
    rw [s1 _ hl] at htr
    have : (viaArray p t, []) = r := Option.some.inj htr
    rw [← this]
    obtain ⟨a, b, c, d⟩ := hp _ _ hl
    exact viaArray_cuts p a b c d t
  · intro hl
    rw [s2 hl] at htr
    rw [← Option.some.inj htr]

/-- The two sides of a wire across its direction. -/
def sides (horizontal : Bool) (r : Rect) : Int × Int :=
  if horizontal then (r.lly, r.ury) else (r.llx, r.urx)

theorem color_on (L : Metal) (hc : L.colors ≠ []) (hp : 0 < L.pitch) (t : Term) (v : Int)
    (hv : (sides L.horizontal t.rect).1 + (sides L.horizontal t.rect).2 = 2 * (v * L.pitch)) :
    ∃ c, L.colors[(v % (L.colors.length : Int)).toNat]? = some c ∧
      colorProc L t = some ([t, { t with color := some c }], []) := by
  have hpos : (0 : Int) < L.colors.length := by exact_mod_cast List.length_pos_iff.mpr hc
  have hlt : (v % (L.colors.length : Int)).toNat < L.colors.length := by
    have h1 := Int.emod_lt_of_pos v hpos
    have h2 := Int.emod_nonneg v hpos.ne'
    omega
  refine ⟨_, List.getElem?_eq_getElem hlt, ?_⟩
  have hc2 : (if L.horizontal = true then t.rect.lly + t.rect.ury else t.rect.llx + t.rect.urx) =
      v * (2 * L.pitch) := by
    unfold sides at hv
    split at hv <;> rename_i hh
    · rw [if_pos hh]; simp only at hv; linarith
    · rw [if_neg hh]; simp only at hv; linarith
  unfold colorProc
  rw [if_neg (by rintro (h | h) <;> [exact hc h; omega])]
  simp only [hc2]
  have hne : 2 * L.pitch ≠ 0 := by omega
  rw [Int.fmod_eq_emod_of_nonneg _ (by omega), Int.mul_emod_left, if_pos rfl,
    Int.fdiv_eq_ediv_of_nonneg _ (by omega), Int.mul_ediv_cancel _ hne,
    Int.fmod_eq_emod_of_nonneg _ hpos.le, List.getElem?_eq_getElem hlt]
  rfl

theorem color_off (L : Metal) (hc : L.colors ≠ []) (hp : 0 < L.pitch) (t : Term)
    (hv : ∀ v, (sides L.horizontal t.rect).1 + (sides L.horizontal t.rect).2 ≠ 2 * (v * L.pitch)) :
    colorProc L t = some ([t], [t]) := by
  unfold colorProc
  rw [if_neg (by rintro (h | h) <;> [exact hc h; omega])]
  have hc2 : (if L.horizontal = true then t.rect.lly + t.rect.ury else t.rect.llx + t.rect.urx) =
      (sides L.horizontal t.rect).1 + (sides L.horizontal t.rect).2 := by
    unfold sides
    split <;> rfl
  simp only [hc2]
  rw [Int.fmod_eq_emod_of_nonneg _ (by omega), if_neg]
  intro h0
  have h1 := Int.mul_ediv_add_emod ((sides L.horizontal t.rect).1 + (sides L.horizontal t.rect).2)
    (2 * L.pitch)
  rw [h0, add_zero] at h1
  apply hv (((sides L.horizontal t.rect).1 + (sides L.horizontal t.rect).2) / (2 * L.pitch))
  linarith

/-- If no layer is registered twice and the metal layers have colours and a pitch, postprocessing
succeeds. -/
theorem C90_succeeds (ls : List (String × LayerProc)) (hn : (ls.map (·.1)).Nodup)
    (hc : ∀ (n : String) (L : Metal), (n, LayerProc.metal L) ∈ ls → L.colors ≠ [] ∧ 0 < L.pitch)
    (ts : List Term) : ∃ pps out errs, registerAll ls = some pps ∧ run pps ts = some (out, errs) := by
  have hreg : ∀ (ls : List (String × LayerProc)) (pps0 : List (String × Proc)),
      (pps0.map (·.1) ++ ls.map (·.1)).Nodup →
      ∃ pps, ls.foldlM (fun pps l => register pps l.1 l.2.proc) pps0 = some pps := by
    intro ls
    induction ls with
    | nil => intro pps0 _; exact ⟨pps0, rfl⟩
    | cons l ls ih =>
      intro pps0 hd
      rw [List.foldlM_cons]
      have h1 : l.1 ∉ pps0.map (·.1) := by
        intro hm
        exact (List.nodup_append.1 hd).2.2 _ hm _ (List.mem_cons_self ..) rfl
      obtain ⟨pps, hp⟩ := ih (pps0 ++ [(l.1, l.2.proc)]) (by simpa using hd)
      refine ⟨pps, ?_⟩
      unfold register
      rw [if_neg h1]
      exact hp
  obtain ⟨pps, hp⟩ := hreg ls [] (by simpa using hn)
  refine ⟨pps, ?_⟩
  have hs : ∀ t : Term, (step pps t).isSome := by
    intro t
    obtain ⟨s1, s2⟩ := step_registered ls pps hp t
    by_cases hl : ∃ l, (t.layer, l) ∈ ls
    · obtain ⟨l, hl⟩ := hl
      rw [s1 l hl]
      cases l with
      | via p => rfl
      | metal L =>
        obtain ⟨c1, c2⟩ := hc _ _ hl
        by_cases hv : ∃ v, (sides L.horizontal t.rect).1 + (sides L.horizontal t.rect).2 =
            2 * (v * L.pitch)
        · obtain ⟨v, hv⟩ := hv
          obtain ⟨c, _, h⟩ := color_on L c1 c2 t v hv
          rw [LayerProc.proc, h]
          rfl
        · rw [LayerProc.proc, color_off L c1 c2 t (by push Not at hv; exact hv)]
          rfl
    · rw [s2 (by push Not at hl; exact hl)]
      rfl
  have := Pnr.mapM_isSome (f := step pps) (l := ts) (fun t _ => hs t)
  obtain ⟨rs, hrs⟩ := Option.isSome_iff_exists.1 this
  exact ⟨_, _, hp, by unfold run; rw [hrs]; rfl⟩

/-! ## Colours -/

/-- C91: if the first track is at zero, every wire centered on a track gets, beside itself, a copy
with the colour of the track, and every other wire is reported and gets none.  Missing: other
offsets, see `C91_violated_color` and `C91_violated_offgrid`. -/
theorem C91_colors_partial (L : Metal) (hc : L.colors ≠ []) (he : L.colors.length % 2 = 0)
    (hw : L.width % 2 = 0) (hp : 0 < L.pitch) (h0 : L.offset = 0) :
    ∃ g, metalGrid L = some g ∧ ∀ t : Term,
      (∀ (v c w : Int) (clr : Option String), g.valueFlat v true = some (c, (w, clr)) →
        (sides L.horizontal t.rect).1 + (sides L.horizontal t.rect).2 = 2 * c →
        clr ≠ none ∧ colorProc L t = some ([t, { t with color := clr }], [])) ∧
      ((∀ (v c : Int) (a : LineAttr), g.valueFlat v true = some (c, a) →
        (sides L.horizontal t.rect).1 + (sides L.horizontal t.rect).2 ≠ 2 * c) →
        colorProc L t = some ([t], [t])) := by
  obtain ⟨g, hg, hv⟩ := C09_colors_cyclic L.colors L.pitch L.width L.offset none hc he (by simp) hw
    (by simp)
  refine ⟨g, hg, fun t => ⟨?_, ?_⟩⟩
  · intro v c w clr h1 h2
    rw [hv, h0, zero_add] at h1
    simp only [Option.some.injEq, Prod.mk.injEq] at h1
    obtain ⟨rfl, _, rfl⟩ := h1
    obtain ⟨k, hk, hcp⟩ := color_on L hc hp t v h2
    rw [hk]
    exact ⟨by simp, hcp⟩
  · intro h
    refine color_off L hc hp t (fun v => ?_)
    have := h v _ _ (hv v)
    rwa [h0, zero_add] at this

/-- The same for the wires which `Wire.segment` draws on the tracks of the layer. -/
theorem C91_wires_partial {β : Type} (L : Metal) (hc : L.colors ≠ []) (he : L.colors.length % 2 = 0)
    (hw : L.width % 2 = 0) (hp : 0 < L.pitch) (h0 : L.offset = 0) (spg : Grid β)
    (net : Option String) (layer : String) :
    ∃ g, metalGrid L = some g ∧ ∀ (v : Int) (b e : Int × Int) (x0 y0 x1 y1 : Int),
      wireSegment g spg L.horizontal (0, v) b e = some [x0, y0, x1, y1] →
      ∃ c w clr, g.valueFlat v true = some (c, (w, some clr)) ∧
        colorProc L ⟨net, layer, ⟨x0, y0, x1, y1⟩, none⟩ =
          some ([⟨net, layer, ⟨x0, y0, x1, y1⟩, none⟩, ⟨net, layer, ⟨x0, y0, x1, y1⟩, some clr⟩],
            []) := by
  obtain ⟨g, hg, hv⟩ := C09_colors_cyclic L.colors L.pitch L.width L.offset none hc he (by simp) hw
    (by simp)
  refine ⟨g, hg, ?_⟩
  intro v b e x0 y0 x1 y1 hs
  have hval : g.value (0, v) true = some (v * L.pitch, (L.width,
      L.colors[(v % (L.colors.length : Int)).toNat]?)) := by
    rw [Grid.value]
    simp only [Int.zero_mul, Int.zero_add]
    rw [hv, h0, zero_add]
  have hh : L.width.fdiv 2 * 2 = L.width := by
    rw [Int.fdiv_eq_ediv_of_nonneg _ (by omega)]; omega
  have hmid : (sides L.horizontal ⟨x0, y0, x1, y1⟩).1 + (sides L.horizontal ⟨x0, y0, x1, y1⟩).2 =
      2 * (v * L.pitch) := by
    unfold wireSegment at hs
    rw [hval] at hs
    cases hb : spg.value b true with
    | none => rw [hb] at hs; simp at hs
    | some b' =>
      cases he' : spg.value e true with
      | none => rw [hb, he'] at hs; simp at hs
      | some e' =>
        rw [hb, he'] at hs
        simp only [Option.some.injEq] at hs
        unfold sides
        split at hs <;> rename_i hh'
        · rw [if_pos hh']
          simp only [List.cons.injEq, and_true] at hs
          obtain ⟨_, h2, _, h4⟩ := hs
          simp only
          linarith
        · rw [if_neg hh']
          simp only [List.cons.injEq, and_true] at hs
          obtain ⟨h1, _, h3, _⟩ := hs
          simp only
          linarith
  obtain ⟨k, hk, hcp⟩ := color_on L hc hp ⟨net, layer, ⟨x0, y0, x1, y1⟩, none⟩ v hmid
  refine ⟨v * L.pitch, L.width, k, ?_, hcp⟩
  rw [hv, h0, zero_add, hk]

/-- With an offset of one pitch the first track has the first colour, but the wire on it gets the
second. -/
theorem C91_violated_color :
    (metalGrid ⟨["c1", "c2"], false, 80, 32, 80⟩).bind (fun g => g.valueFlat 0 true) =
      some (80, (32, some "c1")) ∧
    colorProc ⟨["c1", "c2"], false, 80, 32, 80⟩ ⟨some "a", "M1", ⟨64, 0, 96, 500⟩, none⟩ =
      some ([⟨some "a", "M1", ⟨64, 0, 96, 500⟩, none⟩, ⟨some "a", "M1", ⟨64, 0, 96, 500⟩, some "c2"⟩],
        []) := by decide

/-- With an offset of half a pitch wires on the tracks are reported as off grid and get no colour. -/
theorem C91_violated_offgrid :
    (metalGrid ⟨["c1", "c2"], false, 80, 32, 40⟩).bind (fun g => g.valueFlat 0 true) =
      some (40, (32, some "c1")) ∧
    colorProc ⟨["c1", "c2"], false, 80, 32, 40⟩ ⟨some "a", "M1", ⟨24, 0, 56, 500⟩, none⟩ =
      some ([⟨some "a", "M1", ⟨24, 0, 56, 500⟩, none⟩], [⟨some "a", "M1", ⟨24, 0, 56, 500⟩, none⟩]) := by
  decide

/-- Layers as in the FinFET PDK. -/
def layers14 : List (String × LayerProc) :=
  [("M1", .metal ⟨["c1", "c2"], false, 80, 32, 0⟩), ("V11", .via ⟨256, 256, 360, 360, 1, 2⟩)]

example : ∃ pps out, registerAll layers14 = some pps ∧
    run pps [⟨some "a", "M1", ⟨64, 0, 96, 500⟩, none⟩, ⟨some "a", "V11", ⟨0, 0, 256, 872⟩, none⟩,
      ⟨some "a", "M2", ⟨0, 0, 9, 9⟩, none⟩] = some (out, []) ∧ out =
    [⟨some "a", "M1", ⟨64, 0, 96, 500⟩, none⟩, ⟨some "a", "M1", ⟨64, 0, 96, 500⟩, some "c2"⟩,
      ⟨some "a", "V11", ⟨0, 0, 256, 256⟩, none⟩, ⟨some "a", "V11", ⟨0, 616, 256, 872⟩, none⟩,
      ⟨some "a", "M2", ⟨0, 0, 9, 9⟩, none⟩] := ⟨_, _, rfl, by decide, rfl⟩

example : (layers14.map (·.1)).Nodup := by decide

end Verif.Post

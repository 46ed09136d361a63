import Verif.Util.Sort
import Mathlib.Data.List.Basic
import Mathlib.Tactic.Tauto
import Mathlib.Data.List.Nodup
import Mathlib.Data.List.Dedup
import Mathlib.Data.List.Perm.Basic

/-!
# C64: the LEF view of a cell

Model of `lef_from_layout_d` (`align/cell_fabric/gen_lef.py`, 7-81): the size, the pins with their shapes and the
obstructions that are written.

Simplifications: the text layout of the file is not modelled; a pin without a net name is an error; the renaming of
partially routed pins is a function (`pin_map.get(p, p)`, the identity in routing mode).
-/

namespace Verif.Lef

structure Rect where
  x0 : Int
  y0 : Int
  x1 : Int
  y1 : Int
deriving DecidableEq, Repr

/-- A terminal: its layer, net name, `netType == 'pin'`, and rectangle. -/
structure Term where
  layer : String
  net : Option String
  isPin : Bool
  rect : Rect
deriving DecidableEq, Repr

abbrev Shape := String × Rect

structure Macro where
  size : Int × Int
  pins : List (String × List Shape)
  obs : List Shape
deriving DecidableEq, Repr

/-- The settings of a call. -/
structure Opts where
  placement : Bool
  bodyswitch : Int
  blockM : Int
  exclude : List String
  pinMap : String → String
  m2pitch : Int
  m3pitch : Int

/-- `pin_map.get(p, p)` (25-28): the identity except for placement. -/
def Opts.map (o : Opts) (p : String) : String := if o.placement then o.pinMap p else p

def shape (t : Term) : Shape := (t.layer, t.rect)

/-- Names of pins (23, 30): sorted without repetition. -/
def pinNames (o : Opts) (ts : List Term) : Option (List String) :=
  ((ts.filter Term.isPin).mapM Term.net).map fun ns =>
    Verif.pySort (fun a b => decide (a ≤ b)) (ns.map o.map).dedup

/-- `terminals_on_net` (32-40) for one name. -/
def onNet (o : Opts) (ts : List Term) (p : String) : List Term :=
  ts.filter fun t => t.isPin && !(!o.placement && o.exclude.contains t.layer) && t.net.map o.map == some p

/-- The test of pins in M2 (52-54). -/
def onGrid (o : Opts) (t : Term) : Bool :=
  t.layer != "M2" || ((t.rect.y0 + t.rect.y1) / 2) % o.m2pitch == 0

/-- Obstructions of one terminal (67-77). -/
def obsOf (o : Opts) (pins : List String) (t : Term) : List Shape :=
  let cond := match t.net with | none => true | some n => !pins.contains (o.map n)
  if (!t.isPin || cond) && o.blockM == 0 && !o.exclude.contains t.layer then [shape t]
  else if o.blockM == 1 && t.layer == "Cboundary" then ["M1", "M2", "M3"].map fun l => (l, t.rect)
  else []

/-- `lef_from_layout_d` (7-81). -/
def lef (o : Opts) (bbox : Rect) (ts : List Term) : Option Macro :=
  if (bbox.y1 - bbox.y0) % o.m2pitch = 0 ∧ (bbox.x1 - bbox.x0) % o.m3pitch = 0 then
    (pinNames o ts).bind fun pins =>
      let shown := pins.filter fun p => !(p == "B" && o.bodyswitch == 0)
      if shown.all fun p => (onNet o ts p).all (onGrid o) then
        some ⟨(bbox.x1, bbox.y1), shown.map fun p => (p, (onNet o ts p).map shape), ts.flatMap (obsOf o pins)⟩
      else none
  else none

/-! ## Specification -/

/-- All shapes in the file. -/
def Macro.shapes (m : Macro) : List Shape := m.pins.flatMap Prod.snd ++ m.obs

/-- The terminal is a pin with the given name in the file. -/
def PinOf (o : Opts) (t : Term) (p : String) : Prop :=
  t.isPin = true ∧ ∃ n, t.net = some n ∧ (if o.placement = true then o.pinMap n else n) = p

/-- A pin of the transistor body, when it is not to be shown. -/
def HiddenBody (o : Opts) (t : Term) : Prop := o.bodyswitch = 0 ∧ PinOf o t "B"

/-! ## Proofs -/

theorem mapM_net {ts : List Term} {ns : List String} (h : ts.mapM Term.net = some ns) :
    (∀ t ∈ ts, ∃ n ∈ ns, t.net = some n) ∧ ∀ n ∈ ns, ∃ t ∈ ts, t.net = some n := by
  induction ts generalizing ns with
  | nil => simp only [List.mapM_nil, Option.pure_def, Option.some.injEq] at h; subst h; simp
  | cons t ts ih =>
    rw [List.mapM_cons, Option.bind_eq_bind, Option.bind_eq_some_iff] at h
    obtain ⟨n, hn, h⟩ := h
    rw [Option.bind_eq_bind, Option.bind_eq_some_iff] at h
    obtain ⟨ns', hns, h⟩ := h
    simp only [Option.pure_def, Option.some.injEq] at h
    subst h
    obtain ⟨h1, h2⟩ := ih hns
    constructor
    · intro x hx
      rcases List.mem_cons.mp hx with rfl | hx
      · exact ⟨n, List.mem_cons_self, hn⟩
      · obtain ⟨m, hm, he⟩ := h1 x hx; exact ⟨m, List.mem_cons_of_mem _ hm, he⟩
    · intro m hm
      rcases List.mem_cons.mp hm with rfl | hm
      · exact ⟨t, List.mem_cons_self, hn⟩
      · obtain ⟨x, hx, he⟩ := h2 m hm; exact ⟨x, List.mem_cons_of_mem _ hx, he⟩

theorem pinNames_spec {o : Opts} {ts : List Term} {pins : List String} (h : pinNames o ts = some pins) :
    pins.Nodup ∧ pins.Pairwise (· ≤ ·) ∧ (∀ p, p ∈ pins ↔ ∃ t ∈ ts, PinOf o t p) ∧
      ∀ t ∈ ts, t.isPin = true → ∃ n, t.net = some n := by
  unfold pinNames at h
  rw [Option.map_eq_some_iff] at h
  obtain ⟨ns, hns, rfl⟩ := h
  obtain ⟨h1, h2⟩ := mapM_net hns
  refine ⟨(Verif.pySort_perm _).nodup_iff.mpr (List.nodup_dedup _), ?_, ?_, ?_⟩
  · have := Verif.pySort_pairwise (le := fun a b : String => decide (a ≤ b))
      (by intro a b c; simp only [decide_eq_true_eq]; exact String.le_trans)
      (by intro a b; simp only [Bool.or_eq_true, decide_eq_true_eq]; exact String.le_total a b)
      ((ns.map o.map).dedup)
    exact this.imp fun h => by simpa using h
  · intro p
    rw [Verif.mem_pySort, List.mem_dedup, List.mem_map]
    constructor
    · rintro ⟨n, hn, rfl⟩
      obtain ⟨t, ht, he⟩ := h2 n hn
      obtain ⟨ht, hp⟩ := List.mem_filter.mp ht
      exact ⟨t, ht, hp, n, he, rfl⟩
    · rintro ⟨t, ht, hp, n, he, rfl⟩
      obtain ⟨m, hm, he'⟩ := h1 t (List.mem_filter.mpr ⟨ht, hp⟩)
      rw [he] at he'; cases he'
      exact ⟨_, hm, rfl⟩
  · intro t ht hp
    obtain ⟨m, _, he'⟩ := h1 t (List.mem_filter.mpr ⟨ht, hp⟩)
    exact ⟨m, he'⟩

theorem mem_onNet {o : Opts} {ts : List Term} {p : String} {t : Term} :
    t ∈ onNet o ts p ↔ t ∈ ts ∧ PinOf o t p ∧ (o.placement = true ∨ t.layer ∉ o.exclude) := by
  unfold onNet PinOf Opts.map
  rw [List.mem_filter]
  cases ho : o.placement <;> cases hn : t.net <;> simp [and_assoc, and_comm, and_left_comm]

theorem obsOf_spec {o : Opts} {ts : List Term} {pins : List String} (h : pinNames o ts = some pins)
    (hb : o.blockM = 0) {t : Term} (ht : t ∈ ts) :
    obsOf o pins t = if t.isPin = false ∧ t.layer ∉ o.exclude then [shape t] else [] := by
  obtain ⟨_, _, h3, h4⟩ := pinNames_spec h
  have hc : t.isPin = true → (match t.net with | none => true | some n => !pins.contains (o.map n)) = false := by
    intro hp
    obtain ⟨n, hn⟩ := h4 t ht hp
    have : o.map n ∈ pins := (h3 _).mpr ⟨t, ht, hp, n, hn, rfl⟩
    rw [hn]
    simpa using this
  unfold obsOf
  simp only [hb]
  cases hp : t.isPin with
  | true =>
    rw [hc hp]
    simp
  | false =>
    by_cases he : t.layer ∈ o.exclude <;> simp [he]

/-- Splitting a list by the value of a function, over all values without repetition. -/
theorem flatMap_filter_perm {α β : Type} [DecidableEq β] (f : α → Option β) :
    ∀ {keys : List β} {l : List α}, keys.Nodup → (∀ a ∈ l, ∃ k ∈ keys, f a = some k) →
      (keys.flatMap fun k => l.filter fun a => f a == some k).Perm l
  | [], l, _, h => by
    cases l with
    | nil => exact .refl _
    | cons a l => obtain ⟨k, hk, _⟩ := h a List.mem_cons_self; simp at hk
  | k :: keys, l, hn, h => by
    rw [List.nodup_cons] at hn
    rw [List.flatMap_cons]
    have ih := flatMap_filter_perm f (keys := keys) (l := l.filter fun a => !(f a == some k)) hn.2 (by
      intro a ha
      obtain ⟨ha, hk⟩ := List.mem_filter.mp ha
      obtain ⟨k', hk', he⟩ := h a ha
      rcases List.mem_cons.mp hk' with rfl | hk'
      · simp [he] at hk
      · exact ⟨k', hk', he⟩)
    have e : (keys.flatMap fun k' => (l.filter fun a => !(f a == some k)).filter fun a => f a == some k') =
        keys.flatMap fun k' => l.filter fun a => f a == some k' := by
      apply List.flatMap_congr
      intro k' hk'
      rw [List.filter_filter]
      apply List.filter_congr
      intro a _
      by_cases he : f a = some k'
      · have : k' ≠ k := by rintro rfl; exact hn.1 hk'
        simp [he, this]
      · simp [he]
    rw [e] at ih
    exact (List.Perm.append_left _ ih).trans (List.filter_append_perm _ l)

/-- **C64, pins.**  The pins of the file are the names of the pin terminals, sorted and without repetition (but the
hidden body), and each has exactly the shapes of its terminals, in order; in routing mode without those on
excluded layers. -/
theorem C64_pins {o : Opts} {bbox : Rect} {ts : List Term} {m : Macro} (h : lef o bbox ts = some m) :
    (m.pins.map Prod.fst).Nodup ∧ (m.pins.map Prod.fst).Pairwise (· ≤ ·) ∧
    (∀ p, p ∈ m.pins.map Prod.fst ↔ (∃ t ∈ ts, PinOf o t p) ∧ ¬(p = "B" ∧ o.bodyswitch = 0)) ∧
    ∀ p shapes, (p, shapes) ∈ m.pins →
      ∃ sel : List Term, sel.Sublist ts ∧ shapes = sel.map shape ∧
        (∀ t, t ∈ sel ↔ t ∈ ts ∧ PinOf o t p ∧ (o.placement = true ∨ t.layer ∉ o.exclude)) ∧
        ∀ t, t ∈ sel → sel.count t = ts.count t := by
  unfold lef at h
  split at h
  · rw [Option.bind_eq_some_iff] at h
    obtain ⟨pins, hp, h⟩ := h
    obtain ⟨h1, h2, h3, h4⟩ := pinNames_spec hp
    simp only at h
    split at h
    · simp only [Option.some.injEq] at h
      subst h
      simp only [List.map_map, Function.comp_def, List.map_id']
      refine ⟨h1.filter _, h2.filter _, ?_, ?_⟩
      · intro p
        rw [List.mem_filter, h3 p]
        simp only [Bool.not_eq_true', Bool.and_eq_false_iff, beq_eq_false_iff_ne, ne_eq]
        tauto
      · intro p shapes hps
        obtain ⟨q, hq, he⟩ := List.mem_map.mp hps
        cases he
        refine ⟨onNet o ts p, List.filter_sublist, rfl, fun t => mem_onNet, ?_⟩
        intro t ht
        exact List.count_filter (List.mem_filter.mp ht).2
    · cases h
  · cases h

/-- **C64, obstructions.**  Unless the whole cell is blocked, the obstructions are exactly the terminals that are no
pins, on layers that are not excluded, in order. -/
theorem C64_obstructions {o : Opts} {bbox : Rect} {ts : List Term} {m : Macro} (h : lef o bbox ts = some m)
    (hb : o.blockM = 0) :
    m.obs = (ts.filter fun t => decide (t.isPin = false ∧ t.layer ∉ o.exclude)).map shape := by
  unfold lef at h
  split at h
  · rw [Option.bind_eq_some_iff] at h
    obtain ⟨pins, hp, h⟩ := h
    simp only at h
    split at h
    · simp only [Option.some.injEq] at h
      subst h
      simp only
      have : ∀ l : List Term, (∀ t ∈ l, t ∈ ts) → l.flatMap (obsOf o pins) =
          (l.filter fun t => decide (t.isPin = false ∧ t.layer ∉ o.exclude)).map shape := by
        intro l hl
        induction l with
        | nil => rfl
        | cons t l ih =>
          rw [List.flatMap_cons, obsOf_spec hp hb (hl t List.mem_cons_self),
            ih fun x hx => hl x (List.mem_cons_of_mem _ hx), List.filter_cons]
          by_cases hc : t.isPin = false ∧ t.layer ∉ o.exclude
          · simp [hc]
          · rw [if_neg hc, if_neg (by simpa using hc)]; rfl
      exact this ts fun t ht => ht
    · cases h
  · cases h

/-- **C64 (partial).**  In routing mode, if the body is shown (or there is no pin of the body), every terminal on a
layer that is not excluded is in the file exactly once, as a shape of a pin or as an obstruction, and nothing else
is.  Missing: a hidden body pin is lost, see below. -/
theorem C64_once_partial {o : Opts} {bbox : Rect} {ts : List Term} {m : Macro} (h : lef o bbox ts = some m)
    (hr : o.placement = false) (hb : o.blockM = 0) (hbody : ∀ t ∈ ts, ¬HiddenBody o t) :
    m.shapes.Perm ((ts.filter fun t => decide (t.layer ∉ o.exclude)).map shape) := by
  have hobs := C64_obstructions h hb
  unfold lef at h
  split at h
  · rw [Option.bind_eq_some_iff] at h
    obtain ⟨pins, hp, h⟩ := h
    obtain ⟨h1, h2, h3, h4⟩ := pinNames_spec hp
    simp only at h
    split at h
    · simp only [Option.some.injEq] at h
      subst h
      simp only at hobs
      unfold Macro.shapes
      simp only [hobs]
      have hshow : (pins.filter fun p => !(p == "B" && o.bodyswitch == 0)) = pins := by
        rw [List.filter_eq_self]
        intro p hpin
        obtain ⟨t, ht, hpo⟩ := (h3 p).mp hpin
        have := hbody t ht
        unfold HiddenBody at this
        by_cases hB : p = "B"
        · subst hB
          have : o.bodyswitch ≠ 0 := fun e => this ⟨e, hpo⟩
          simp [this]
        · simp [hB]
      rw [hshow, List.flatMap_map]
      simp only
      rw [← List.map_flatMap, ← List.map_append]
      apply List.Perm.map
      have hpins : (pins.flatMap fun p => onNet o ts p).Perm
          (ts.filter fun t => t.isPin && decide (t.layer ∉ o.exclude)) := by
        have e : (pins.flatMap fun p => onNet o ts p) =
            pins.flatMap fun p => (ts.filter fun t => t.isPin && decide (t.layer ∉ o.exclude)).filter
              fun t => t.net.map o.map == some p := by
          apply List.flatMap_congr
          intro p _
          rw [List.filter_filter]
          unfold onNet
          apply List.filter_congr
          intro t _
          rw [hr]
          cases t.isPin <;> simp [Bool.and_comm]
        rw [e]
        apply flatMap_filter_perm (fun t : Term => t.net.map o.map) h1
        intro t ht
        obtain ⟨ht, hc⟩ := List.mem_filter.mp ht
        rw [Bool.and_eq_true] at hc
        obtain ⟨n, hn⟩ := h4 t ht hc.1
        exact ⟨o.map n, (h3 _).mpr ⟨t, ht, hc.1, n, hn, rfl⟩, by rw [hn]; rfl⟩
      refine (List.Perm.append_right _ hpins).trans ?_
      have hsplit := List.filter_append_perm (fun t : Term => t.isPin)
        (ts.filter fun t => decide (t.layer ∉ o.exclude))
      rw [List.filter_filter, List.filter_filter] at hsplit
      have e2 : (ts.filter fun t => decide (t.isPin = false ∧ t.layer ∉ o.exclude)) =
          ts.filter fun t => (!t.isPin && decide (t.layer ∉ o.exclude)) := by
        apply List.filter_congr
        intro t _
        cases t.isPin <;> simp
      rw [e2]
      exact hsplit
    · cases h
  · cases h

/-- **C64, size (partial).**  The size in the file is the extent of the bounding box if that starts at the origin. -/
theorem C64_size_partial {o : Opts} {bbox : Rect} {ts : List Term} {m : Macro} (h : lef o bbox ts = some m)
    (h0 : bbox.x0 = 0 ∧ bbox.y0 = 0) : m.size = (bbox.x1 - bbox.x0, bbox.y1 - bbox.y0) := by
  unfold lef at h
  split at h
  · rw [Option.bind_eq_some_iff] at h
    obtain ⟨pins, hp, h⟩ := h
    simp only at h
    split at h
    · simp only [Option.some.injEq] at h
      subst h
      simp [h0.1, h0.2]
    · cases h
  · cases h

/-- **C64, grid.**  The cell is a whole number of pitches high and wide, and every pin shown in M2 is centered on
the grid. -/
theorem C64_grid {o : Opts} {bbox : Rect} {ts : List Term} {m : Macro} (h : lef o bbox ts = some m) :
    o.m2pitch ∣ bbox.y1 - bbox.y0 ∧ o.m3pitch ∣ bbox.x1 - bbox.x0 ∧
    ∀ p shapes, (p, shapes) ∈ m.pins → ∀ r, ("M2", r) ∈ shapes → o.m2pitch ∣ (r.y0 + r.y1) / 2 := by
  unfold lef at h
  split at h
  · rename_i hgrid
    rw [Option.bind_eq_some_iff] at h
    obtain ⟨pins, hp, h⟩ := h
    simp only at h
    split at h
    · rename_i hall
      simp only [Option.some.injEq] at h
      subst h
      refine ⟨Int.dvd_of_emod_eq_zero hgrid.1, Int.dvd_of_emod_eq_zero hgrid.2, ?_⟩
      intro p shapes hps r hr
      obtain ⟨q, hq, he⟩ := List.mem_map.mp hps
      cases he
      obtain ⟨t, ht, hs⟩ := List.mem_map.mp hr
      have := List.all_eq_true.mp (List.all_eq_true.mp hall p hq) t ht
      unfold onGrid at this
      unfold shape at hs
      obtain ⟨hl, rfl⟩ := Prod.mk.inj hs
      simp only [Bool.or_eq_true, bne_iff_ne, ne_eq, beq_iff_eq] at this
      rcases this with hne | h0
      · exact absurd hl hne
      · exact Int.dvd_of_emod_eq_zero h0
    · cases h
  · cases h

/-! ### A non-trivial case, and the violations -/

/-- Routing mode. -/
def opts (body : Int) : Opts := ⟨false, body, 0, ["Poly", "V0"], id, 84, 80⟩

/-- A cell with the pins `D` (two shapes and one on an excluded layer) and `B`, and an inner wire. -/
def cell : List Term :=
  [⟨"M2", some "D", true, ⟨0, 68, 160, 100⟩⟩, ⟨"M1", none, false, ⟨32, 0, 64, 168⟩⟩, ⟨"Poly", some "D", true, ⟨0, 0, 4, 168⟩⟩,
   ⟨"M1", some "B", true, ⟨112, 0, 144, 168⟩⟩, ⟨"M3", some "D", true, ⟨60, 0, 100, 168⟩⟩]

def cellBox : Rect := ⟨0, 0, 160, 168⟩

example : lef (opts 1) cellBox cell = some ⟨(160, 168),
    [("B", [("M1", ⟨112, 0, 144, 168⟩)]), ("D", [("M2", ⟨0, 68, 160, 100⟩), ("M3", ⟨60, 0, 100, 168⟩)])],
    [("M1", ⟨32, 0, 64, 168⟩)]⟩ := by decide +kernel

example : ∀ t ∈ cell, ¬HiddenBody (opts 1) t := fun t _ h => absurd h.1 (by decide)

/-- **C64 is violated by a hidden body.**  With `bodyswitch = 0` the shape of the body in M1 is neither a pin nor an
obstruction: a router may run through it. -/
theorem C64_violated_body :
    (lef (opts 0) cellBox cell).map Macro.shapes =
      some [("M2", ⟨0, 68, 160, 100⟩), ("M3", ⟨60, 0, 100, 168⟩), ("M1", ⟨32, 0, 64, 168⟩)] := by decide +kernel

/-- **C64 is violated by the size** of a cell whose bounding box does not start at the origin: it is 80 wide, and
240 is written. -/
theorem C64_violated_size :
    (lef (opts 1) ⟨160, 168, 240, 252⟩ []).map Macro.size = some (240, 252) := by decide +kernel

end Verif.Lef

import Verif.Hier.HpwlModel
import Verif.Hier.Props

/-! # Bounding boxes, and what the bottom-up pass computes -/

namespace Verif.Hier

open Verif.Geometry (Rect Transformation canonical_eq)

/-! ## Specification vocabulary -/

/-- `iv` is the smallest interval around the numbers in `V`. -/
def IsIv (V : Int → Prop) (iv : Interval) : Prop :=
  (iv = none ∧ ∀ v, ¬ V v) ∨ ∃ m M, iv = some (m, M) ∧ V m ∧ V M ∧ ∀ v, V v → m ≤ v ∧ v ≤ M

/-- `s` is the smallest box around the rectangles in `S`. -/
def IsBox (S : Rect → Prop) (s : SP) : Prop :=
  IsIv (fun v => ∃ r, S r ∧ (v = r.llx ∨ v = r.urx)) s.ix ∧ IsIv (fun v => ∃ r, S r ∧ (v = r.lly ∨ v = r.ury)) s.iy

/-- A rectangle placed with a transformation. -/
def placed (t : Transformation) (r : Rect) : Rect := (t.hitRect r).canonical

/-- `Attached D c a r`: in the coordinates of `c` (a module or a leaf), the rectangle `r` of a leaf terminal belongs to
the net `a` of `c`. Global nets reach through the hierarchy by name. -/
inductive Attached (D : Design) : String → String → Rect → Prop
  | leaf {c a r} : D.mods.lookup c = none → r ∈ terminalRects D c a → Attached D c a r
  | conn {c m i f a r} : D.mods.lookup c = some m → i ∈ m.insts → (f, a) ∈ i.fa → Attached D i.template f r →
      Attached D c a (placed i.tr r)
  | glob {c m i a r} : D.mods.lookup c = some m → i ∈ m.insts → a ∈ D.globals → Attached D i.template a r →
      Attached D c a (placed i.tr r)

/-! ## Boxes -/

theorem IsIv.congr {V W : Int → Prop} {iv : Interval} (h : IsIv V iv) (hvw : ∀ v, V v ↔ W v) : IsIv W iv := by
  have : V = W := funext fun v => propext (hvw v)
  rw [← this]; exact h

theorem IsBox.congr {S S' : Rect → Prop} {s : SP} (h : IsBox S s) (hs : ∀ r, S r ↔ S' r) : IsBox S' s := by
  have : S = S' := funext fun r => propext (hs r)
  rw [← this]; exact h

theorem IsIv.unique {V : Int → Prop} {a b : Interval} (ha : IsIv V a) (hb : IsIv V b) : a = b := by
  rcases ha with ⟨rfl, h1⟩ | ⟨m, M, rfl, h1, h2, h3⟩ <;> rcases hb with ⟨rfl, g1⟩ | ⟨n, N, rfl, g1, g2, g3⟩
  · rfl
  · exact absurd g1 (h1 _)
  · exact absurd h1 (g1 _)
  · have a1 := h3 n g1; have a2 := h3 N g2; have a3 := g3 m h1; have a4 := g3 M h2
    have : m = n := by omega
    have : M = N := by omega
    subst_vars; rfl

theorem IsBox.unique {S : Rect → Prop} {a b : SP} (ha : IsBox S a) (hb : IsBox S b) : a = b := by
  obtain ⟨ax, ay⟩ := a
  obtain ⟨bx, by'⟩ := b
  have h1 := ha.1.unique hb.1
  have h2 := ha.2.unique hb.2
  simp only at h1 h2
  subst h1 h2; rfl

theorem isBox_empty : IsBox (fun _ => False) SP.empty :=
  ⟨Or.inl ⟨rfl, by simp⟩, Or.inl ⟨rfl, by simp⟩⟩

theorem IsIv.add {V : Int → Prop} {iv : Interval} (h : IsIv V iv) (x : Int) :
    IsIv (fun v => V v ∨ v = x) (Interval.add iv x) := by
  rcases h with ⟨rfl, h1⟩ | ⟨m, M, rfl, h1, h2, h3⟩
  · refine Or.inr ⟨x, x, rfl, Or.inr rfl, Or.inr rfl, ?_⟩
    rintro v (h | rfl)
    · exact absurd h (h1 v)
    · exact ⟨le_refl _, le_refl _⟩
  · refine Or.inr ⟨_, _, rfl, ?_, ?_, ?_⟩
    · split
      · exact Or.inr rfl
      · exact Or.inl h1
    · split
      · exact Or.inr rfl
      · exact Or.inl h2
    · have := h3 m h1
      rintro v (h | rfl)
      · have := h3 v h
        constructor <;> split <;> omega
      · constructor <;> split <;> omega

theorem IsBox.addRect {S : Rect → Prop} {s : SP} (h : IsBox S s) (r : Rect) :
    IsBox (fun r' => S r' ∨ r' = r) (s.addRect r) := by
  constructor
  · refine ((h.1.add r.llx).add r.urx).congr fun v => ?_
    constructor
    · rintro ((⟨r', h1, h2⟩ | h) | h)
      · exact ⟨r', Or.inl h1, h2⟩
      · exact ⟨r, Or.inr rfl, Or.inl h⟩
      · exact ⟨r, Or.inr rfl, Or.inr h⟩
    · rintro ⟨r', h1 | rfl, h2⟩
      · exact Or.inl (Or.inl ⟨r', h1, h2⟩)
      · rcases h2 with h2 | h2
        · exact Or.inl (Or.inr h2)
        · exact Or.inr h2
  · refine ((h.2.add r.lly).add r.ury).congr fun v => ?_
    constructor
    · rintro ((⟨r', h1, h2⟩ | h) | h)
      · exact ⟨r', Or.inl h1, h2⟩
      · exact ⟨r, Or.inr rfl, Or.inl h⟩
      · exact ⟨r, Or.inr rfl, Or.inr h⟩
    · rintro ⟨r', h1 | rfl, h2⟩
      · exact Or.inl (Or.inl ⟨r', h1, h2⟩)
      · rcases h2 with h2 | h2
        · exact Or.inl (Or.inr h2)
        · exact Or.inr h2

theorem IsBox.foldl {S : Rect → Prop} (rs : List Rect) : ∀ {s : SP}, IsBox S s →
    IsBox (fun r => S r ∨ r ∈ rs) (rs.foldl SP.addRect s) := by
  induction rs generalizing S with
  | nil => intro s h; exact h.congr (by simp)
  | cons r rs ih =>
    intro s h
    refine (ih (h.addRect r)).congr fun r' => ?_
    simp only [List.mem_cons]
    tauto

theorem isBox_list (rs : List Rect) : IsBox (· ∈ rs) (rs.foldl SP.addRect SP.empty) :=
  (isBox_empty.foldl rs).congr (by simp)

theorem placed_eq (t : Transformation) (r : Rect) : placed t r =
    ⟨min (t.sX * r.llx + t.oX) (t.sX * r.urx + t.oX), min (t.sY * r.lly + t.oY) (t.sY * r.ury + t.oY),
      max (t.sX * r.llx + t.oX) (t.sX * r.urx + t.oX), max (t.sY * r.lly + t.oY) (t.sY * r.ury + t.oY)⟩ := by
  simp [placed, canonical_eq, Transformation.hitRect, Transformation.hit]

/-- Numbers of placed rectangles. -/
theorem placed_x (t : Transformation) (S : Rect → Prop) (v : Int) :
    (∃ r, (∃ r0, S r0 ∧ r = placed t r0) ∧ (v = r.llx ∨ v = r.urx)) ↔
      ∃ w, (∃ r, S r ∧ (w = r.llx ∨ w = r.urx)) ∧ v = t.sX * w + t.oX := by
  constructor
  · rintro ⟨_, ⟨r0, h, rfl⟩, hv⟩
    rw [placed_eq] at hv
    simp only at hv
    rcases le_total (t.sX * r0.llx + t.oX) (t.sX * r0.urx + t.oX) with hle | hle
    · rw [min_eq_left hle, max_eq_right hle] at hv
      rcases hv with hv | hv
      · exact ⟨r0.llx, ⟨r0, h, Or.inl rfl⟩, hv⟩
      · exact ⟨r0.urx, ⟨r0, h, Or.inr rfl⟩, hv⟩
    · rw [min_eq_right hle, max_eq_left hle] at hv
      rcases hv with hv | hv
      · exact ⟨r0.urx, ⟨r0, h, Or.inr rfl⟩, hv⟩
      · exact ⟨r0.llx, ⟨r0, h, Or.inl rfl⟩, hv⟩
  · rintro ⟨w, ⟨r0, h, hw⟩, rfl⟩
    refine ⟨_, ⟨r0, h, rfl⟩, ?_⟩
    rw [placed_eq]
    simp only
    rcases le_total (t.sX * r0.llx + t.oX) (t.sX * r0.urx + t.oX) with hle | hle
    · rw [min_eq_left hle, max_eq_right hle]
      rcases hw with rfl | rfl
      · exact Or.inl rfl
      · exact Or.inr rfl
    · rw [min_eq_right hle, max_eq_left hle]
      rcases hw with rfl | rfl
      · exact Or.inr rfl
      · exact Or.inl rfl

theorem placed_y (t : Transformation) (S : Rect → Prop) (v : Int) :
    (∃ r, (∃ r0, S r0 ∧ r = placed t r0) ∧ (v = r.lly ∨ v = r.ury)) ↔
      ∃ w, (∃ r, S r ∧ (w = r.lly ∨ w = r.ury)) ∧ v = t.sY * w + t.oY := by
  constructor
  · rintro ⟨_, ⟨r0, h, rfl⟩, hv⟩
    rw [placed_eq] at hv
    simp only at hv
    rcases le_total (t.sY * r0.lly + t.oY) (t.sY * r0.ury + t.oY) with hle | hle
    · rw [min_eq_left hle, max_eq_right hle] at hv
      rcases hv with hv | hv
      · exact ⟨r0.lly, ⟨r0, h, Or.inl rfl⟩, hv⟩
      · exact ⟨r0.ury, ⟨r0, h, Or.inr rfl⟩, hv⟩
    · rw [min_eq_right hle, max_eq_left hle] at hv
      rcases hv with hv | hv
      · exact ⟨r0.ury, ⟨r0, h, Or.inr rfl⟩, hv⟩
      · exact ⟨r0.lly, ⟨r0, h, Or.inl rfl⟩, hv⟩
  · rintro ⟨w, ⟨r0, h, hw⟩, rfl⟩
    refine ⟨_, ⟨r0, h, rfl⟩, ?_⟩
    rw [placed_eq]
    simp only
    rcases le_total (t.sY * r0.lly + t.oY) (t.sY * r0.ury + t.oY) with hle | hle
    · rw [min_eq_left hle, max_eq_right hle]
      rcases hw with rfl | rfl
      · exact Or.inl rfl
      · exact Or.inr rfl
    · rw [min_eq_right hle, max_eq_left hle]
      rcases hw with rfl | rfl
      · exact Or.inr rfl
      · exact Or.inl rfl

/-- An interval and its image under a reflection and shift. -/
theorem IsIv.image {V : Int → Prop} {m M : Int} (h : IsIv V (some (m, M))) {s o : Int} (hs : s = 1 ∨ s = -1) :
    IsIv (fun v => ∃ w, V w ∧ v = s * w + o) (some (min (s * m + o) (s * M + o), max (s * m + o) (s * M + o))) := by
  rcases h with ⟨h, -⟩ | ⟨m', M', he, h1, h2, h3⟩
  · simp at h
  · simp only [Option.some.injEq, Prod.mk.injEq] at he
    obtain ⟨rfl, rfl⟩ := he
    have := h3 m h1
    refine Or.inr ⟨_, _, rfl, ?_, ?_, ?_⟩
    · rcases hs with rfl | rfl
      · exact ⟨m, h1, by omega⟩
      · exact ⟨M, h2, by omega⟩
    · rcases hs with rfl | rfl
      · exact ⟨M, h2, by omega⟩
      · exact ⟨m, h1, by omega⟩
    · rintro v ⟨w, hw, rfl⟩
      have := h3 w hw
      rcases hs with rfl | rfl <;> omega

theorem IsIv.union {V W : Int → Prop} {iv : Interval} {m M : Int} (h : IsIv V iv) (g : IsIv W (some (m, M))) :
    IsIv (fun v => V v ∨ W v) (Interval.add (Interval.add iv m) M) := by
  rcases g with ⟨g, -⟩ | ⟨m', M', he, g1, g2, g3⟩
  · simp at g
  · simp only [Option.some.injEq, Prod.mk.injEq] at he
    obtain ⟨rfl, rfl⟩ := he
    rcases (h.add m).add M with ⟨h1, -⟩ | ⟨a, b, e, h1, h2, h3⟩
    · cases iv <;> simp [Interval.add] at h1
    · rw [e]
      have ww : ∀ v, ((V v ∨ v = m) ∨ v = M) → V v ∨ W v := by
        rintro v ((h | rfl) | rfl)
        · exact Or.inl h
        · exact Or.inr g1
        · exact Or.inr g2
      refine Or.inr ⟨a, b, rfl, ww a h1, ww b h2, ?_⟩
      rintro v (h | h)
      · exact h3 v (Or.inl (Or.inl h))
      · have := g3 v h
        have := h3 m (Or.inl (Or.inr rfl))
        have := h3 M (Or.inr rfl)
        omega

theorem isIv_none {V : Int → Prop} (h : IsIv V none) (v : Int) : ¬ V v := by
  rcases h with ⟨-, h⟩ | ⟨m, M, h, -⟩
  · exact h v
  · simp at h

/-- `update` adds the placed rectangles of the other box. -/
theorem IsBox.update {S S' : Rect → Prop} {s o : SP} (h : IsBox S s) (g : IsBox S' o) {tr : Transformation}
    (ht : tr.Rigid) : IsBox (fun r => S r ∨ ∃ r0, S' r0 ∧ r = placed tr r0) (s.update o tr) := by
  obtain ⟨ox, oy⟩ := o
  have hS' : ∀ r, S' r → ox ≠ none ∧ oy ≠ none := by
    intro r hr
    constructor
    · rintro rfl
      exact isIv_none g.1 r.llx ⟨r, hr, Or.inl rfl⟩
    · rintro rfl
      exact isIv_none g.2 r.lly ⟨r, hr, Or.inl rfl⟩
  have hempty : (∀ r, ¬ S' r) → IsBox (fun r => S r ∨ ∃ r0, S' r0 ∧ r = placed tr r0) s := by
    intro hn
    refine h.congr fun r => ?_
    constructor
    · exact Or.inl
    · rintro (h | ⟨r0, h, -⟩)
      · exact h
      · exact absurd h (hn r0)
  unfold SP.update
  cases ox with
  | none => exact hempty fun r hr => (hS' r hr).1 rfl
  | some mx =>
    cases oy with
    | none => exact hempty fun r hr => (hS' r hr).2 rfl
    | some my =>
      obtain ⟨m, M⟩ := mx
      obtain ⟨n, N⟩ := my
      simp only
      have hp : (tr.hitRect ⟨m, n, M, N⟩).canonical = placed tr ⟨m, n, M, N⟩ := rfl
      rw [hp, placed_eq]
      constructor
      · refine (h.1.union (IsIv.image (o := tr.oX) g.1 ht.1)).congr fun v => ?_
        rw [← placed_x tr S' v]
        constructor
        · rintro (⟨r, h1, h2⟩ | ⟨r, h1, h2⟩)
          · exact ⟨r, Or.inl h1, h2⟩
          · exact ⟨r, Or.inr h1, h2⟩
        · rintro ⟨r, h1 | h1, h2⟩
          · exact Or.inl ⟨r, h1, h2⟩
          · exact Or.inr ⟨r, h1, h2⟩
      · refine (h.2.union (IsIv.image (o := tr.oY) g.2 ht.2)).congr fun v => ?_
        rw [← placed_y tr S' v]
        constructor
        · rintro (⟨r, h1, h2⟩ | ⟨r, h1, h2⟩)
          · exact ⟨r, Or.inl h1, h2⟩
          · exact ⟨r, Or.inr h1, h2⟩
        · rintro ⟨r, h1 | h1, h2⟩
          · exact Or.inl ⟨r, h1, h2⟩
          · exact Or.inr ⟨r, h1, h2⟩

/-- Placing does not change the half perimeter. -/
theorem IsBox.dist_placed {S : Rect → Prop} {a b : SP} {tr : Transformation} (ht : tr.Rigid) (ha : IsBox S a)
    (hb : IsBox (fun r => ∃ r0, S r0 ∧ r = placed tr r0) b) : b.dist = a.dist := by
  have iv : ∀ {V W : Int → Prop} {i j : Interval} {s o : Int}, (s = 1 ∨ s = -1) → IsIv V i → IsIv W j →
      (∀ v, W v ↔ ∃ w, V w ∧ v = s * w + o) → j.dist = i.dist := by
    intro V W i j s o hs hi hj hvw
    cases i with
    | none =>
      have : j = none := by
        rcases hj with ⟨h, -⟩ | ⟨m, M, -, h, -⟩
        · exact h
        · obtain ⟨w, hw, -⟩ := (hvw m).mp h
          exact absurd hw (isIv_none hi w)
      subst this; rfl
    | some p =>
      obtain ⟨m, M⟩ := p
      have hle : m ≤ M := by
        rcases hi with ⟨h, -⟩ | ⟨m', M', he, h1, h2, h3⟩
        · simp at h
        · simp only [Option.some.injEq, Prod.mk.injEq] at he
          obtain ⟨rfl, rfl⟩ := he
          exact (h3 m h1).2
      have := (IsIv.image (o := o) hi hs).unique (hj.congr hvw)
      rw [← this]
      simp only [Interval.dist]
      rcases hs with rfl | rfl <;> omega
  have h1 := iv (o := tr.oX) ht.1 ha.1 hb.1 (placed_x tr S)
  have h2 := iv (o := tr.oY) ht.2 ha.2 hb.2 (placed_y tr S)
  unfold SP.dist
  rw [h1, h2]

theorem placed_mult (T t : Transformation) (hT : T.Rigid) (r : Rect) :
    placed (T.mult t) r = placed T (placed t r) := by
  obtain ⟨h1, h2⟩ := hT
  simp only [placed_eq, Transformation.mult, Rect.mk.injEq]
  have e1 : ∀ s o x, T.sX * s * x + (T.sX * o + T.oX) = T.sX * (s * x + o) + T.oX := fun s o x => by ring
  have e2 : ∀ s o x, T.sY * s * x + (T.sY * o + T.oY) = T.sY * (s * x + o) + T.oY := fun s o x => by ring
  simp only [e1, e2]
  refine ⟨?_, ?_, ?_, ?_⟩
  · rcases h1 with h | h <;> rw [h] <;> omega
  · rcases h2 with h | h <;> rw [h] <;> omega
  · rcases h1 with h | h <;> rw [h] <;> omega
  · rcases h2 with h | h <;> rw [h] <;> omega

/-! ## The bottom-up pass -/

/-- One loop over pairs (net below, net here) of an instance. -/
theorem updates_spec (cn : String) (i : Inst) (hne : i.template ≠ cn) (hr : i.tr.Rigid) (B : String → Rect → Prop) :
    ∀ (ps : List (String × String)) (t : Tables) (S : String → Rect → Prop),
      (∀ f, IsBox (B f) (t.box i.template f)) → (∀ a, IsBox (S a) (t.box cn a)) →
      (∀ c a, c ≠ cn → (ps.foldl (fun t p => t.update cn p.2 (t.box i.template p.1) i.tr) t).box c a = t.box c a) ∧
      (ps.foldl (fun t p => t.update cn p.2 (t.box i.template p.1) i.tr) t).hpwl = t.hpwl ∧
      ∀ a, IsBox (fun r => S a r ∨ ∃ f, (f, a) ∈ ps ∧ ∃ r0, B f r0 ∧ r = placed i.tr r0)
        ((ps.foldl (fun t p => t.update cn p.2 (t.box i.template p.1) i.tr) t).box cn a) := by
  intro ps
  induction ps with
  | nil => intro t S h1 h2; exact ⟨fun _ _ _ => rfl, rfl, fun a => (h2 a).congr (by simp)⟩
  | cons p ps ih =>
    intro t S h1 h2
    obtain ⟨f, a⟩ := p
    set t1 := t.update cn a (t.box i.template f) i.tr with ht1
    have hother : ∀ c b, c ≠ cn → t1.box c b = t.box c b := by
      intro c b hc
      simp [ht1, Tables.update, hc]
    obtain ⟨g1, g2, g3⟩ := ih t1 (fun b r => S b r ∨ (b = a ∧ ∃ r0, B f r0 ∧ r = placed i.tr r0))
      (fun f' => by rw [hother _ _ hne]; exact h1 f')
      (fun b => by
        by_cases hb : b = a
        · subst hb
          have : t1.box cn b = (t.box cn b).update (t.box i.template f) i.tr := by simp [ht1, Tables.update]
          rw [this]
          exact ((h2 b).update (h1 f) hr).congr (by simp)
        · have : t1.box cn b = t.box cn b := by simp [ht1, Tables.update, hb]
          rw [this]
          exact (h2 b).congr (by simp [hb]))
    rw [List.foldl_cons]
    refine ⟨fun c b hc => by rw [g1 c b hc, hother c b hc], by rw [g2]; rfl, fun b => (g3 b).congr fun r => ?_⟩
    constructor
    · rintro ((h | ⟨rfl, h⟩) | ⟨f', h, h'⟩)
      · exact Or.inl h
      · exact Or.inr ⟨f, by simp, h⟩
      · exact Or.inr ⟨f', List.mem_cons_of_mem _ h, h'⟩
    · rintro (h | ⟨f', h, h'⟩)
      · exact Or.inl (Or.inl h)
      · rcases List.mem_cons.mp h with h | h
        · obtain ⟨rfl, rfl⟩ := Prod.mk.injEq .. ▸ h
          exact Or.inl (Or.inr ⟨rfl, h'⟩)
        · exact Or.inr ⟨f', h, h'⟩

theorem instBoxes_eq (D : Design) (cn : String) (t : Tables) (i : Inst) :
    instBoxes D cn t i = (i.fa ++ D.globals.map fun a => (a, a)).foldl
      (fun t p => t.update cn p.2 (t.box i.template p.1) i.tr) t := by
  simp only [instBoxes, List.foldl_append, List.foldl_map]

theorem insts_spec (D : Design) (cn : String) : ∀ (is : List Inst), (∀ i ∈ is, i.template ≠ cn ∧ i.tr.Rigid) →
    ∀ (t : Tables) (S : String → Rect → Prop),
      (∀ i ∈ is, ∀ f, IsBox (Attached D i.template f) (t.box i.template f)) → (∀ a, IsBox (S a) (t.box cn a)) →
      (∀ c a, c ≠ cn → (is.foldl (instBoxes D cn) t).box c a = t.box c a) ∧
      (is.foldl (instBoxes D cn) t).hpwl = t.hpwl ∧
      ∀ a, IsBox (fun r => S a r ∨ ∃ i ∈ is, ∃ f, (f, a) ∈ (i.fa ++ D.globals.map fun a => (a, a)) ∧
          ∃ r0, Attached D i.template f r0 ∧ r = placed i.tr r0)
        ((is.foldl (instBoxes D cn) t).box cn a) := by
  intro is
  induction is with
  | nil => intro _ t S _ h2; exact ⟨fun _ _ _ => rfl, rfl, fun a => (h2 a).congr (by simp)⟩
  | cons i is ih =>
    intro hi t S h1 h2
    obtain ⟨hne, hr⟩ := hi i (by simp)
    obtain ⟨g1, g2, g3⟩ := updates_spec cn i hne hr (Attached D i.template)
      (i.fa ++ D.globals.map fun a => (a, a)) t S (h1 i (by simp)) h2
    rw [← instBoxes_eq] at g1 g2 g3
    obtain ⟨k1, k2, k3⟩ := ih (fun j hj => hi j (List.mem_cons_of_mem _ hj)) (instBoxes D cn t i) _
      (fun j hj f => by
        rw [g1 _ _ (hi j (List.mem_cons_of_mem _ hj)).1]
        exact h1 j (List.mem_cons_of_mem _ hj) f) g3
    rw [List.foldl_cons]
    refine ⟨fun c a hc => by rw [k1 c a hc, g1 c a hc], by rw [k2, g2], fun a => (k3 a).congr fun r => ?_⟩
    constructor
    · rintro ((h | ⟨f, h⟩) | ⟨j, hj, h⟩)
      · exact Or.inl h
      · exact Or.inr ⟨i, by simp, f, h⟩
      · exact Or.inr ⟨j, List.mem_cons_of_mem _ hj, h⟩
    · rintro (h | ⟨j, hj, f, h⟩)
      · exact Or.inl (Or.inl h)
      · rcases List.mem_cons.mp hj with rfl | hj
        · exact Or.inl (Or.inr ⟨f, h⟩)
        · exact Or.inr ⟨j, hj, f, h⟩

/-- The tables are right for all leaves and for the modules in `done`. -/
structure TablesOK (D : Design) (done : List String) (t : Tables) : Prop where
  box : ∀ c a, (D.mods.lookup c = none ∨ c ∈ done) → IsBox (Attached D c a) (t.box c a)
  fresh : ∀ c a, (D.mods.lookup c).isSome → c ∉ done → t.box c a = SP.empty
  hpwl : ∀ c ∈ done, ∀ m, D.mods.lookup c = some m → t.hpwl c =
    some ((m.insts.map fun i => (t.hpwl i.template).getD 0).sum + ((hiddenNets D m).map fun a => (t.box c a).dist).sum)
  none : ∀ c, D.mods.lookup c = none → t.hpwl c = none

theorem TablesOK.step {D : Design} {rank : String → Nat} (hac : Acyclic D rank)
    (hrig : ∀ c m, D.mods.lookup c = some m → ∀ i ∈ m.insts, i.tr.Rigid) {done : List String} {t : Tables} {cn : String}
    (hcn : cn ∉ done) (hch : ∀ m, D.mods.lookup cn = some m → ∀ i ∈ m.insts, i.template ∈ done)
    (hcf : ChildrenFirst D done) (h : TablesOK D done t) : TablesOK D (done ++ [cn]) (bottomUpStep D t cn) := by
  unfold bottomUpStep
  cases hm : D.mods.lookup cn with
  | none =>
    simp only
    refine ⟨?_, ?_, ?_, h.none⟩
    · rintro c a (hc | hc)
      · exact h.box c a (Or.inl hc)
      · rcases List.mem_append.mp hc with hc | hc
        · exact h.box c a (Or.inr hc)
        · simp only [List.mem_singleton] at hc; subst hc; exact h.box c a (Or.inl hm)
    · intro c a hs hc
      exact h.fresh c a hs fun h' => hc (List.mem_append_left _ h')
    · intro c hc m' hm'
      rcases List.mem_append.mp hc with hc | hc
      · exact h.hpwl c hc m' hm'
      · simp only [List.mem_singleton] at hc; subst hc; rw [hm] at hm'; cases hm'
  | some m =>
    simp only
    have hne : ∀ i ∈ m.insts, i.template ≠ cn := fun i hi he => hcn (he ▸ hch m hm i hi)
    obtain ⟨g1, g2, g3⟩ := insts_spec D cn m.insts (fun i hi => ⟨hne i hi, hrig cn m hm i hi⟩) t (fun _ _ => False)
      (fun i hi f => h.box _ _ (Or.inr (hch m hm i hi)))
      (fun a => by rw [h.fresh cn a (by rw [hm]; rfl) hcn]; exact isBox_empty)
    have hbox : ∀ a, IsBox (Attached D cn a) ((m.insts.foldl (instBoxes D cn) t).box cn a) := by
      intro a
      refine (g3 a).congr fun r => ?_
      simp only [false_or]
      constructor
      · rintro ⟨i, hi, f, hf, r0, h0, rfl⟩
        rcases List.mem_append.mp hf with hf | hf
        · exact .conn hm hi hf h0
        · simp only [List.mem_map, Prod.mk.injEq] at hf
          obtain ⟨g, hg, rfl, rfl⟩ := hf
          exact .glob hm hi hg h0
      · intro hr
        cases hr with
        | leaf h0 _ => rw [hm] at h0; cases h0
        | conn h0 hi hf h1 =>
          rw [hm, Option.some.injEq] at h0; subst h0
          exact ⟨_, hi, _, List.mem_append_left _ hf, _, h1, rfl⟩
        | glob h0 hi hg h1 =>
          rw [hm, Option.some.injEq] at h0; subst h0
          exact ⟨_, hi, _, List.mem_append_right _ (List.mem_map.mpr ⟨_, hg, rfl⟩), _, h1, rfl⟩
    refine ⟨?_, ?_, ?_, ?_⟩
    · intro c a hc
      simp only
      by_cases hcc : c = cn
      · subst hcc; exact hbox a
      · rw [g1 c a hcc]
        refine h.box c a ?_
        rcases hc with hc | hc
        · exact Or.inl hc
        · rcases List.mem_append.mp hc with hc | hc
          · exact Or.inr hc
          · simp only [List.mem_singleton] at hc; exact absurd hc hcc
    · intro c a hs hc
      simp only
      have hcc : c ≠ cn := fun h' => hc (by simp [h'])
      rw [g1 c a hcc]
      exact h.fresh c a hs fun h' => hc (List.mem_append_left _ h')
    · intro c hc m' hm'
      simp only
      have hhp : ∀ i ∈ m'.insts, (if i.template = cn then
            some ((m.insts.map fun i => (t.hpwl i.template).getD 0).sum +
              ((hiddenNets D m).map fun a => ((m.insts.foldl (instBoxes D cn) t).box cn a).dist).sum)
            else (m.insts.foldl (instBoxes D cn) t).hpwl i.template) = t.hpwl i.template := by
        intro i hi
        rw [if_neg, g2]
        rcases List.mem_append.mp hc with hc | hc
        · obtain ⟨p1, p2, hp⟩ := List.append_of_mem hc
          have := hcf p1 c p2 hp m' hm' i hi
          intro he
          exact hcn (by rw [hp, ← he]; exact List.mem_append_left _ this)
        · simp only [List.mem_singleton] at hc; subst hc
          rw [hm, Option.some.injEq] at hm'; subst hm'
          exact hne i hi
      have hmap : (m'.insts.map fun i => (if i.template = cn then
            some ((m.insts.map fun i => (t.hpwl i.template).getD 0).sum +
              ((hiddenNets D m).map fun a => ((m.insts.foldl (instBoxes D cn) t).box cn a).dist).sum)
            else (m.insts.foldl (instBoxes D cn) t).hpwl i.template).getD 0) =
          m'.insts.map fun i => (t.hpwl i.template).getD 0 :=
        List.map_congr_left fun i hi => by rw [hhp i hi]
      rw [hmap]
      rcases List.mem_append.mp hc with hc' | hc'
      · have hcc : c ≠ cn := fun h' => hcn (h' ▸ hc')
        rw [if_neg hcc, g2, h.hpwl c hc' m' hm']
        simp only [g1 c _ hcc]
      · simp only [List.mem_singleton] at hc'; subst hc'
        rw [hm, Option.some.injEq] at hm'; subst hm'
        rw [if_pos rfl]
    · intro c hc
      simp only
      rw [if_neg, g2]
      · exact h.none c hc
      · rintro rfl; rw [hm] at hc; cases hc

theorem tables_fold {D : Design} {rank : String → Nat} (hac : Acyclic D rank)
    (hrig : ∀ c m, D.mods.lookup c = some m → ∀ i ∈ m.insts, i.tr.Rigid) :
    ∀ (rest done : List String) (t : Tables), (done ++ rest).Nodup → ChildrenFirst D (done ++ rest) →
      TablesOK D done t → TablesOK D (done ++ rest) (rest.foldl (bottomUpStep D) t) := by
  intro rest
  induction rest with
  | nil => intro done t _ _ h; simpa using h
  | cons cn rest ih =>
    intro done t hnd hcf h
    have hcn : cn ∉ done := by
      rw [List.nodup_append] at hnd
      exact fun hin => hnd.2.2 cn hin cn (by simp) rfl
    have hpre : ChildrenFirst D done := by
      intro pre n post he m hm i hi
      exact hcf pre n (post ++ cn :: rest) (by rw [he]; simp) m hm i hi
    have := ih (done ++ [cn]) (bottomUpStep D t cn) (by simpa using hnd) (by simpa using hcf)
      (h.step hac hrig hcn (fun m hm i hi => hcf done cn rest rfl m hm i hi) hpre)
    simpa using this

end Verif.Hier

import Verif.RemoveDup.Lemmas

/-! # The invariant of the scan of one centre line -/

namespace Verif.RemoveDup

/-! ## Specification vocabulary -/

/-- Two shapes of the list overlap or abut on the line. -/
def TouchIn (ts : List Shape) (a b : Shape) : Prop := a ∈ ts ∧ b ∈ ts ∧ Touch a.rect b.rect

/-- Shapes of the list linked by a chain of touching shapes of the list. -/
def LinkedIn (ts : List Shape) : Shape → Shape → Prop := Relation.EqvGen (TouchIn ts)

/-- No `instance:pin` shapes, and every blockage carries a net name. -/
def NamesKept (ts : List Shape) : Prop :=
  ∀ t ∈ ts, (∀ i p, t.label ≠ .pin i p) ∧ (t.netType = .blockage → ∃ x, t.label = .net x)

/-- Wires of one width only: no blockages, no `instance:pin` shapes, one width. -/
def PlainLine (d : Dir) (ts : List Shape) : Prop :=
  (∀ t ∈ ts, t.netType ≠ .blockage ∧ ∀ i p, t.label ≠ .pin i p) ∧
  ∀ t ∈ ts, ∀ u ∈ ts, t.rect.c0 d = u.rect.c0 d ∧ t.rect.c1 d = u.rect.c1 d

/-- The name of the class of an object. -/
def RName (s : St) (i : Nat) (x : String) : Prop := ∃ r, RootOf s.uf i r ∧ (s.node r).netName = some x

/-- Covering in coordinates along (`z`) and across (`w`) the line. -/
def CoversD (d : Dir) (r : Rect) (z w : Int) : Prop := r.lo d ≤ z ∧ z ≤ r.hi d ∧ r.c0 d ≤ w ∧ w ≤ r.c1 d

/-- All rectangles are non-empty along the line and across it. -/
def Proper (d : Dir) (ts : List Shape) : Prop := ∀ t ∈ ts, t.rect.lo d ≤ t.rect.hi d ∧ t.rect.c0 d ≤ t.rect.c1 d

theorem coversD_covers (d : Dir) (r : Rect) (z w : Int) :
    CoversD d r z w ↔ (match d with | .h => Covers r z w | _ => Covers r w z) := by
  cases d <;> simp only [CoversD, Covers, Rect.lo, Rect.hi, Rect.c0, Rect.c1] <;> constructor <;> intro h <;> omega

theorem touch_of_coversD {d : Dir} {a b : Rect} {z w : Int} (ha : CoversD d a z w) (hb : CoversD d b z w) :
    Touch a b := by
  rw [coversD_covers] at ha hb
  cases d
  · exact ⟨z, w, ha, hb⟩
  · exact ⟨w, z, ha, hb⟩
  · exact ⟨w, z, ha, hb⟩

theorem LinkedIn.mono {ts us : List Shape} (h : ∀ t ∈ ts, t ∈ us) {a b : Shape} (hl : LinkedIn ts a b) :
    LinkedIn us a b := by
  induction hl with
  | rel x y hxy => exact Relation.EqvGen.rel _ _ ⟨h _ hxy.1, h _ hxy.2.1, hxy.2.2⟩
  | refl x => exact Relation.EqvGen.refl _
  | symm x y _ ih => exact ih.symm
  | trans x y z _ _ ih1 ih2 => exact ih1.trans _ _ _ ih2

theorem RootOf.lt {u : UF} (hu : Forest u) {x r : Nat} (hx : x < u.n) (h : RootOf u x r) : r < u.n := by
  obtain ⟨k, hk⟩ := h
  induction k generalizing x with
  | zero => obtain ⟨rfl, -⟩ := hk; exact hx
  | succ k ih => exact ih (hu.bound x hx) hk.2

theorem RootOf.exists {u : UF} (hu : Forest u) (x : Nat) : ∃ r, RootOf u x r := by
  obtain ⟨k, r, h⟩ := hu.reach x; exact ⟨r, k, h⟩

theorem RootOf.self {u : UF} {x r : Nat} (h : RootOf u x r) : RootOf u r r := by
  obtain ⟨k, hk⟩ := h; exact ⟨0, rfl, hk.root⟩

theorem rootOf_fresh {u : UF} (hu : Forest u) {x : Nat} (h : u.n ≤ x) : RootOf u x x :=
  ⟨0, rfl, hu.fresh x h⟩

/-- The invariant: `done` are the shapes handled so far, `s0` the state before the line. -/
structure LineInv (d : Dir) (s0 : St) (done : List Shape) (s : St) (rects : List Nat) : Prop where
  forest : Forest s.uf
  le_n : s0.uf.n ≤ s.uf.n
  ids : ∀ i ∈ rects, s0.uf.n ≤ i ∧ i < s.uf.n
  nd : rects.Nodup
  frame : ∀ i < s0.uf.n, s.node i = s0.node i
  froot : ∀ i < s0.uf.n, ∀ r, RootOf s0.uf i r → RootOf s.uf i r
  shorts : ∃ e, s.shorts = s0.shorts ++ e
  cov : ∀ z w, (∃ i ∈ rects, CoversD d (s.node i).rect z w) ↔ ∃ t ∈ done, CoversD d t.rect z w
  last : ∀ c, rects.getLast? = some c → ∃ t ∈ done, (s.node c).rect.lo d = t.rect.lo d
  cc : ∀ i ∈ rects, ∃ t ∈ done, (s.node i).rect.c0 d = t.rect.c0 d ∧ (s.node i).rect.c1 d = t.rect.c1 d
  sub : ∀ t ∈ done, ∃ i ∈ rects, t.rect.c0 d = (s.node i).rect.c0 d ∧ t.rect.c1 d = (s.node i).rect.c1 d ∧
    (s.node i).rect.lo d ≤ t.rect.lo d ∧ t.rect.hi d ≤ (s.node i).rect.hi d ∧
    (t.netType = .pin → (s.node i).isPorted = true) ∧
    (NamesKept done → ∀ x, t.label = .net x → RName s i x)
  names : NamesKept done → ∀ i ∈ rects, (s.node i).terminal = none ∧
    ((s.node i).netName = none → RootOf s.uf i i) ∧
    (∀ x, (s.node i).netName = some x → RName s i x) ∧
    ((s.node i).netType = .blockage → (s.node i).netName ≠ none)
  plain : PlainLine d done → ∀ i ∈ rects, (s.node i).terminal = none ∧ (s.node i).netType ≠ .blockage
  sep : PlainLine d done → s.shorts = [] →
    rects.Pairwise fun i j => (s.node i).rect.hi d < (s.node j).rect.lo d
  top : Proper d done → ∀ i ∈ rects, ∃ t ∈ done, t.rect.hi d = (s.node i).rect.hi d ∧
    t.rect.c0 d = (s.node i).rect.c0 d ∧ t.rect.c1 d = (s.node i).rect.c1 d ∧
    ∀ x, (s.node i).netName = some x → ∃ u ∈ done, u.label = .net x ∧ LinkedIn done t u
  sound : Proper d done → ∀ e ∈ s.shorts, e ∈ s0.shorts ∨ ∃ t ∈ done, ∃ u ∈ done, ∃ x y,
    t.label = .net x ∧ u.label = .net y ∧ x ≠ y ∧ LinkedIn done t u

theorem mkNode_fields (t : Shape) : (mkNode t).rect = t.rect ∧ (mkNode t).netType = t.netType ∧
    ((mkNode t).terminal = none ↔ ∀ i p, t.label ≠ .pin i p) ∧
    (∀ x, (mkNode t).netName = some x ↔ t.label = .net x) := by
  unfold mkNode
  cases h : t.label <;> simp

theorem mkNode_ported (t : Shape) : (mkNode t).isPorted = decide (t.netType = .pin) := by
  unfold mkNode
  cases h : t.label <;> simp

theorem mkNode_name (t : Shape) (x : String) (h : t.label = .net x) : (mkNode t).netName = some x :=
  ((mkNode_fields t).2.2.2 x).mpr h

theorem LineInv.init (d : Dir) (s0 : St) (hf : Forest s0.uf) : LineInv d s0 [] s0 [] := by
  refine ⟨hf, le_refl _, by simp, by simp, fun _ _ => rfl, fun _ _ _ h => h, ⟨[], by simp⟩, by simp, by simp,
    by simp, by simp, by simp, by simp, by simp, by simp, ?_⟩
  intro _ e he; exact Or.inl he

section step
variable {d : Dir} {s0 s : St} {done : List Shape} {rects : List Nat} {t : Shape}

/-- Facts on the state after allocation. -/
theorem alloc_facts (hf : Forest s.uf) (t : Shape) :
    Forest (s.alloc t).1.uf ∧ (s.alloc t).1.uf.n = s.uf.n + 1 ∧ (s.alloc t).2 = s.uf.n ∧
    (∀ i, i < s.uf.n → (s.alloc t).1.node i = s.node i) ∧
    (s.alloc t).1.node s.uf.n = mkNode t ∧ (s.alloc t).1.shorts = s.shorts ∧
    (∀ y r, RootOf s.uf y r ↔ RootOf (s.alloc t).1.uf y r) := by
  obtain ⟨hn, hf', he⟩ := new_spec hf
  refine ⟨hf', hn, rfl, ?_, by simp [St.alloc], rfl, he⟩
  intro i hi
  simp only [St.alloc]
  rw [if_neg (by omega)]

theorem namesKept_left (h : NamesKept (done ++ [t])) : NamesKept done :=
  fun u hu => h u (List.mem_append_left _ hu)

theorem plainLine_left (h : PlainLine d (done ++ [t])) : PlainLine d done :=
  ⟨fun u hu => h.1 u (List.mem_append_left _ hu),
    fun u hu v hv => h.2 u (List.mem_append_left _ hu) v (List.mem_append_left _ hv)⟩

theorem proper_left (h : Proper d (done ++ [t])) : Proper d done :=
  fun u hu => h u (List.mem_append_left _ hu)

theorem linked_left {a b : Shape} (h : LinkedIn done a b) : LinkedIn (done ++ [t]) a b :=
  h.mono fun _ hu => List.mem_append_left _ hu

/-- The new object `p` is appended to the line, in a state `s2` that keeps everything but names and connections. -/
theorem LineInv.add (hi : LineInv d s0 done s rects) {s2 : St}
    (hf2 : Forest s2.uf) (hn2 : s2.uf.n = s.uf.n + 1)
    (hold : ∀ i, i < s.uf.n → SameBut (s2.node i) (s.node i))
    (hnew : SameBut (s2.node s.uf.n) (mkNode t))
    (hframe : ∀ i < s0.uf.n, s2.node i = s.node i)
    (hroot : ∀ i < s0.uf.n, ∀ r, RootOf s.uf i r → RootOf s2.uf i r)
    (hshorts : ∃ e, s2.shorts = s.shorts ++ e)
    (hrn : NamesKept (done ++ [t]) → ∀ i < s.uf.n, ∀ x, RName s i x → RName s2 i x)
    (hpn : NamesKept (done ++ [t]) → ∀ x, t.label = .net x → RName s2 s.uf.n x)
    (hnames : NamesKept (done ++ [t]) → ∀ i ∈ rects ++ [s.uf.n],
      ((s2.node i).netName = none → RootOf s2.uf i i) ∧
      (∀ x, (s2.node i).netName = some x → RName s2 i x) ∧
      ((s2.node i).netType = .blockage → (s2.node i).netName ≠ none))
    (hsep : PlainLine d (done ++ [t]) → s2.shorts = [] → ∀ i ∈ rects, (s.node i).rect.hi d < t.rect.lo d)
    (htop : Proper d (done ++ [t]) → ∀ i ∈ rects ++ [s.uf.n], ∃ u ∈ done ++ [t],
      u.rect.hi d = (s2.node i).rect.hi d ∧
      u.rect.c0 d = (s2.node i).rect.c0 d ∧ u.rect.c1 d = (s2.node i).rect.c1 d ∧
      ∀ x, (s2.node i).netName = some x → ∃ v ∈ done ++ [t], v.label = .net x ∧ LinkedIn (done ++ [t]) u v)
    (hsound : Proper d (done ++ [t]) → ∀ e ∈ s2.shorts, e ∈ s.shorts ∨ ∃ u ∈ done ++ [t], ∃ v ∈ done ++ [t],
      ∃ x y, u.label = .net x ∧ v.label = .net y ∧ x ≠ y ∧ LinkedIn (done ++ [t]) u v) :
    LineInv d s0 (done ++ [t]) s2 (rects ++ [s.uf.n]) := by
  have hp := mkNode_fields t
  have hrect : ∀ i ∈ rects, (s2.node i).rect = (s.node i).rect := fun i h => (hold i (hi.ids i h).2).1
  have hprect : (s2.node s.uf.n).rect = t.rect := by rw [hnew.1, hp.1]
  refine ⟨hf2, by rw [hn2]; have := hi.le_n; omega, ?_, ?_, ?_, ?_, ?_, ?_, ?_, ?_, ?_, ?_, ?_, ?_, htop, ?_⟩
  · intro i h
    rcases List.mem_append.mp h with h | h
    · have := hi.ids i h; omega
    · rw [List.mem_singleton] at h; subst h; have := hi.le_n; omega
  · rw [List.nodup_append]
    refine ⟨hi.nd, by simp, ?_⟩
    intro i h j hj
    rw [List.mem_singleton] at hj; subst hj
    have := (hi.ids i h).2; omega
  · intro i h; rw [hframe i h, hi.frame i h]
  · intro i h r hr; exact hroot i h r (hi.froot i h r hr)
  · obtain ⟨e, he⟩ := hi.shorts; obtain ⟨e', he'⟩ := hshorts
    exact ⟨e ++ e', by rw [he', he, List.append_assoc]⟩
  · intro z w
    constructor
    · rintro ⟨i, h, hc⟩
      rcases List.mem_append.mp h with h | h
      · rw [hrect i h] at hc
        obtain ⟨u, hu, hcu⟩ := (hi.cov z w).mp ⟨i, h, hc⟩
        exact ⟨u, List.mem_append_left _ hu, hcu⟩
      · rw [List.mem_singleton] at h; subst h
        rw [hprect] at hc
        exact ⟨t, by simp, hc⟩
    · rintro ⟨u, hu, hc⟩
      rcases List.mem_append.mp hu with hu | hu
      · obtain ⟨i, h, hci⟩ := (hi.cov z w).mpr ⟨u, hu, hc⟩
        exact ⟨i, List.mem_append_left _ h, by rw [hrect i h]; exact hci⟩
      · rw [List.mem_singleton] at hu; subst hu
        exact ⟨s.uf.n, by simp, by rw [hprect]; exact hc⟩
  · intro c hc
    simp only [List.getLast?_append, List.getLast?_singleton, Option.some_or, Option.some.injEq] at hc
    subst hc
    exact ⟨t, by simp, by rw [hprect]⟩
  · intro i h
    rcases List.mem_append.mp h with h | h
    · obtain ⟨u, hu, h1, h2⟩ := hi.cc i h
      exact ⟨u, List.mem_append_left _ hu, by rw [hrect i h]; exact ⟨h1, h2⟩⟩
    · rw [List.mem_singleton] at h; subst h
      exact ⟨t, by simp, by rw [hprect]; exact ⟨rfl, rfl⟩⟩
  · intro u hu
    rcases List.mem_append.mp hu with hu | hu
    · obtain ⟨i, h, h1, h2, h3, h4, hpt, h5⟩ := hi.sub u hu
      refine ⟨i, List.mem_append_left _ h, ?_⟩
      rw [hrect i h]
      exact ⟨h1, h2, h3, h4, fun hx => by rw [(hold i (hi.ids i h).2).2.2.2]; exact hpt hx, fun hk x hx => hrn hk i (hi.ids i h).2 x (h5 (namesKept_left hk) x hx)⟩
    · rw [List.mem_singleton] at hu; subst hu
      refine ⟨s.uf.n, by simp, ?_⟩
      rw [hprect]
      exact ⟨rfl, rfl, le_refl _, le_refl _, fun hx => by rw [hnew.2.2.2, mkNode_ported]; simp [hx], hpn⟩
  · intro hk i h
    refine ⟨?_, hnames hk i h⟩
    rcases List.mem_append.mp h with h | h
    · rw [(hold i (hi.ids i h).2).2.2.1]; exact (hi.names (namesKept_left hk) i h).1
    · rw [List.mem_singleton] at h; subst h
      rw [hnew.2.2.1]; exact hp.2.2.1.mpr (hk t (by simp)).1
  · intro hk i h
    rcases List.mem_append.mp h with h | h
    · rw [(hold i (hi.ids i h).2).2.2.1, (hold i (hi.ids i h).2).2.1]
      exact hi.plain (plainLine_left hk) i h
    · rw [List.mem_singleton] at h; subst h
      rw [hnew.2.2.1, hnew.2.1]
      exact ⟨hp.2.2.1.mpr (hk.1 t (by simp)).2, by rw [hp.2.1]; exact (hk.1 t (by simp)).1⟩
  · intro hk hs
    obtain ⟨e', he'⟩ := hshorts
    have hs1 : s.shorts = [] := by rw [hs] at he'; exact (List.append_eq_nil_iff.mp he'.symm).1
    rw [List.pairwise_append]
    refine ⟨?_, by simp, ?_⟩
    · refine (hi.sep (plainLine_left hk) hs1).imp_of_mem ?_
      intro i j h1 h2 h; rw [hrect i h1, hrect j h2]; exact h
    · intro i h j hj
      rw [List.mem_singleton] at hj; subst hj
      rw [hrect i h, hprect]
      exact hsep hk hs i h
  · intro hk e he
    rcases hsound hk e he with h | h
    · rcases hi.sound (proper_left hk) e h with h | ⟨u, hu, v, hv, x, y, h1, h2, h3, h4⟩
      · exact Or.inl h
      · exact Or.inr ⟨u, List.mem_append_left _ hu, v, List.mem_append_left _ hv, x, y, h1, h2, h3,
          linked_left h4⟩
    · exact Or.inr h

/-- Named objects keep a named root when the fresh object `p` is connected to `c`. -/
theorem rname_connect {s1 s2 : St} {c p : Nat} (hf : Forest s1.uf) (hp : p < s1.uf.n)
    (hpp : ∀ r, RootOf s1.uf p r → r = p) {ra rb : Nat} (_hra : RootOf s1.uf c ra)
    (hrb : RootOf s1.uf p rb) (hne : ∀ i r, i ≠ p → RootOf s1.uf i r → r ≠ p)
    (hname : ∀ i, (s2.node i).netName = if i = c ∨ i = p then
      ((s1.node c).netName <|> (s1.node p).netName) else (s1.node i).netName)
    (hroot : ∀ y r, RootOf s1.uf y r → RootOf s2.uf y (if r = rb then ra else r)) :
    ∀ i, i ≠ p → ∀ x, RName s1 i x → RName s2 i x := by
  have hrbp := hpp rb hrb
  subst hrbp
  rintro i hip x ⟨r, hr, hx⟩
  have hrp := hne i r hip hr
  refine ⟨r, ?_, ?_⟩
  · have := hroot i r hr; rwa [if_neg hrp] at this
  · rw [hname r]
    by_cases hrc : r = c
    · subst hrc; simp [hx]
    · simp [hrc, hrp, hx]

theorem touch_top {u : Shape} {c0 c1 hi' : Int} (hp : Proper d (done ++ [t])) (hu : u ∈ done ++ [t])
    (hs : u.rect.lo d ≤ t.rect.lo d) (h1 : u.rect.hi d = hi') (h2 : u.rect.c0 d = c0) (h3 : u.rect.c1 d = c1)
    (hle : t.rect.lo d ≤ hi') (e0 : t.rect.c0 d = c0) (e1 : t.rect.c1 d = c1) :
    LinkedIn (done ++ [t]) u t := by
  refine Relation.EqvGen.rel _ _ ⟨hu, by simp, ?_⟩
  have := hp t (by simp)
  refine touch_of_coversD (d := d) (z := t.rect.lo d) (w := t.rect.c0 d) ?_ ?_
  · simp only [CoversD]; omega
  · simp only [CoversD]; omega

theorem LineInv.step (hi : LineInv d s0 done s rects) (hsort : ∀ u ∈ done, u.rect.lo d ≤ t.rect.lo d) :
    ∃ s' rects', scanStep d s rects t = some (s', rects') ∧ LineInv d s0 (done ++ [t]) s' rects' := by
  obtain ⟨hf1, hn1, hp, hold1, hnew1, hsh1, hro1⟩ := alloc_facts hi.forest t
  set s1 := (s.alloc t).1 with hs1
  set p := s.uf.n with hpdef
  have hmk := mkNode_fields t
  have hproot : RootOf s1.uf p p := (hro1 _ _).mp (rootOf_fresh hi.forest (le_refl _))
  have hne : ∀ i r, i < p → RootOf s1.uf i r → r < p := fun i r h hr =>
    RootOf.lt hi.forest h ((hro1 _ _).mpr hr)
  have hlt0 : ∀ i < s0.uf.n, i < p := fun i h => by have := hi.le_n; omega
  -- names in `s1`
  have rn1 : ∀ i < p, ∀ x, RName s i x → RName s1 i x := by
    rintro i h x ⟨r, hr, hx⟩
    refine ⟨r, (hro1 _ _).mp hr, ?_⟩
    rw [hold1 r (RootOf.lt hi.forest h hr)]; exact hx
  have pn1 : ∀ x, t.label = .net x → RName s1 p x := fun x hx => ⟨p, hproot, by rw [hnew1]; exact mkNode_name t x hx⟩
  have names1 : NamesKept (done ++ [t]) → ∀ i ∈ rects ++ [p],
      ((s1.node i).netName = none → RootOf s1.uf i i) ∧
      (∀ x, (s1.node i).netName = some x → RName s1 i x) ∧
      ((s1.node i).netType = .blockage → (s1.node i).netName ≠ none) := by
    intro hk i h
    rcases List.mem_append.mp h with h | h
    · have hip := (hi.ids i h).2
      obtain ⟨-, h1, h2, h3⟩ := hi.names (namesKept_left hk) i h
      rw [hold1 i hip]
      exact ⟨fun hx => (hro1 _ _).mp (h1 hx), fun x hx => rn1 i hip x (h2 x hx), h3⟩
    · rw [List.mem_singleton] at h; subst h
      rw [hnew1]
      refine ⟨fun _ => hproot, fun x hx => ⟨p, hproot, by rw [hnew1]; exact hx⟩, ?_⟩
      intro hb
      rw [hmk.2.1] at hb
      obtain ⟨x, hx⟩ := (hk t (by simp)).2 hb
      rw [mkNode_name t x hx]; simp
  have top1 : Proper d (done ++ [t]) → ∀ i ∈ rects ++ [p], ∃ u ∈ done ++ [t],
      u.rect.hi d = (s1.node i).rect.hi d ∧
      u.rect.c0 d = (s1.node i).rect.c0 d ∧ u.rect.c1 d = (s1.node i).rect.c1 d ∧
      ∀ x, (s1.node i).netName = some x → ∃ v ∈ done ++ [t], v.label = .net x ∧ LinkedIn (done ++ [t]) u v := by
    intro hk i h
    rcases List.mem_append.mp h with h | h
    · obtain ⟨u, hu, h1, h2, h3, h4⟩ := hi.top (proper_left hk) i h
      rw [hold1 i (hi.ids i h).2]
      refine ⟨u, List.mem_append_left _ hu, h1, h2, h3, fun x hx => ?_⟩
      obtain ⟨v, hv, h5, h6⟩ := h4 x hx
      exact ⟨v, List.mem_append_left _ hv, h5, linked_left h6⟩
    · rw [List.mem_singleton] at h; subst h
      rw [hnew1, hmk.1]
      exact ⟨t, by simp, rfl, rfl, rfl, fun x hx => ⟨t, by simp, (hmk.2.2.2 x).mp hx, Relation.EqvGen.refl _⟩⟩
  -- appending in `s1` itself
  have gap : (PlainLine d (done ++ [t]) → s1.shorts = [] → ∀ i ∈ rects, (s.node i).rect.hi d < t.rect.lo d) →
      LineInv d s0 (done ++ [t]) s1 (rects ++ [p]) := by
    intro hsep
    refine hi.add hf1 hn1 (fun i h => by rw [hold1 i h]; simp [SameBut]) (by rw [hnew1]; simp [SameBut])
      (fun i h => hold1 i (hlt0 i h)) (fun i _ r hr => (hro1 _ _).mp hr) ⟨[], by simp [hsh1]⟩
      (fun _ => rn1) (fun _ => pn1) names1 hsep top1 ?_
    intro _ e he; left; rw [hsh1] at he; exact he
  unfold scanStep
  simp only
  rw [← hs1, hp]
  cases hlast : rects.getLast? with
  | none =>
    have hnil : rects = [] := by simpa using hlast
    subst hnil
    exact ⟨s1, _, rfl, gap (by simp)⟩
  | some c =>
    simp only
    have hcm : c ∈ rects := List.mem_of_getLast? hlast
    have hcp : c < p := (hi.ids c hcm).2
    have hcp' : c ≠ p := by omega
    obtain ⟨ul, hul, hcl⟩ := hi.last c hlast
    have hclo : (s.node c).rect.lo d ≤ t.rect.lo d := by rw [hcl]; exact hsort ul hul
    have hsc : s1.node c = s.node c := hold1 c hcp
    by_cases hcond : t.rect.lo d ≤ (s1.node c).rect.hi d ∧ t.rect.c0 d = (s1.node c).rect.c0 d ∧
        t.rect.c1 d = (s1.node c).rect.c1 d
    · rw [if_pos hcond]
      obtain ⟨hle, e0, e1⟩ := hcond
      rw [hsc] at hle e0 e1
      obtain ⟨s2, ok, hcp2, hf2, hn2, hsame2, hok, hcase⟩ := connectPair_spec hf1 (a := c) (b := p)
        (by rw [hn1]; omega) (by rw [hn1]; omega)
      rw [hcp2]
      simp only [Option.bind_eq_bind, Option.bind_some]
      have hold2 : ∀ i, i < p → SameBut (s2.node i) (s.node i) := fun i h => by
        rw [← hold1 i h]; exact hsame2 i
      have hnew2 : SameBut (s2.node p) (mkNode t) := by rw [← hnew1]; exact hsame2 p
      rcases hcase with ⟨hcompat, hsh2, hname2, ra, rb, hra, hrb, hroot2⟩ | ⟨hncompat, hsh2, hnode2, huf2⟩
      · -- connected
        have hrbp : rb = p := hrb.unique hproot
        subst hrbp
        have hra' : ra < p := hne c ra hcp hra
        have hrootold : ∀ i r, i < p → RootOf s1.uf i r → RootOf s2.uf i r := by
          intro i r h hr
          have hr' := hne i r h hr
          have := hroot2 i r hr
          rwa [if_neg (by omega)] at this
        have hrootp : RootOf s2.uf p ra := by simpa using hroot2 p p hproot
        have hnameold : ∀ i, i < p → i ≠ c → (s2.node i).netName = (s.node i).netName := by
          intro i h hic
          rw [hname2 i, if_neg (by omega), hold1 i h]
        have hnamec : (s2.node c).netName = ((s.node c).netName <|> (mkNode t).netName) := by
          rw [hname2 c, if_pos (Or.inl rfl), hsc, hnew1]
        have hnamep : (s2.node p).netName = ((s.node c).netName <|> (mkNode t).netName) := by
          rw [hname2 p, if_pos (Or.inr rfl), hsc, hnew1]
        have rn2 : ∀ i < p, ∀ x, RName s i x → RName s2 i x := by
          rintro i h x hx
          obtain ⟨r, hr, hx⟩ := rn1 i h x hx
          have hr' := hne i r h hr
          refine ⟨r, hrootold i r h hr, ?_⟩
          by_cases hrc : r = c
          · subst hrc
            rw [hsc] at hx
            rw [hnamec, hx]; rfl
          · rw [hnameold r hr' hrc, ← hold1 r hr']; exact hx
        -- name of `c` afterwards, and of its root
        have hcname : NamesKept (done ++ [t]) →
            ((s2.node c).netName = none → RootOf s2.uf c c) ∧
            (∀ x, (s2.node c).netName = some x → RName s2 c x ∧ (s2.node ra).netName = some x) := by
          intro hk
          obtain ⟨-, h1, h2, -⟩ := hi.names (namesKept_left hk) c hcm
          cases hnc : (s.node c).netName with
          | none =>
            have hcc : RootOf s1.uf c c := (hro1 _ _).mp (h1 hnc)
            have hrac : ra = c := hra.unique hcc
            subst hrac
            refine ⟨fun _ => hrootold _ _ hcp hcc, fun x hx => ⟨⟨_, hrootold _ _ hcp hcc, hx⟩, hx⟩⟩
          | some y =>
            have hy : (s2.node c).netName = some y := by rw [hnamec, hnc]; rfl
            rw [hy]
            refine ⟨by simp, fun x hx => ?_⟩
            simp only [Option.some.injEq] at hx
            subst hx
            have := rn2 c hcp y (h2 y hnc)
            refine ⟨this, ?_⟩
            obtain ⟨r, hr, hx⟩ := this
            rw [hr.unique (hrootold _ _ hcp hra)] at hx; exact hx
        have hblkold : NamesKept (done ++ [t]) → ∀ i ∈ rects, (s2.node i).netType = .blockage →
            (s2.node i).netName ≠ none := by
          intro hk i h hb
          have hip := (hi.ids i h).2
          obtain ⟨-, -, -, h3⟩ := hi.names (namesKept_left hk) i h
          rw [(hold2 i hip).2.1] at hb
          have := h3 hb
          by_cases hic : i = c
          · subst hic
            rw [hnamec]
            obtain ⟨y, hy⟩ := Option.ne_none_iff_exists'.mp this
            rw [hy]; simp
          · rw [hnameold i hip hic]; exact this
        have hnamesold : NamesKept (done ++ [t]) → ∀ i ∈ rects,
            ((s2.node i).netName = none → RootOf s2.uf i i) ∧
            (∀ x, (s2.node i).netName = some x → RName s2 i x) ∧
            ((s2.node i).netType = .blockage → (s2.node i).netName ≠ none) := by
          intro hk i h
          refine ⟨?_, ?_, hblkold hk i h⟩
          · by_cases hic : i = c
            · subst hic; exact (hcname hk).1
            · have hip := (hi.ids i h).2
              rw [hnameold i hip hic]
              intro hx
              exact hrootold _ _ hip ((hro1 _ _).mp ((hi.names (namesKept_left hk) i h).2.1 hx))
          · by_cases hic : i = c
            · subst hic; exact fun x hx => ((hcname hk).2 x hx).1
            · have hip := (hi.ids i h).2
              rw [hnameold i hip hic]
              intro x hx
              exact rn2 i hip x ((hi.names (namesKept_left hk) i h).2.2.1 x hx)
        -- the top shape of `c`
        have htopc : Proper d (done ++ [t]) → ∃ u ∈ done ++ [t],
            u.rect.hi d = (s.node c).rect.hi d ∧ u.rect.c0 d = (s.node c).rect.c0 d ∧
            u.rect.c1 d = (s.node c).rect.c1 d ∧ LinkedIn (done ++ [t]) u t ∧
            ∀ x, (s2.node c).netName = some x →
              ∃ v ∈ done ++ [t], v.label = .net x ∧ LinkedIn (done ++ [t]) u v := by
          intro hk
          obtain ⟨u, hu, h1, h2, h3, h4⟩ := hi.top (proper_left hk) c hcm
          have hlink : LinkedIn (done ++ [t]) u t :=
            touch_top hk (List.mem_append_left _ hu) (hsort u hu) h1 h2 h3 hle e0 e1
          refine ⟨u, List.mem_append_left _ hu, h1, h2, h3, hlink, fun x hx => ?_⟩
          rw [hnamec] at hx
          cases hnc : (s.node c).netName with
          | none =>
            rw [hnc] at hx
            exact ⟨t, by simp, (hmk.2.2.2 x).mp (by simpa using hx), hlink⟩
          | some y =>
            rw [hnc] at hx
            simp at hx; subst hx
            obtain ⟨v, hv, h5, h6⟩ := h4 y hnc
            exact ⟨v, List.mem_append_left _ hv, h5, linked_left h6⟩
        have htopold : Proper d (done ++ [t]) → ∀ i ∈ rects, i ≠ c → ∃ u ∈ done ++ [t],
            u.rect.hi d = (s.node i).rect.hi d ∧
            u.rect.c0 d = (s.node i).rect.c0 d ∧ u.rect.c1 d = (s.node i).rect.c1 d ∧
            ∀ x, (s2.node i).netName = some x →
              ∃ v ∈ done ++ [t], v.label = .net x ∧ LinkedIn (done ++ [t]) u v := by
          intro hk i h hic
          have hip := (hi.ids i h).2
          obtain ⟨u, hu, h1, h2, h3, h4⟩ := hi.top (proper_left hk) i h
          refine ⟨u, List.mem_append_left _ hu, h1, h2, h3, fun x hx => ?_⟩
          rw [hnameold i hip hic] at hx
          obtain ⟨v, hv, h5, h6⟩ := h4 x hx
          exact ⟨v, List.mem_append_left _ hv, h5, linked_left h6⟩
        have hframe2 : ∀ i < s0.uf.n, s2.node i = s.node i := by
          intro i h
          have hip := hlt0 i h
          have hic : i ≠ c := by have := (hi.ids c hcm).1; omega
          have h1 := hold2 i hip
          have h2 := hnameold i hip hic
          obtain ⟨a1, a2, a3, a4⟩ := h1
          cases hx : s2.node i; cases hy : s.node i
          simp_all
        have hfroot2 : ∀ i < s0.uf.n, ∀ r, RootOf s.uf i r → RootOf s2.uf i r := fun i h r hr =>
          hrootold i r (hlt0 i h) ((hro1 _ _).mp hr)
        -- appending `p`
        have addp : ((NamesKept (done ++ [t]) → (s2.node p).netName ≠ none)) → ¬ PlainLine d (done ++ [t]) →
            LineInv d s0 (done ++ [t]) s2 (rects ++ [p]) := by
          intro hpn hpl
          refine hi.add hf2 (by rw [hn2, hn1]) hold2 hnew2 hframe2 hfroot2 ⟨[], by rw [hsh2, hsh1]; simp⟩
            (fun _ => rn2) ?_ ?_ (fun h => absurd h hpl) ?_ ?_
          · intro hk x hx
            have hcx : (s2.node c).netName = some x := by
              rw [hnamec]
              rw [hsc, hnew1, mkNode_name t x hx] at hcompat
              rw [mkNode_name t x hx]
              rcases hcompat with h | h | h
              · rw [h]; rfl
              · simp at h
              · rw [h]; rfl
            exact ⟨ra, hrootp, ((hcname hk).2 x hcx).2⟩
          · intro hk i h
            rcases List.mem_append.mp h with h | h
            · exact hnamesold hk i h
            · rw [List.mem_singleton] at h; subst h
              refine ⟨fun h => absurd h (hpn hk), fun x hx => ?_, fun _ => hpn hk⟩
              rw [hnamep, ← hnamec] at hx
              exact ⟨ra, hrootp, ((hcname hk).2 x hx).2⟩
          · intro hk i h
            rcases List.mem_append.mp h with h | h
            · by_cases hic : i = c
              · subst hic
                obtain ⟨u, hu, h1, h2, h3, -, h4⟩ := htopc hk
                rw [(hold2 i hcp).1]
                exact ⟨u, hu, h1, h2, h3, h4⟩
              · rw [(hold2 i (hi.ids i h).2).1]
                exact htopold hk i h hic
            · rw [List.mem_singleton] at h; subst h
              rw [hnew2.1, hmk.1]
              refine ⟨t, by simp, rfl, rfl, rfl, fun x hx => ?_⟩
              rw [hnamep, ← hnamec] at hx
              obtain ⟨u, hu, -, -, -, hl, h4⟩ := htopc hk
              obtain ⟨v, hv, h5, h6⟩ := h4 x hx
              exact ⟨v, hv, h5, hl.symm.trans _ _ _ h6⟩
          · intro _ e he; left; rw [hsh2, hsh1] at he; exact he
        by_cases hokb : ok = true
        · rw [if_pos hokb]
          obtain ⟨-, hta, htb⟩ := hok.mp hokb
          by_cases hblk : (s2.node p).netType ≠ .blockage ∧ (s2.node c).netType ≠ .blockage
          · -- merge
            rw [if_pos hblk]
            refine ⟨_, _, rfl, ?_⟩
            set s3 := mergeSlr s2 d c p with hs3
            have h3node : ∀ i, i ≠ c → s3.node i = s2.node i := by
              intro i h; simp [hs3, mergeSlr, St.upd, h]
            have h3rect : (s3.node c).rect = (s.node c).rect.setHi d (max ((s.node c).rect.hi d) (t.rect.hi d)) := by
              simp only [hs3, mergeSlr, St.upd, if_true]
              rw [(hold2 c hcp).1, hnew2.1, hmk.1]
            have h3name : ∀ i, (s3.node i).netName = (s2.node i).netName := by
              intro i
              by_cases h : i = c
              · subst h; simp [hs3, mergeSlr, St.upd]
              · rw [h3node i h]
            have h3type : ∀ i, (s3.node i).netType = (s2.node i).netType := by
              intro i
              by_cases h : i = c
              · subst h; simp [hs3, mergeSlr, St.upd]
              · rw [h3node i h]
            have h3term : ∀ i, (s3.node i).terminal = (s2.node i).terminal := by
              intro i
              by_cases h : i = c
              · subst h; simp [hs3, mergeSlr, St.upd]
              · rw [h3node i h]
            have h3port : (s3.node c).isPorted = ((s2.node c).isPorted || (s2.node p).isPorted) := by
              simp [hs3, mergeSlr, St.upd]
            have h3uf : s3.uf = s2.uf := rfl
            have h3sh : s3.shorts = s2.shorts := rfl
            have h3rn : ∀ i x, RName s2 i x → RName s3 i x := by
              rintro i x ⟨r, hr, hx⟩
              exact ⟨r, hr, by rw [h3name]; exact hx⟩
            have hrecto : ∀ i ∈ rects, i ≠ c → (s3.node i).rect = (s.node i).rect := by
              intro i h hic
              rw [h3node i hic, (hold2 i (hi.ids i h).2).1]
            obtain ⟨f1, f2, f3, f4⟩ := setHi_fields (s.node c).rect d (max ((s.node c).rect.hi d) (t.rect.hi d))
            rw [← h3rect] at f1 f2 f3 f4
            refine ⟨by rw [h3uf]; exact hf2, by rw [h3uf, hn2, hn1]; have := hi.le_n; omega, ?_, hi.nd, ?_, ?_, ?_, ?_, ?_,
              ?_, ?_, ?_, ?_, ?_, ?_, ?_⟩
            · intro i h; rw [h3uf, hn2, hn1]; have := hi.ids i h; omega
            · intro i h
              have hic : i ≠ c := by have := (hi.ids c hcm).1; omega
              rw [h3node i hic, hframe2 i h, hi.frame i h]
            · intro i h r hr; rw [h3uf]; exact hfroot2 i h r (hi.froot i h r hr)
            · obtain ⟨e, he⟩ := hi.shorts
              exact ⟨e, by rw [h3sh, hsh2, hsh1, he]⟩
            · intro z w
              constructor
              · rintro ⟨i, h, hc⟩
                by_cases hic : i = c
                · subst hic
                  by_cases hz : z ≤ (s.node i).rect.hi d
                  · obtain ⟨u, hu, hcu⟩ := (hi.cov z w).mp ⟨i, h, by
                      simp only [CoversD] at hc ⊢; omega⟩
                    exact ⟨u, List.mem_append_left _ hu, hcu⟩
                  · exact ⟨t, by simp, by simp only [CoversD] at hc ⊢; omega⟩
                · rw [hrecto i h hic] at hc
                  obtain ⟨u, hu, hcu⟩ := (hi.cov z w).mp ⟨i, h, hc⟩
                  exact ⟨u, List.mem_append_left _ hu, hcu⟩
              · rintro ⟨u, hu, hc⟩
                rcases List.mem_append.mp hu with hu | hu
                · obtain ⟨i, h, hci⟩ := (hi.cov z w).mpr ⟨u, hu, hc⟩
                  by_cases hic : i = c
                  · subst hic
                    exact ⟨i, h, by simp only [CoversD] at hci ⊢; omega⟩
                  · exact ⟨i, h, by rw [hrecto i h hic]; exact hci⟩
                · rw [List.mem_singleton] at hu; subst hu
                  exact ⟨c, hcm, by simp only [CoversD] at hc ⊢; omega⟩
            · intro c' hc'
              rw [hlast] at hc'
              simp only [Option.some.injEq] at hc'
              subst hc'
              exact ⟨ul, List.mem_append_left _ hul, by rw [f1]; exact hcl⟩
            · intro i h
              obtain ⟨u, hu, h1, h2⟩ := hi.cc i h
              refine ⟨u, List.mem_append_left _ hu, ?_⟩
              by_cases hic : i = c
              · subst hic; rw [f3, f4]; exact ⟨h1, h2⟩
              · rw [hrecto i h hic]; exact ⟨h1, h2⟩
            · intro u hu
              rcases List.mem_append.mp hu with hu | hu
              · obtain ⟨i, h, h1, h2, h3, h4, hpt, h5⟩ := hi.sub u hu
                refine ⟨i, h, ?_⟩
                have hrn : NamesKept (done ++ [t]) → ∀ x, u.label = .net x → RName s3 i x := fun hk x hx =>
                  h3rn i x (rn2 i (hi.ids i h).2 x (h5 (namesKept_left hk) x hx))
                by_cases hic : i = c
                · subst hic
                  exact ⟨by omega, by omega, by omega, by omega, fun hx => by rw [h3port, (hold2 i hcp).2.2.2, hpt hx]; rfl, hrn⟩
                · rw [hrecto i h hic]; exact ⟨h1, h2, h3, h4, fun hx => by rw [h3node i hic, (hold2 i (hi.ids i h).2).2.2.2, hpt hx], hrn⟩
              · rw [List.mem_singleton] at hu; subst hu
                refine ⟨c, hcm, by omega, by omega, by omega, by omega,
                  fun hx => by rw [h3port, hnew2.2.2.2, mkNode_ported]; simp [hx], ?_⟩
                intro hk x hx
                refine h3rn c x ((hcname hk).2 x ?_).1
                rw [hnamec]
                rw [hsc, hnew1, mkNode_name u x hx] at hcompat
                rw [mkNode_name u x hx]
                rcases hcompat with h | h | h
                · rw [h]; rfl
                · simp at h
                · rw [h]; rfl
            · intro hk i h
              obtain ⟨h1, h2, h3⟩ := hnamesold hk i h
              rw [h3term, h3name, h3type]
              refine ⟨?_, h1, fun x hx => h3rn i x (h2 x hx), h3⟩
              rw [(hold2 i (hi.ids i h).2).2.2.1]
              exact (hi.names (namesKept_left hk) i h).1
            · intro hk i h
              rw [h3term, h3type, (hold2 i (hi.ids i h).2).2.2.1, (hold2 i (hi.ids i h).2).2.1]
              exact hi.plain (plainLine_left hk) i h
            · intro hk hs
              rw [h3sh, hsh2, hsh1] at hs
              have hpw := hi.sep (plainLine_left hk) hs
              obtain ⟨ys, hys⟩ := List.getLast?_eq_some_iff.mp hlast
              rw [hys] at hpw ⊢
              have hnd := hi.nd
              rw [hys, List.nodup_append] at hnd
              rw [List.pairwise_append] at hpw ⊢
              obtain ⟨q1, q2, q3⟩ := hpw
              have hym : ∀ i ∈ ys, i ∈ rects ∧ i ≠ c := fun i h =>
                ⟨by rw [hys]; simp [h], fun he => hnd.2.2 i h c (by simp) he⟩
              refine ⟨q1.imp_of_mem ?_, by simp, ?_⟩
              · intro i j h1 h2 h
                rw [hrecto i (hym i h1).1 (hym i h1).2, hrecto j (hym j h2).1 (hym j h2).2]; exact h
              · intro i h j hj
                rw [List.mem_singleton] at hj; subst hj
                rw [hrecto i (hym i h).1 (hym i h).2, f1]
                exact q3 i h j (by simp)
            · intro hk i h
              by_cases hic : i = c
              · subst hic
                obtain ⟨u, hu, h1, h2, h3, hl, h4⟩ := htopc hk
                rw [h3name]
                by_cases hmax : t.rect.hi d ≤ (s.node i).rect.hi d
                · exact ⟨u, hu, by omega, by omega, by omega, h4⟩
                · refine ⟨t, by simp, by omega, by omega, by omega, fun x hx => ?_⟩
                  obtain ⟨v, hv, h5, h6⟩ := h4 x hx
                  exact ⟨v, hv, h5, hl.symm.trans _ _ _ h6⟩
              · rw [hrecto i h hic, h3name]
                exact htopold hk i h hic
            · intro hk e he
              rw [h3sh, hsh2, hsh1] at he
              rcases hi.sound (proper_left hk) e he with h | ⟨u, hu, v, hv, x, y, h1, h2, h3, h4⟩
              · exact Or.inl h
              · exact Or.inr ⟨u, List.mem_append_left _ hu, v, List.mem_append_left _ hv, x, y, h1, h2, h3,
                  linked_left h4⟩
          · rw [if_neg hblk]
            refine ⟨_, _, rfl, addp ?_ ?_⟩
            · intro hk hnone
              rw [hnamep] at hnone
              by_cases hb : (s2.node p).netType = .blockage
              · rw [hnew2.2.1, hmk.2.1] at hb
                obtain ⟨x, hx⟩ := (hk t (by simp)).2 hb
                rw [mkNode_name t x hx] at hnone
                cases h : (s.node c).netName <;> rw [h] at hnone <;> simp at hnone
              · have hb' : (s2.node c).netType = .blockage := by
                  by_contra h; exact hblk ⟨hb, h⟩
                rw [(hold2 c hcp).2.1] at hb'
                have := (hi.names (namesKept_left hk) c hcm).2.2.2 hb'
                cases h : (s.node c).netName with
                | none => exact this h
                | some y => rw [h] at hnone; simp at hnone
            · intro hk
              apply hblk
              rw [hnew2.2.1, hmk.2.1, (hold2 c hcp).2.1]
              exact ⟨(hk.1 t (by simp)).1, (hi.plain (plainLine_left hk) c hcm).2⟩
        · rw [if_neg hokb]
          refine ⟨_, _, rfl, addp ?_ ?_⟩
          · intro hk
            exfalso; apply hokb; rw [hok]
            refine ⟨hcompat, ?_, ?_⟩
            · rw [hsc]; exact (hi.names (namesKept_left hk) c hcm).1
            · rw [hnew1]; exact hmk.2.2.1.mpr (hk t (by simp)).1
          · intro hk
            apply hokb; rw [hok]
            refine ⟨hcompat, ?_, ?_⟩
            · rw [hsc]; exact (hi.plain (plainLine_left hk) c hcm).1
            · rw [hnew1]; exact hmk.2.2.1.mpr (hk.1 t (by simp)).2
      · -- short
        have hokf : ok ≠ true := by rw [Ne, hok]; exact fun h => hncompat h.1
        rw [if_neg hokf]
        refine ⟨_, _, rfl, ?_⟩
        have hrn12 : ∀ i x, RName s1 i x → RName s2 i x := by
          rintro i x ⟨r, hr, hx⟩; exact ⟨r, by rw [huf2]; exact hr, by rw [hnode2]; exact hx⟩
        refine hi.add (by rw [huf2]; exact hf1) (by rw [huf2]; exact hn1) hold2 hnew2
          (fun i h => by rw [hnode2]; exact hold1 i (hlt0 i h))
          (fun i _ r hr => by rw [huf2]; exact (hro1 _ _).mp hr) ⟨[(c, p)], by rw [hsh2, hsh1]⟩
          (fun _ i h x hx => hrn12 i x (rn1 i h x hx)) (fun _ x hx => hrn12 p x (pn1 x hx)) ?_ ?_ ?_ ?_
        · intro hk i h
          obtain ⟨h1, h2, h3⟩ := names1 hk i h
          rw [hnode2, huf2]
          exact ⟨h1, fun x hx => hrn12 i x (h2 x hx), h3⟩
        · intro _ hs; rw [hsh2] at hs; simp at hs
        · rw [hnode2]; exact top1
        · intro hk e he
          rw [hsh2, hsh1] at he
          rcases List.mem_append.mp he with he | he
          · exact Or.inl he
          · right
            rw [hsc, hnew1] at hncompat
            obtain ⟨x, hx⟩ : ∃ x, (s.node c).netName = some x :=
              Option.ne_none_iff_exists'.mp fun h => hncompat (Or.inl h)
            obtain ⟨y, hy⟩ : ∃ y, (mkNode t).netName = some y :=
              Option.ne_none_iff_exists'.mp fun h => hncompat (Or.inr (Or.inl h))
            obtain ⟨u, hu, h1, h2, h3, h4⟩ := hi.top (proper_left hk) c hcm
            obtain ⟨v, hv, h5, h6⟩ := h4 x hx
            have hlink : LinkedIn (done ++ [t]) u t :=
              touch_top hk (List.mem_append_left _ hu) (hsort u hu) h1 h2 h3 hle e0 e1
            refine ⟨v, List.mem_append_left _ hv, t, by simp, x, y, h5, (hmk.2.2.2 y).mp hy, ?_,
              ((linked_left h6).symm).trans _ _ _ hlink⟩
            rintro rfl
            exact hncompat (Or.inr (Or.inr (by rw [hx, hy])))
    · rw [if_neg hcond]
      refine ⟨_, _, rfl, gap ?_⟩
      intro hk hs
      rw [hsh1] at hs
      have hlt : (s.node c).rect.hi d < t.rect.lo d := by
        by_contra hge
        apply hcond
        obtain ⟨u, hu, h1, h2⟩ := hi.cc c hcm
        have := hk.2 t (by simp) u (List.mem_append_left _ hu)
        rw [hsc, h1, h2]
        exact ⟨by omega, this.1, this.2⟩
      have hpw := hi.sep (plainLine_left hk) hs
      obtain ⟨ys, hys⟩ := List.getLast?_eq_some_iff.mp hlast
      rw [hys, List.pairwise_append] at hpw
      intro i h
      rw [hys] at h
      rcases List.mem_append.mp h with h | h
      · have := hpw.2.2 i h c (by simp); omega
      · rw [List.mem_singleton] at h; subst h; exact hlt

theorem LineInv.loop : ∀ {ts done : List Shape} {s : St} {rects : List Nat}, LineInv d s0 done s rects →
    (done ++ ts).Pairwise (fun a b => a.rect.lo d ≤ b.rect.lo d) →
    ∃ s' rects', scanLoop d s rects ts = some (s', rects') ∧ LineInv d s0 (done ++ ts) s' rects' := by
  intro ts
  induction ts with
  | nil => intro done s rects h _; exact ⟨s, rects, rfl, by simpa using h⟩
  | cons t ts ih =>
    intro done s rects h hp
    have h1 : ∀ u ∈ done, u.rect.lo d ≤ t.rect.lo d := by
      rw [List.pairwise_append] at hp
      exact fun u hu => hp.2.2 u hu t (by simp)
    obtain ⟨s1, r1, he, hinv⟩ := h.step h1
    obtain ⟨s2, r2, he2, hinv2⟩ := ih hinv (by simpa using hp)
    exact ⟨s2, r2, by simp [scanLoop, he, he2], by simpa using hinv2⟩

end step

end Verif.RemoveDup

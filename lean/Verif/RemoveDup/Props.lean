import Verif.RemoveDup.Pipeline

/-! # Properties C10, C11, C13, C14 of `remove_duplicates` -/

namespace Verif.RemoveDup

/-! ## The result of a run -/

/-- What is known of the final state. -/
structure RunOK (skip : List String) (layers : List (String × Dir)) (ts : List Shape) (s : St)
    (ls : List Line) : Prop where
  forest : Forest s.uf
  lines : ∀ l ∈ ls, (l.layer, l.dir) ∈ layers ∧ l.layer ∉ skip ∧ LineOK s l (onLine ts l.layer l.dir l.center)
  all : ∀ layer d c, (layer, d) ∈ layers → layer ∉ skip → onLine ts layer d c ≠ [] →
    ∃ l ∈ ls, l.layer = layer ∧ l.dir = d ∧ l.center = c

/-- A via object and a metal scan line of the final state: some wire on it touches the via, and without shorts they
are connected. -/
def Joined (s : St) (ml : Line) (v : Nat) : Prop :=
  ∃ m ∈ ml.rects, touching (s.node v).rect (s.node m).rect = true ∧ (s.shorts = [] → Conn s v m)

/-- What `check_shorts_induced_by_vias` establishes for one via scan line. -/
def ViaDone (ls : List Line) (mv mh : Option String) (s : St) (vl : Line) : Prop :=
  (∀ mvn, mv = some mvn → ∀ ml, findLine ls mvn vl.center = some ml → ∀ v ∈ vl.rects, Joined s ml v) ∧
  (∀ mhn, mh = some mhn → (∀ mvn, mv = some mvn → (findLine ls mvn vl.center).isSome) →
    ∀ v ∈ vl.rects, ∀ ml, findLine ls mhn ((s.node v).rect.y0 + (s.node v).rect.y1) = some ml → Joined s ml v)

theorem Joined.keeps {s s' : St} {ml : Line} {v : Nat} (hv : v < s.uf.n) (hr : ∀ i ∈ ml.rects, i < s.uf.n)
    (hk : Keeps s s') (h : Joined s ml v) : Joined s' ml v := by
  obtain ⟨m, hm, ht, hc⟩ := h
  refine ⟨m, hm, ?_, fun hs => hk.conn v hv m (hr m hm) (hc (hk.noShorts hs))⟩
  rw [(hk.same v hv).1, (hk.same m (hr m hm)).1]; exact ht

theorem viaFoldV {s s' : St} {ml : Line} {vs : List Nat}
    (hr : ∀ i ∈ ml.rects, i < s.uf.n) (hvs : ∀ v ∈ vs, v < s.uf.n) (hf : Forest s.uf)
    (h : vs.foldlM (fun s v => viaV s ml v) s = some s') :
    Keeps s s' ∧ s'.uf.n = s.uf.n ∧ ∀ v ∈ vs, Joined s' ml v := by
  refine foldlM_keeps (f := fun s v => viaV s ml v) (P := fun s' v => Joined s' ml v) (n := s.uf.n)
    vs ?_ ?_ hf rfl h
  · intro v hv s1 s2 hf1 hn1 h1
    have hv := hvs v hv
    obtain ⟨hk, hn, m, hm, hc⟩ := viaV_spec hf1 (by rw [hn1]; exact hv) (by rw [hn1]; exact hr) h1
    obtain ⟨hmlt, hmm, hmt⟩ := findTouching_lt hm (by rw [hn1]; exact hr)
    refine ⟨hk, by rw [hn, hn1], m, hmm, ?_, hc⟩
    rw [(hk.same v (by rw [hn1]; exact hv)).1, (hk.same m hmlt).1]; exact hmt
  · intro v hv s1 s2 hn1 hk hp
    exact hp.keeps (by rw [hn1]; exact hvs v hv) (by rw [hn1]; exact hr) hk

theorem viaFoldH {s s' : St} {ls : List Line} {mh : String} {vs : List Nat}
    (hids : ∀ l ∈ ls, ∀ i ∈ l.rects, i < s.uf.n) (hvs : ∀ v ∈ vs, v < s.uf.n) (hf : Forest s.uf)
    (h : vs.foldlM (fun s v => viaH s ls mh v) s = some s') :
    Keeps s s' ∧ s'.uf.n = s.uf.n ∧ ∀ v ∈ vs, ∀ ml,
      findLine ls mh ((s'.node v).rect.y0 + (s'.node v).rect.y1) = some ml → Joined s' ml v := by
  refine foldlM_keeps (f := fun s v => viaH s ls mh v) (P := fun s' v => ∀ ml,
      findLine ls mh ((s'.node v).rect.y0 + (s'.node v).rect.y1) = some ml → Joined s' ml v) (n := s.uf.n)
    vs ?_ ?_ hf rfl h
  · intro v hv s1 s2 hf1 hn1 h1
    have hv := hvs v hv
    obtain ⟨hk, hn, hall⟩ := viaH_spec hf1 (by rw [hn1]; exact hv) (by rw [hn1]; exact hids) h1
    refine ⟨hk, by rw [hn, hn1], fun ml hml => ?_⟩
    rw [(hk.same v (by rw [hn1]; exact hv)).1] at hml
    obtain ⟨m, hm, hc⟩ := hall ml hml
    obtain ⟨hmlt, hmm, hmt⟩ := findTouching_lt hm (by rw [hn1]; exact hids ml (List.mem_of_find?_eq_some hml))
    refine ⟨m, hmm, ?_, hc⟩
    rw [(hk.same v (by rw [hn1]; exact hv)).1, (hk.same m hmlt).1]; exact hmt
  · intro v hv s1 s2 hn1 hk hp ml hml
    rw [(hk.same v (by rw [hn1]; exact hvs v hv)).1] at hml
    exact (hp ml hml).keeps (by rw [hn1]; exact hvs v hv)
      (by rw [hn1]; exact hids ml (List.mem_of_find?_eq_some hml)) hk

theorem ViaDone.keeps {ls : List Line} {mv mh : Option String} {s s' : St} {vl : Line}
    (hids : ∀ l ∈ ls, ∀ i ∈ l.rects, i < s.uf.n) (hvl : vl ∈ ls) (hk : Keeps s s')
    (h : ViaDone ls mv mh s vl) : ViaDone ls mv mh s' vl := by
  refine ⟨fun mvn e ml hml v hv => ?_, fun mhn e hsome v hv ml hml => ?_⟩
  · exact (h.1 mvn e ml hml v hv).keeps (hids vl hvl v hv) (hids ml (List.mem_of_find?_eq_some hml)) hk
  · rw [(hk.same v (hids vl hvl v hv)).1] at hml
    exact (h.2 mhn e hsome v hv ml hml).keeps (hids vl hvl v hv)
      (hids ml (List.mem_of_find?_eq_some hml)) hk

theorem viaLine_spec {ls : List Line} {mv mh : Option String} {s s' : St} {vl : Line}
    (hids : ∀ l ∈ ls, ∀ i ∈ l.rects, i < s.uf.n) (hvl : vl ∈ ls) (hf : Forest s.uf)
    (h : viaLine ls mv mh s vl = some s') :
    Keeps s s' ∧ s'.uf.n = s.uf.n ∧ ViaDone ls mv mh s' vl := by
  unfold viaLine at h
  cases mv with
  | none =>
    cases mh with
    | none =>
      simp only [Option.some.injEq] at h; subst h
      exact ⟨Keeps.refl hf, rfl, by simp [ViaDone]⟩
    | some mhn =>
      simp only at h
      obtain ⟨hk, hn, hj⟩ := viaFoldH hids (hids vl hvl) hf h
      refine ⟨hk, hn, by simp, ?_⟩
      intro mhn' e _ v hv ml hml
      simp only [Option.some.injEq] at e; subst e
      exact hj v hv ml hml
  | some mvn =>
    simp only at h
    cases hl : findLine ls mvn vl.center with
    | none =>
      rw [hl] at h
      simp only [Option.some.injEq] at h; subst h
      refine ⟨Keeps.refl hf, rfl, ?_, ?_⟩
      · intro mvn' e ml hml
        simp only [Option.some.injEq] at e; subst e
        rw [hl] at hml; simp at hml
      · intro mhn _ hsome
        have := hsome mvn rfl
        rw [hl] at this; simp at this
    | some ml =>
      rw [hl] at h
      simp only [Option.bind_eq_bind] at h
      obtain ⟨s1, h1, h2⟩ := Option.bind_eq_some_iff.mp h
      have hml : ml ∈ ls := List.mem_of_find?_eq_some hl
      obtain ⟨hk1, hn1, hj1⟩ := viaFoldV (hids ml hml) (hids vl hvl) hf h1
      have hids1 : ∀ l ∈ ls, ∀ i ∈ l.rects, i < s1.uf.n := by rw [hn1]; exact hids
      cases mh with
      | none =>
        simp only [Option.some.injEq] at h2; subst h2
        refine ⟨hk1, hn1, ?_, by simp⟩
        intro mvn' e ml' hml' v hv
        simp only [Option.some.injEq] at e; subst e
        rw [hl] at hml'; simp only [Option.some.injEq] at hml'; subst hml'
        exact hj1 v hv
      | some mhn =>
        simp only at h2
        obtain ⟨hk2, hn2, hj2⟩ := viaFoldH hids1 (hids1 vl hvl) hk1.forest h2
        refine ⟨hk1.trans hk2, by rw [hn2, hn1], ?_, ?_⟩
        · intro mvn' e ml' hml' v hv
          simp only [Option.some.injEq] at e; subst e
          rw [hl] at hml'; simp only [Option.some.injEq] at hml'; subst hml'
          exact (hj1 v hv).keeps (hids1 vl hvl v hv) (hids1 ml hml) hk2
        · intro mhn' e _ v hv ml' hml'
          simp only [Option.some.injEq] at e; subst e
          exact hj2 v hv ml' hml'

theorem checkVias_spec {ls : List Line} {stack : List (String × Option String × Option String)} {s s' : St}
    (hids : ∀ l ∈ ls, ∀ i ∈ l.rects, i < s.uf.n) (hf : Forest s.uf) (h : checkVias ls stack s = some s') :
    Keeps s s' ∧ s'.uf.n = s.uf.n ∧ ∀ e ∈ stack, ∀ vl ∈ ls, vl.layer = e.1 → ViaDone ls e.2.1 e.2.2 s' vl := by
  unfold checkVias at h
  refine foldlM_keeps (n := s.uf.n) (P := fun s' e => ∀ vl ∈ ls, vl.layer = e.1 → ViaDone ls e.2.1 e.2.2 s' vl)
    stack ?_ ?_ hf rfl h
  · intro e _ s1 s2 hf1 hn1 h1
    have hids1 : ∀ l ∈ ls, ∀ i ∈ l.rects, i < s1.uf.n := by rw [hn1]; exact hids
    obtain ⟨a, b, c⟩ := foldlM_keeps (n := s.uf.n) (P := fun s' vl => ViaDone ls e.2.1 e.2.2 s' vl)
      (ls.filter fun l => decide (l.layer = e.1)) (by
        intro vl hvl s3 s4 hf3 hn3 h3
        obtain ⟨a, b, c⟩ := viaLine_spec (by rw [hn3]; exact hids) (List.mem_filter.mp hvl).1 hf3 h3
        exact ⟨a, by rw [b, hn3], c⟩) (by
        intro vl hvl s3 s4 hn3 hk hp
        exact hp.keeps (by rw [hn3]; exact hids) (List.mem_filter.mp hvl).1 hk) hf1 hn1 h1
    exact ⟨a, b, fun vl hvl e' => c vl (List.mem_filter.mpr ⟨hvl, by simpa using e'⟩)⟩
  · intro e _ s1 s2 hn1 hk hp vl hvl e'
    exact (hp vl hvl e').keeps (by rw [hn1]; exact hids) hvl hk

theorem run_spec {skip : List String} {layers : List (String × Dir)}
    {stack : List (String × Option String × Option String)} {ts : List Shape} {s : St} {ls : List Line}
    (h : run skip layers stack ts = some (s, ls)) :
    RunOK skip layers ts s ls ∧
      ∀ e ∈ stack, ∀ vl ∈ ls, vl.layer = e.1 → ViaDone ls e.2.1 e.2.2 s vl := by
  unfold run at h
  split at h
  · obtain ⟨s1, l1, h1, hk1, ha, hb, -⟩ := buildScanLines_spec skip ts layers forest_init
    rw [h1] at h
    simp only [Option.bind_eq_bind, Option.bind_some] at h
    obtain ⟨s2, h2, h3⟩ := Option.bind_eq_some_iff.mp h
    simp only [Option.some.injEq, Prod.mk.injEq] at h3
    obtain ⟨rfl, rfl⟩ := h3
    obtain ⟨hk2, hn2, hv⟩ := checkVias_spec (fun l hl => (ha l hl).2.2.2.ids) hk1.forest h2
    exact ⟨⟨hk2.forest, fun l hl => ⟨(ha l hl).1, (ha l hl).2.1, (ha l hl).2.2.2.keeps hk2⟩, hb⟩, hv⟩
  · simp at h

theorem rootOf_iff {s : St} (hf : Forest s.uf) {i r : Nat} (hi : i < s.uf.n) :
    rootOf s i = some r ↔ RootOf s.uf i r := by
  obtain ⟨u', r0, h1, h2, -⟩ := root_spec hf hi
  simp only [rootOf, h1, Option.map_some, Option.some.injEq]
  constructor
  · rintro rfl; exact h2
  · intro h; exact h2.unique h

theorem rootName_iff {s : St} (hf : Forest s.uf) {i : Nat} {x : String} (hi : i < s.uf.n) :
    rootName s i = some x ↔ RName s i x := by
  unfold rootName RName
  constructor
  · intro h
    obtain ⟨r, h1, h2⟩ := Option.bind_eq_some_iff.mp h
    exact ⟨r, (rootOf_iff hf hi).mp h1, h2⟩
  · rintro ⟨r, h1, h2⟩
    rw [(rootOf_iff hf hi).mpr h1]; exact h2

theorem rootName_conn {s : St} (hf : Forest s.uf) {i j : Nat} (hi : i < s.uf.n) (hj : j < s.uf.n)
    (h : Conn s i j) : rootName s i = rootName s j := by
  obtain ⟨r, h1, h2⟩ := h
  simp [rootName, (rootOf_iff hf hi).mpr h1, (rootOf_iff hf hj).mpr h2]

theorem mem_generate {s : St} {ls : List Line} {o : Out} : o ∈ generateRectangles s ls ↔
    ∃ l ∈ ls, ∃ i ∈ l.rects, o = ⟨l.layer, (s.node i).rect, rootName s i,
      if (s.node i).isPorted then .pin else (s.node i).netType, (s.node i).terminal⟩ := by
  unfold generateRectangles
  constructor
  · intro h
    obtain ⟨l, hl, h⟩ := List.mem_flatMap.mp h
    obtain ⟨i, hi, h⟩ := List.mem_map.mp h
    exact ⟨l, hl, i, hi, h.symm⟩
  · rintro ⟨l, hl, i, hi, rfl⟩
    exact List.mem_flatMap.mpr ⟨l, hl, List.mem_map.mpr ⟨i, hi, rfl⟩⟩

/-! ## C10 -/

theorem coversD_of {d : Dir} {r : Rect} {x y : Int} :
    Covers r x y ↔ ∃ z w, CoversD d r z w ∧ (match d with | .h => z = x ∧ w = y | _ => w = x ∧ z = y) := by
  cases d
  · simp [coversD_covers]
  · constructor
    · intro h; exact ⟨y, x, (coversD_covers _ _ _ _).mpr h, rfl, rfl⟩
    · rintro ⟨z, w, h, rfl, rfl⟩; exact (coversD_covers _ _ _ _).mp h
  · constructor
    · intro h; exact ⟨y, x, (coversD_covers _ _ _ _).mpr h, rfl, rfl⟩
    · rintro ⟨z, w, h, rfl, rfl⟩; exact (coversD_covers _ _ _ _).mp h

/-- On every layer that is handled, the returned rectangles cover exactly the points of the given ones. No
restriction on widths, names or types is needed. -/
theorem C10_same_geometry (skip : List String) (layers : List (String × Dir))
    (stack : List (String × Option String × Option String)) (ts : List Shape) (s : St) (ls : List Line)
    (h : run skip layers stack ts = some (s, ls)) (layer : String) (d : Dir) (hl : (layer, d) ∈ layers)
    (hskip : layer ∉ skip) (x y : Int) :
    (∃ o ∈ generateRectangles s ls, o.layer = layer ∧ Covers o.rect x y) ↔
      ∃ t ∈ ts, t.layer = layer ∧ Covers t.rect x y := by
  obtain ⟨hok, -⟩ := run_spec h
  constructor
  · rintro ⟨o, ho, rfl, hc⟩
    obtain ⟨l, hlm, i, hi, rfl⟩ := mem_generate.mp ho
    obtain ⟨z, w, hcd, hzw⟩ := (coversD_of (d := l.dir)).mp hc
    obtain ⟨t, ht, hct⟩ := ((hok.lines l hlm).2.2.cov z w).mp ⟨i, hi, hcd⟩
    simp only [onLine, List.mem_filter, decide_eq_true_eq] at ht
    exact ⟨t, ht.1, ht.2.1, (coversD_of (d := l.dir)).mpr ⟨z, w, hct, hzw⟩⟩
  · rintro ⟨t, ht, rfl, hc⟩
    have hmem : t ∈ onLine ts t.layer d (t.rect.c0 d + t.rect.c1 d) := by simp [onLine, ht]
    obtain ⟨l, hlm, e1, e2, e3⟩ := hok.all t.layer d _ hl hskip (List.ne_nil_of_mem hmem)
    obtain ⟨z, w, hcd, hzw⟩ := (coversD_of (d := d)).mp hc
    have hlok := (hok.lines l hlm).2.2
    rw [e1, e2, e3] at hlok
    have hcov := hlok.cov
    rw [e2] at hcov
    obtain ⟨i, hi, hci⟩ := (hcov z w).mpr ⟨t, hmem, hcd⟩
    exact ⟨_, mem_generate.mpr ⟨l, hlm, i, hi, rfl⟩, e1, (coversD_of (d := d)).mpr ⟨z, w, hci, hzw⟩⟩

/-- On a centre line with plain wires of one width, and without shorts, no two returned rectangles overlap or
abut. -/
theorem C10_no_abutting (skip : List String) (layers : List (String × Dir))
    (stack : List (String × Option String × Option String)) (ts : List Shape) (s : St) (ls : List Line)
    (h : run skip layers stack ts = some (s, ls)) (hs : s.shorts = []) (l : Line) (hl : l ∈ ls)
    (hplain : PlainLine l.dir (onLine ts l.layer l.dir l.center)) :
    l.rects.Pairwise fun i j => (s.node i).rect.hi l.dir < (s.node j).rect.lo l.dir :=
  ((run_spec h).1.lines l hl).2.2.sep hplain hs

/-! ## C11 -/

/-- The test used for vias: the rectangles have a point in common. -/
theorem C11_touching_exact (a b : Rect) (ha : a.x0 ≤ a.x1 ∧ a.y0 ≤ a.y1) (hb : b.x0 ≤ b.x1 ∧ b.y0 ≤ b.y1) :
    touching a b = true ↔ Touch a b := by
  simp only [touching, Bool.not_eq_true', Bool.or_eq_false_iff, decide_eq_false_iff_not, not_lt]
  constructor
  · rintro ⟨⟨⟨h1, h2⟩, h3⟩, h4⟩
    refine ⟨max a.x0 b.x0, max a.y0 b.y0, ?_, ?_⟩ <;> simp only [Covers] <;> omega
  · rintro ⟨x, y, h1, h2⟩
    simp only [Covers] at h1 h2
    omega

/-- Plain wires of one width on one centre line: if no short is recorded, touching wires with names have the same
name. -/
theorem C11_no_short_partial (skip : List String) (layers : List (String × Dir))
    (stack : List (String × Option String × Option String)) (ts : List Shape) (s : St) (ls : List Line)
    (h : run skip layers stack ts = some (s, ls)) (hs : s.shorts = []) (layer : String) (d : Dir)
    (hl : (layer, d) ∈ layers) (hskip : layer ∉ skip) (c : Int) (hplain : PlainLine d (onLine ts layer d c))
    (t u : Shape) (ht : t ∈ onLine ts layer d c) (hu : u ∈ onLine ts layer d c)
    (htouch : Touch t.rect u.rect) (x y : String) (hx : t.label = .net x) (hy : u.label = .net y) : x = y := by
  obtain ⟨hok, -⟩ := run_spec h
  obtain ⟨l, hlm, rfl, rfl, rfl⟩ := hok.all layer d c hl hskip (List.ne_nil_of_mem ht)
  have hlok := (hok.lines l hlm).2.2
  have hnk : NamesKept (onLine ts l.layer l.dir l.center) := fun v hv =>
    ⟨(hplain.1 v hv).2, fun hb => absurd hb (hplain.1 v hv).1⟩
  obtain ⟨i, hi, a1, a2, a3, a4, -, a5⟩ := hlok.sub t ht
  obtain ⟨j, hj, b1, b2, b3, b4, -, b5⟩ := hlok.sub u hu
  have hsep := hlok.sep hplain hs
  obtain ⟨px, py, hp1, hp2⟩ := htouch
  have hcov : t.rect.lo l.dir ≤ u.rect.hi l.dir ∧ u.rect.lo l.dir ≤ t.rect.hi l.dir := by
    cases hd : l.dir <;> simp only [Covers, Rect.lo, Rect.hi] at hp1 hp2 ⊢ <;> omega
  by_cases hij : i = j
  · subst hij
    obtain ⟨r, h1, h2⟩ := a5 hnk x hx
    obtain ⟨r', h1', h2'⟩ := b5 hnk y hy
    obtain rfl := h1.unique h1'
    rw [h2] at h2'
    simpa using h2'
  · exfalso
    obtain ⟨n, hn, hne⟩ := List.getElem_of_mem hi
    obtain ⟨m, hm, hme⟩ := List.getElem_of_mem hj
    rw [List.pairwise_iff_getElem] at hsep
    rcases Nat.lt_trichotomy n m with hlt | heq | hlt
    · have := hsep n m hn hm hlt
      rw [hne, hme] at this; omega
    · subst heq; exact hij (hne.symm.trans hme)
    · have := hsep m n hm hn hlt
      rw [hne, hme] at this; omega

/-- A short recorded while scanning lines is real: on some centre line two shapes with different net names are
linked by touching shapes. -/
theorem C11_scan_shorts_real (skip : List String) (layers : List (String × Dir)) (ts : List Shape) (s : St)
    (ls : List Line) (h : buildScanLines skip ts St.init layers = some (s, ls))
    (hproper : ∀ t ∈ ts, t.rect.x0 ≤ t.rect.x1 ∧ t.rect.y0 ≤ t.rect.y1) (e : Nat × Nat) (he : e ∈ s.shorts) :
    ∃ layer d c, (layer, d) ∈ layers ∧ layer ∉ skip ∧
      ∃ t ∈ onLine ts layer d c, ∃ u ∈ onLine ts layer d c, ∃ x y,
        t.label = .net x ∧ u.label = .net y ∧ x ≠ y ∧ LinkedIn (onLine ts layer d c) t u := by
  obtain ⟨s1, l1, h1, -, -, -, hsh⟩ := buildScanLines_spec skip ts layers forest_init
  rw [h] at h1
  simp only [Option.some.injEq, Prod.mk.injEq] at h1
  obtain ⟨rfl, rfl⟩ := h1
  rcases hsh e he with h | ⟨layer, d, c, a1, a2, a3⟩
  · simp [St.init] at h
  · refine ⟨layer, d, c, a1, a2, a3 ?_⟩
    intro t ht
    have := hproper t (List.mem_filter.mp ht).1
    cases d <;> simp only [Rect.lo, Rect.hi, Rect.c0, Rect.c1] <;> omega

/-- Vias: if no short is recorded, each via has the same net as the wires found below and above it. The wire above
is only found if the wire below is (or there is no layer below). -/
theorem C11_vias_partial (skip : List String) (layers : List (String × Dir))
    (stack : List (String × Option String × Option String)) (ts : List Shape) (s : St) (ls : List Line)
    (h : run skip layers stack ts = some (s, ls)) (hs : s.shorts = []) (via : String) (mv mh : Option String)
    (he : (via, mv, mh) ∈ stack) (vl : Line) (hvl : vl ∈ ls) (hlay : vl.layer = via) (v : Nat)
    (hv : v ∈ vl.rects) :
    (∀ mvn, mv = some mvn → ∀ ml, findLine ls mvn vl.center = some ml →
      ∃ m ∈ ml.rects, touching (s.node v).rect (s.node m).rect = true ∧ rootName s v = rootName s m) ∧
    (∀ mhn, mh = some mhn → (∀ mvn, mv = some mvn → (findLine ls mvn vl.center).isSome) →
      ∀ ml, findLine ls mhn ((s.node v).rect.y0 + (s.node v).rect.y1) = some ml →
      ∃ m ∈ ml.rects, touching (s.node v).rect (s.node m).rect = true ∧ rootName s v = rootName s m) := by
  obtain ⟨hok, hvia⟩ := run_spec h
  obtain ⟨h1, h2⟩ := hvia _ he vl hvl hlay
  have conv : ∀ ml, ml ∈ ls → Joined s ml v → ∃ m ∈ ml.rects, touching (s.node v).rect (s.node m).rect = true ∧
      rootName s v = rootName s m := by
    rintro ml hml ⟨m, hm, ht, hc⟩
    exact ⟨m, hm, ht, rootName_conn hok.forest ((hok.lines vl hvl).2.2.ids v hv)
      ((hok.lines ml hml).2.2.ids m hm) (hc hs)⟩
  exact ⟨fun mvn e ml hml => conv ml (List.mem_of_find?_eq_some hml) (h1 mvn e ml hml v hv),
    fun mhn e hsome ml hml => conv ml (List.mem_of_find?_eq_some hml) (h2 mhn e hsome v hv ml hml)⟩

/-- A net `x` wire, a blockage inside it, and a net `y` wire overlapping the first. -/
def blockageExample : List Shape :=
  [⟨"M1", ⟨0, 0, 100, 10⟩, .net "x", .drawing⟩, ⟨"M1", ⟨10, 0, 20, 10⟩, .unnamed, .blockage⟩,
    ⟨"M1", ⟨50, 0, 60, 10⟩, .net "y", .drawing⟩]

/-- With a blockage in between, a short is missed: wires `x` and `y` overlap, no short is recorded, and both names
are returned. -/
theorem C11_violated_blockage :
    ((run [] [("M1", .h)] [] blockageExample).map fun r => (r.1.shorts.length,
      (generateRectangles r.1 r.2).map fun o => (o.rect, o.netName))) =
    some (0, [(⟨0, 0, 100, 10⟩, some "x"), (⟨10, 0, 20, 10⟩, some "x"), (⟨50, 0, 60, 10⟩, some "y")]) := by
  decide

/-- The same with a device terminal shape in between. -/
theorem C11_violated_terminal :
    ((run [] [("M1", .h)] [] [⟨"M1", ⟨0, 0, 100, 10⟩, .net "x", .drawing⟩,
        ⟨"M1", ⟨10, 0, 20, 10⟩, .pin "M0" "D", .drawing⟩, ⟨"M1", ⟨50, 0, 60, 10⟩, .net "y", .drawing⟩]).map
      fun r => (r.1.shorts.length, (generateRectangles r.1 r.2).map fun o => (o.rect, o.netName))) =
    some (0, [(⟨0, 0, 100, 10⟩, some "x"), (⟨10, 0, 20, 10⟩, some "x"), (⟨50, 0, 60, 10⟩, some "y")]) := by
  decide

/-- A via of net `y` on a horizontal wire of net `x`: nothing is reported when there is no vertical wire on the
centre line of the via. -/
theorem C11_violated_via :
    ((run [] [("M1", .v), ("M2", .h), ("V1", .via)] [("V1", some "M1", some "M2")]
        [⟨"M2", ⟨0, 0, 100, 10⟩, .net "x", .drawing⟩, ⟨"V1", ⟨20, 0, 30, 10⟩, .net "y", .drawing⟩]).map
      fun r => (r.1.shorts.length, (generateRectangles r.1 r.2).map fun o => (o.layer, o.netName))) =
    some (0, [("M2", some "x"), ("V1", some "y")]) := by
  decide

/-! ## C13 -/

theorem eraseDups_length_le_one {l : List Nat} : l.eraseDups.length ≤ 1 ↔ ∀ a ∈ l, ∀ b ∈ l, a = b := by
  constructor
  · intro h a ha b hb
    have ha' := List.mem_eraseDups.mpr ha
    have hb' := List.mem_eraseDups.mpr hb
    match hl : l.eraseDups, h with
    | [], _ => rw [hl] at ha'; simp at ha'
    | [c], _ => rw [hl] at ha' hb'; simp at ha' hb'; rw [ha', hb']
  · intro h
    cases l with
    | nil => simp
    | cons a tl =>
      have hfil : tl.filter (fun b => !b == a) = [] := by
        rw [List.filter_eq_nil_iff]
        intro b hb
        have := h b (List.mem_cons_of_mem _ hb) a (by simp)
        simp [this]
      rw [List.eraseDups_cons, hfil]
      simp

theorem openEntry_iff {s : St} {i : Nat} {nm : String} {r : Nat} :
    openEntry s i = some (nm, r) ↔ rootName s i = some nm ∧ rootOf s i = some r := by
  unfold openEntry
  cases rootName s i <;> cases rootOf s i <;> simp

theorem openTbl_mem {s : St} {ls : List Line} (nm : String) (v : List Nat) (hm : (nm, v) ∈ openTbl s ls) (r : Nat) :
    r ∈ v ↔ ∃ i ∈ allRects ls, rootName s i = some nm ∧ rootOf s i = some r := by
  obtain ⟨-, hv⟩ := ((group_spec (fun t : String × Nat => t.1) (fun t => t.2) _).2 nm v).mp hm
  rw [hv]
  simp only [List.mem_map, List.mem_filter, List.mem_filterMap, decide_eq_true_eq]
  constructor
  · rintro ⟨⟨nm', r'⟩, ⟨⟨i, hi, hm'⟩, rfl⟩, rfl⟩
    exact ⟨i, hi, openEntry_iff.mp hm'⟩
  · rintro ⟨i, hi, h⟩
    exact ⟨(nm, r), ⟨⟨i, hi, openEntry_iff.mpr h⟩, rfl⟩, rfl⟩

theorem openTbl_exists {s : St} {ls : List Line} (nm : String) {i r : Nat} (hi : i ∈ allRects ls)
    (h : rootName s i = some nm ∧ rootOf s i = some r) : ∃ v, (nm, v) ∈ openTbl s ls := by
  refine ⟨_, ((group_spec (fun t : String × Nat => t.1) (fun t => t.2) _).2 nm _).mpr ⟨?_, rfl⟩⟩
  apply List.ne_nil_of_mem (a := r)
  simp only [List.mem_map, List.mem_filter, List.mem_filterMap, decide_eq_true_eq]
  exact ⟨(nm, r), ⟨⟨i, hi, openEntry_iff.mpr h⟩, rfl⟩, rfl⟩

/-- A net is reported open exactly when it is not allowed to be open and two returned rectangles with its name
belong to different components. -/
theorem C13_net_open_iff (skip : List String) (layers : List (String × Dir))
    (stack : List (String × Option String × Option String)) (ts : List Shape) (s : St) (ls : List Line)
    (h : run skip layers stack ts = some (s, ls)) (allowed : List String) (allowOpens : Bool) (nm : String) :
    .net nm ∈ checkOpens allowed allowOpens s ls ↔
      nm ∉ allowed ∧ allowOpens = false ∧ ∃ i ∈ allRects ls, ∃ j ∈ allRects ls,
        rootName s i = some nm ∧ rootName s j = some nm ∧ ¬ Conn s i j := by
  obtain ⟨hok, -⟩ := run_spec h
  have hids : ∀ l ∈ ls, ∀ i ∈ l.rects, i < s.uf.n := fun l hl => (hok.lines l hl).2.2.ids
  have hall : ∀ i ∈ allRects ls, i < s.uf.n := by
    intro i hi
    obtain ⟨l, hl, hi⟩ := List.mem_flatMap.mp hi
    exact hids l hl i hi
  have hfirst : Opn.net nm ∉ (if allowOpens then [] else
    (allRects ls).filterMap fun i =>
      match rootName s i, (s.node i).terminal with
      | none, some t => some (Opn.terminal t.1 t.2)
      | _, _ => none) := by
    split
    · simp
    · simp only [List.mem_filterMap, not_exists, not_and]
      intro i _
      split <;> simp
  unfold checkOpens
  rw [List.mem_append]
  constructor
  · rintro (hm | hm)
    · exact absurd hm hfirst
    · obtain ⟨⟨nm', v⟩, hv, he⟩ := List.mem_filterMap.mp hm
      simp only at he
      split at he
      · rename_i hc
        simp only [Option.some.injEq, Opn.net.injEq] at he
        subst he
        refine ⟨hc.2.1, hc.2.2, ?_⟩
        have hne : ¬ v.eraseDups.length ≤ 1 := by omega
        rw [eraseDups_length_le_one] at hne
        push Not at hne
        obtain ⟨a, ha, b, hb, hab⟩ := hne
        obtain ⟨i, hi, i1, i2⟩ := (openTbl_mem _ v hv a).mp ha
        obtain ⟨j, hj, j1, j2⟩ := (openTbl_mem _ v hv b).mp hb
        refine ⟨i, hi, j, hj, i1, j1, ?_⟩
        rintro ⟨r, r1, r2⟩
        rw [rootOf_iff hok.forest (hall i hi)] at i2
        rw [rootOf_iff hok.forest (hall j hj)] at j2
        exact hab ((i2.unique r1).trans (j2.unique r2).symm)
      · simp at he
  · rintro ⟨h1, h2, i, hi, j, hj, i1, j1, hnc⟩
    right
    obtain ⟨ri, hri⟩ := RootOf.exists hok.forest i
    obtain ⟨rj, hrj⟩ := RootOf.exists hok.forest j
    have i2 := (rootOf_iff hok.forest (hall i hi)).mpr hri
    have j2 := (rootOf_iff hok.forest (hall j hj)).mpr hrj
    obtain ⟨v, hv⟩ := openTbl_exists (s := s) (ls := ls) nm hi ⟨i1, i2⟩
    refine List.mem_filterMap.mpr ⟨(nm, v), hv, ?_⟩
    simp only
    rw [if_pos]
    refine ⟨?_, h1, h2⟩
    by_contra hle
    have hle : v.eraseDups.length ≤ 1 := by omega
    rw [eraseDups_length_le_one] at hle
    have := hle ri ((openTbl_mem _ v hv ri).mpr ⟨i, hi, i1, i2⟩) rj
      ((openTbl_mem _ v hv rj).mpr ⟨j, hj, j1, j2⟩)
    subst this
    exact hnc ⟨ri, hri, hrj⟩

/-- A device terminal is reported open exactly when a shape of it ends up without a net. -/
theorem C13_terminal_open_iff (s : St) (ls : List Line) (allowed : List String) (allowOpens : Bool)
    (inst pin : String) :
    .terminal inst pin ∈ checkOpens allowed allowOpens s ls ↔
      allowOpens = false ∧ ∃ i ∈ allRects ls, rootName s i = none ∧ (s.node i).terminal = some (inst, pin) := by
  unfold checkOpens
  rw [List.mem_append]
  constructor
  · rintro (hm | hm)
    · split at hm
      · simp at hm
      · rename_i ha
        refine ⟨by simpa using ha, ?_⟩
        obtain ⟨i, hi, he⟩ := List.mem_filterMap.mp hm
        refine ⟨i, hi, ?_⟩
        split at he
        · rename_i t h1 h2
          simp only [Option.some.injEq, Opn.terminal.injEq] at he
          exact ⟨h1, by rw [h2, ← he.1, ← he.2]⟩
        · simp at he
    · obtain ⟨e, -, he⟩ := List.mem_filterMap.mp hm
      split at he <;> simp at he
  · rintro ⟨ha, i, hi, h1, h2⟩
    left
    rw [ha]
    simp only [Bool.false_eq_true, if_false]
    exact List.mem_filterMap.mpr ⟨i, hi, by simp [h1, h2]⟩

/-! ## C14 -/

/-- Every named shape lies inside a returned rectangle of its layer that carries its name, if its centre line has
no terminal shapes and all blockages on it are named. -/
theorem C14_names_survive_partial (skip : List String) (layers : List (String × Dir))
    (stack : List (String × Option String × Option String)) (ts : List Shape) (s : St) (ls : List Line)
    (h : run skip layers stack ts = some (s, ls)) (t : Shape) (ht : t ∈ ts) (d : Dir)
    (hl : (t.layer, d) ∈ layers) (hskip : t.layer ∉ skip)
    (hkept : NamesKept (onLine ts t.layer d (t.rect.c0 d + t.rect.c1 d))) (x : String) (hx : t.label = .net x) :
    ∃ o ∈ generateRectangles s ls, o.layer = t.layer ∧ Inside t.rect o.rect ∧ o.netName = some x := by
  obtain ⟨hok, -⟩ := run_spec h
  have hmem : t ∈ onLine ts t.layer d (t.rect.c0 d + t.rect.c1 d) := by simp [onLine, ht]
  obtain ⟨l, hlm, e1, e2, e3⟩ := hok.all t.layer d _ hl hskip (List.ne_nil_of_mem hmem)
  have hlok := (hok.lines l hlm).2.2
  rw [e1, e2, e3] at hlok
  obtain ⟨i, hi, a1, a2, a3, a4, -, a5⟩ := hlok.sub t hmem
  refine ⟨_, mem_generate.mpr ⟨l, hlm, i, hi, rfl⟩, e1, inside_of _ _ l.dir a1 a2 a3 a4, ?_⟩
  exact (rootName_iff hok.forest (hlok.ids i hi)).mpr (a5 hkept x hx)

/-- Every shape of type `pin` lies inside a returned rectangle of its layer of type `pin`, which also carries its
name if names are kept on the centre line. -/
theorem C60_ports_survive (skip : List String) (layers : List (String × Dir))
    (stack : List (String × Option String × Option String)) (ts : List Shape) (s : St) (ls : List Line)
    (h : run skip layers stack ts = some (s, ls)) (t : Shape) (ht : t ∈ ts) (d : Dir)
    (hl : (t.layer, d) ∈ layers) (hskip : t.layer ∉ skip) (hpin : t.netType = .pin) :
    ∃ o ∈ generateRectangles s ls, o.layer = t.layer ∧ Inside t.rect o.rect ∧ o.netType = .pin ∧
      (NamesKept (onLine ts t.layer d (t.rect.c0 d + t.rect.c1 d)) → ∀ x, t.label = .net x → o.netName = some x) := by
  obtain ⟨hok, -⟩ := run_spec h
  have hmem : t ∈ onLine ts t.layer d (t.rect.c0 d + t.rect.c1 d) := by simp [onLine, ht]
  obtain ⟨l, hlm, e1, e2, e3⟩ := hok.all t.layer d _ hl hskip (List.ne_nil_of_mem hmem)
  have hlok := (hok.lines l hlm).2.2
  rw [e1, e2, e3] at hlok
  obtain ⟨i, hi, a1, a2, a3, a4, a5, a6⟩ := hlok.sub t hmem
  refine ⟨_, mem_generate.mpr ⟨l, hlm, i, hi, rfl⟩, e1, inside_of _ _ l.dir a1 a2 a3 a4, ?_, fun hk x hx => ?_⟩
  · simp [a5 hpin]
  · exact (rootName_iff hok.forest (hlok.ids i hi)).mpr (a6 hk x hx)

/-- The name is lost behind two unnamed shapes, one of them a blockage; nothing is reported. -/
theorem C14_violated_blockage :
    ((run [] [("M1", .h)] [] [⟨"M1", ⟨0, 0, 10, 10⟩, .unnamed, .drawing⟩,
        ⟨"M1", ⟨10, 0, 20, 10⟩, .unnamed, .blockage⟩, ⟨"M1", ⟨20, 0, 30, 10⟩, .net "x", .drawing⟩]).map
      fun r => (r.1.shorts.length, checkOpens [] false r.1 r.2,
        (generateRectangles r.1 r.2).map fun o => (o.rect, o.netName))) =
    some (0, [], [(⟨0, 0, 10, 10⟩, none), (⟨10, 0, 20, 10⟩, none), (⟨20, 0, 30, 10⟩, none)]) := by
  decide

/-- A layout with wires, a via and named shapes that meets the hypotheses. -/
example : ((run ["boundary"] [("M1", .v), ("M2", .h), ("V1", .via)] [("V1", some "M1", some "M2")]
    [⟨"M2", ⟨0, 0, 50, 10⟩, .net "x", .drawing⟩, ⟨"M2", ⟨40, 0, 100, 10⟩, .net "x", .pin⟩,
      ⟨"V1", ⟨20, 0, 30, 10⟩, .unnamed, .drawing⟩, ⟨"M1", ⟨20, -20, 30, 20⟩, .unnamed, .drawing⟩]).map
      fun r => (r.1.shorts.length, (generateRectangles r.1 r.2).map fun o => (o.layer, o.rect, o.netName))) =
    some (0, [("M1", ⟨20, -20, 30, 20⟩, some "x"), ("M2", ⟨0, 0, 100, 10⟩, some "x"),
      ("V1", ⟨20, 0, 30, 10⟩, some "x")]) := by decide

example : PlainLine .h [⟨"M2", ⟨0, 0, 50, 10⟩, .net "x", .drawing⟩, ⟨"M2", ⟨40, 0, 100, 10⟩, .unnamed, .pin⟩] := by
  simp [PlainLine, Rect.c0, Rect.c1]

example : NamesKept [⟨"M2", ⟨0, 0, 50, 10⟩, .net "x", .blockage⟩, ⟨"M2", ⟨40, 0, 100, 10⟩, .unnamed, .pin⟩] := by
  simp [NamesKept]

end Verif.RemoveDup

import Verif.RemoveDup.Scan

/-! # The invariants carried through the whole of `remove_duplicates` -/

namespace Verif.RemoveDup

/-- Two objects are in the same class. -/
def Conn (s : St) (i j : Nat) : Prop := ∃ r, RootOf s.uf i r ∧ RootOf s.uf j r

/-- What later steps keep of the objects that exist in `s`. -/
structure Keeps (s s' : St) : Prop where
  forest : Forest s'.uf
  le_n : s.uf.n ≤ s'.uf.n
  same : ∀ i < s.uf.n, SameBut (s'.node i) (s.node i)
  rname : ∀ i < s.uf.n, ∀ x, RName s i x → RName s' i x
  conn : ∀ i < s.uf.n, ∀ j < s.uf.n, Conn s i j → Conn s' i j
  shorts : ∃ e, s'.shorts = s.shorts ++ e

theorem SameBut.trans {a b c : Node} (h1 : SameBut a b) (h2 : SameBut b c) : SameBut a c :=
  ⟨h1.1.trans h2.1, h1.2.1.trans h2.2.1, h1.2.2.1.trans h2.2.2.1, h1.2.2.2.trans h2.2.2.2⟩

theorem Keeps.refl {s : St} (h : Forest s.uf) : Keeps s s :=
  ⟨h, le_refl _, fun _ _ => by simp [SameBut], fun _ _ _ h => h, fun _ _ _ _ h => h, ⟨[], by simp⟩⟩

theorem Keeps.trans {s s' s'' : St} (h1 : Keeps s s') (h2 : Keeps s' s'') : Keeps s s'' := by
  have hl := h1.le_n
  refine ⟨h2.forest, h1.le_n.trans h2.le_n, fun i h => (h2.same i (by omega)).trans (h1.same i h),
    fun i h x hx => h2.rname i (by omega) x (h1.rname i h x hx),
    fun i h j hj hc => h2.conn i (by omega) j (by omega) (h1.conn i h j hj hc), ?_⟩
  obtain ⟨e, he⟩ := h1.shorts
  obtain ⟨e', he'⟩ := h2.shorts
  exact ⟨e ++ e', by rw [he', he, List.append_assoc]⟩

theorem Keeps.noShorts {s s' : St} (h : Keeps s s') (hs : s'.shorts = []) : s.shorts = [] := by
  obtain ⟨e, he⟩ := h.shorts
  rw [hs] at he
  exact (List.append_eq_nil_iff.mp he.symm).1

/-- What is known of a finished line. -/
structure LineOK (s : St) (l : Line) (v : List Shape) : Prop where
  ids : ∀ i ∈ l.rects, i < s.uf.n
  cov : ∀ z w, (∃ i ∈ l.rects, CoversD l.dir (s.node i).rect z w) ↔ ∃ t ∈ v, CoversD l.dir t.rect z w
  sub : ∀ t ∈ v, ∃ i ∈ l.rects, t.rect.c0 l.dir = (s.node i).rect.c0 l.dir ∧
    t.rect.c1 l.dir = (s.node i).rect.c1 l.dir ∧
    (s.node i).rect.lo l.dir ≤ t.rect.lo l.dir ∧ t.rect.hi l.dir ≤ (s.node i).rect.hi l.dir ∧
    (t.netType = .pin → (s.node i).isPorted = true) ∧
    (NamesKept v → ∀ x, t.label = .net x → RName s i x)
  cc : ∀ i ∈ l.rects, ∃ t ∈ v, (s.node i).rect.c0 l.dir = t.rect.c0 l.dir ∧
    (s.node i).rect.c1 l.dir = t.rect.c1 l.dir
  sep : PlainLine l.dir v → s.shorts = [] →
    l.rects.Pairwise fun i j => (s.node i).rect.hi l.dir < (s.node j).rect.lo l.dir

theorem LineOK.keeps {s s' : St} {l : Line} {v : List Shape} (h : LineOK s l v) (hk : Keeps s s') :
    LineOK s' l v := by
  have hr : ∀ i ∈ l.rects, (s'.node i).rect = (s.node i).rect := fun i hi => (hk.same i (h.ids i hi)).1
  refine ⟨fun i hi => lt_of_lt_of_le (h.ids i hi) hk.le_n, ?_, ?_, ?_, ?_⟩
  · intro z w
    rw [← h.cov z w]
    constructor
    · rintro ⟨i, hi, hc⟩; exact ⟨i, hi, by rw [← hr i hi]; exact hc⟩
    · rintro ⟨i, hi, hc⟩; exact ⟨i, hi, by rw [hr i hi]; exact hc⟩
  · intro t ht
    obtain ⟨i, hi, h1, h2, h3, h4, hpt, h5⟩ := h.sub t ht
    refine ⟨i, hi, ?_⟩
    rw [hr i hi]
    exact ⟨h1, h2, h3, h4, fun hx => by rw [(hk.same i (h.ids i hi)).2.2.2]; exact hpt hx, fun hn x hx => hk.rname i (h.ids i hi) x (h5 hn x hx)⟩
  · intro i hi
    rw [hr i hi]; exact h.cc i hi
  · intro hp hs
    refine (h.sep hp (hk.noShorts hs)).imp_of_mem ?_
    intro i j hi hj hlt
    rw [hr i hi, hr j hj]; exact hlt

/-- Two shapes of the list with different net names are linked by touching shapes of the list. -/
def ShortIn (v : List Shape) : Prop := ∃ t ∈ v, ∃ u ∈ v, ∃ x y,
  t.label = .net x ∧ u.label = .net y ∧ x ≠ y ∧ LinkedIn v t u

theorem buildLine_spec (d : Dir) {s : St} (hf : Forest s.uf) (v : List Shape) :
    ∃ s' rects, buildLine d s v = some (s', rects) ∧ Keeps s s' ∧
      (∀ layer c, LineOK s' ⟨layer, d, c, rects⟩ v) ∧
      (Proper d v → ∀ e ∈ s'.shorts, e ∈ s.shorts ∨ ShortIn v) := by
  set w := pySort (fun a b : Shape => decide (a.rect.lo d ≤ b.rect.lo d)) v with hw
  have hmem : ∀ t, t ∈ w ↔ t ∈ v := fun t => mem_pySort
  have hp : (([] : List Shape) ++ w).Pairwise (fun a b => a.rect.lo d ≤ b.rect.lo d) := by
    have := pySort_pairwise (le := fun a b : Shape => decide (a.rect.lo d ≤ b.rect.lo d))
      (by intro a b c h1 h2; simp at *; omega) (by intro a b; simp; omega) v
    simpa using this
  obtain ⟨s', rects, he, hinv⟩ := LineInv.loop (LineInv.init d s hf) hp
  simp only [List.nil_append] at hinv
  have hnk : NamesKept v → NamesKept w := fun h t ht => h t ((hmem t).mp ht)
  have hpl : PlainLine d v → PlainLine d w := fun h =>
    ⟨fun t ht => h.1 t ((hmem t).mp ht), fun t ht u hu => h.2 t ((hmem t).mp ht) u ((hmem u).mp hu)⟩
  have hpr : Proper d v → Proper d w := fun h t ht => h t ((hmem t).mp ht)
  refine ⟨s', rects, he, ?_, ?_, ?_⟩
  · refine ⟨hinv.forest, hinv.le_n, fun i h => by rw [hinv.frame i h]; simp [SameBut], ?_, ?_, hinv.shorts⟩
    · rintro i h x ⟨r, hr, hx⟩
      exact ⟨r, hinv.froot i h r hr, by rw [hinv.frame r (RootOf.lt hf h hr)]; exact hx⟩
    · rintro i h j hj ⟨r, h1, h2⟩
      exact ⟨r, hinv.froot i h r h1, hinv.froot j hj r h2⟩
  · intro layer c
    refine ⟨fun i h => (hinv.ids i h).2, ?_, ?_, ?_, ?_⟩
    · intro z w'
      rw [hinv.cov z w']
      simp only [hmem]
    · intro t ht
      obtain ⟨i, hi, h1, h2, h3, h4, hpt, h5⟩ := hinv.sub t ((hmem t).mpr ht)
      exact ⟨i, hi, h1, h2, h3, h4, hpt, fun hn => h5 (hnk hn)⟩
    · intro i hi
      obtain ⟨t, ht, h⟩ := hinv.cc i hi
      exact ⟨t, (hmem t).mp ht, h⟩
    · exact fun h hs => hinv.sep (hpl h) hs
  · intro h e he
    rcases hinv.sound (hpr h) e he with h | ⟨t, ht, u, hu, x, y, h1, h2, h3, h4⟩
    · exact Or.inl h
    · exact Or.inr ⟨t, (hmem t).mp ht, u, (hmem u).mp hu, x, y, h1, h2, h3, h4.mono fun t => (hmem t).mp⟩

/-! ## Binning -/

theorem addBin_mem {κ α : Type} [DecidableEq κ] (k : κ) (a : α) (tbl : List (κ × List α))
    (hnd : (tbl.map Prod.fst).Nodup) (k' : κ) (v : List α) :
    (k', v) ∈ addBin k a tbl ↔
      (k' ≠ k ∧ (k', v) ∈ tbl) ∨ (k' = k ∧ ((∃ v', (k, v') ∈ tbl ∧ v = v' ++ [a]) ∨
        ((∀ v', (k, v') ∉ tbl) ∧ v = [a]))) := by
  induction tbl with
  | nil => simp [addBin]
  | cons e tl ih =>
    obtain ⟨k1, v1⟩ := e
    simp only [List.map_cons, List.nodup_cons] at hnd
    have hno : ∀ v', (k1, v') ∉ tl := fun v' h => hnd.1 (List.mem_map_of_mem (f := Prod.fst) h)
    simp only [addBin]
    by_cases hk : k1 = k
    · subst hk
      rw [if_pos rfl]
      simp only [List.mem_cons, Prod.mk.injEq]
      constructor
      · rintro (⟨rfl, rfl⟩ | h)
        · exact Or.inr ⟨rfl, Or.inl ⟨v1, Or.inl (by simp), rfl⟩⟩
        · exact Or.inl ⟨by rintro rfl; exact hno v h, Or.inr h⟩
      · rintro (⟨h1, ⟨h2, -⟩ | h2⟩ | ⟨rfl, ⟨v', ⟨-, rfl⟩ | h2, rfl⟩ | ⟨h2, rfl⟩⟩)
        · exact absurd h2 h1
        · exact Or.inr h2
        · exact Or.inl ⟨rfl, rfl⟩
        · exact absurd h2 (hno v')
        · exact absurd (Or.inl (by simp)) (h2 v1)
    · rw [if_neg hk]
      simp only [List.mem_cons, Prod.mk.injEq, ih hnd.2]
      have hk' : ∀ w : List α, ¬ (k = k1 ∧ w = v1) := fun w h => hk h.1.symm
      constructor
      · rintro (⟨rfl, rfl⟩ | ⟨h1, h2⟩ | ⟨rfl, ⟨v', h2, rfl⟩ | ⟨h2, rfl⟩⟩)
        · exact Or.inl ⟨hk, Or.inl ⟨rfl, rfl⟩⟩
        · exact Or.inl ⟨h1, Or.inr h2⟩
        · exact Or.inr ⟨rfl, Or.inl ⟨v', Or.inr h2, rfl⟩⟩
        · exact Or.inr ⟨rfl, Or.inr ⟨fun v' h => h.elim (hk' v') (h2 v'), rfl⟩⟩
      · rintro (⟨h1, ⟨rfl, rfl⟩ | h2⟩ | ⟨rfl, ⟨v', h2 | h2, rfl⟩ | ⟨h2, rfl⟩⟩)
        · exact Or.inl ⟨rfl, rfl⟩
        · exact Or.inr (Or.inl ⟨h1, h2⟩)
        · exact absurd h2 (hk' v')
        · exact Or.inr (Or.inr ⟨rfl, Or.inl ⟨v', h2, rfl⟩⟩)
        · exact Or.inr (Or.inr ⟨rfl, Or.inr ⟨fun v' h => h2 v' (Or.inr h), rfl⟩⟩)

theorem addBin_keys {κ α : Type} [DecidableEq κ] (k : κ) (a : α) (tbl : List (κ × List α))
    (hnd : (tbl.map Prod.fst).Nodup) : ((addBin k a tbl).map Prod.fst).Nodup := by
  have hk : ∀ tbl : List (κ × List α), ∀ k', k' ∈ (addBin k a tbl).map Prod.fst → k' = k ∨ k' ∈ tbl.map Prod.fst := by
    intro tbl
    induction tbl with
    | nil => simp [addBin]
    | cons e tl ih =>
      obtain ⟨k1, v1⟩ := e
      intro k' h
      simp only [addBin] at h
      split at h
      · simp only [List.map_cons, List.mem_cons] at h ⊢; exact Or.inr h
      · simp only [List.map_cons, List.mem_cons] at h ⊢
        rcases h with h | h
        · exact Or.inr (Or.inl h)
        · rcases ih k' h with h | h
          · exact Or.inl h
          · exact Or.inr (Or.inr h)
  induction tbl with
  | nil => simp [addBin]
  | cons e tl ih =>
    obtain ⟨k1, v1⟩ := e
    simp only [List.map_cons, List.nodup_cons] at hnd
    simp only [addBin]
    split
    · simp only [List.map_cons, List.nodup_cons]; exact hnd
    · rename_i hne
      simp only [List.map_cons, List.nodup_cons]
      refine ⟨fun h => ?_, ih hnd.2⟩
      rcases hk tl k1 h with h | h
      · exact hne h
      · exact hnd.1 h

/-- Grouping by key: each non-empty group once, in the original order. -/
theorem group_spec {κ α β : Type} [DecidableEq κ] (key : α → κ) (val : α → β) (ts : List α) :
    ((ts.foldl (fun tbl t => addBin (key t) (val t) tbl) ([] : List (κ × List β))).map Prod.fst).Nodup ∧
    ∀ k v, (k, v) ∈ ts.foldl (fun tbl t => addBin (key t) (val t) tbl) ([] : List (κ × List β)) ↔
      v ≠ [] ∧ v = (ts.filter fun t => decide (key t = k)).map val := by
  induction ts using List.reverseRecOn with
  | nil => simp
  | append_singleton ts t ih =>
    obtain ⟨hnd, hm⟩ := ih
    rw [List.foldl_append]
    simp only [List.foldl_cons, List.foldl_nil]
    refine ⟨addBin_keys _ _ _ hnd, ?_⟩
    intro k v
    rw [addBin_mem _ _ _ hnd, List.filter_append, List.map_append]
    by_cases hk : k = key t
    · subst hk
      simp only [ne_eq, not_true_eq_false, false_and, true_and, false_or, hm, List.filter_cons,
        decide_true, if_true, List.filter_nil, List.map_cons, List.map_nil]
      constructor
      · rintro (⟨v', ⟨-, rfl⟩, rfl⟩ | ⟨h, rfl⟩)
        · simp
        · refine ⟨by simp, ?_⟩
          have := h ((ts.filter fun u => decide (key u = key t)).map val)
          simp only [not_and, not_true_eq_false, imp_false, not_not] at this
          rw [this]; simp
      · rintro ⟨-, rfl⟩
        by_cases he : (ts.filter fun u => decide (key u = key t)).map val = []
        · right; rw [he]
          refine ⟨?_, by simp⟩
          rintro v' ⟨h1, h2⟩; exact h1 h2
        · left; exact ⟨_, ⟨he, rfl⟩, rfl⟩
    · have : decide (key t = k) = false := by simp; exact fun h => hk h.symm
      simp [hk, hm, this]

theorem centerlines_mem (d : Dir) (ts : List Shape) (c : Int) (v : List Shape) :
    (c, v) ∈ centerlines d ts ↔ v ≠ [] ∧ v = ts.filter fun t => decide (t.rect.c0 d + t.rect.c1 d = c) := by
  have := (group_spec (fun t : Shape => t.rect.c0 d + t.rect.c1 d) (fun t => t) ts).2 c v
  simpa [centerlines] using this

/-! ## All lines -/

theorem buildLayer_spec (layer : String) (d : Dir) : ∀ (tbl : List (Int × List Shape)) {s : St}, Forest s.uf →
    ∃ s' ls, buildLayer s layer d tbl = some (s', ls) ∧ Keeps s s' ∧
      (∀ l ∈ ls, l.layer = layer ∧ l.dir = d ∧ ∃ v, (l.center, v) ∈ tbl ∧ LineOK s' l v) ∧
      (∀ c v, (c, v) ∈ tbl → ∃ l ∈ ls, l.layer = layer ∧ l.dir = d ∧ l.center = c ∧ LineOK s' l v) ∧
      (∀ e ∈ s'.shorts, e ∈ s.shorts ∨ ∃ c v, (c, v) ∈ tbl ∧ (Proper d v → ShortIn v)) := by
  intro tbl
  induction tbl with
  | nil => intro s hf; exact ⟨s, [], rfl, Keeps.refl hf, by simp, by simp, fun e he => Or.inl he⟩
  | cons e tl ih =>
    obtain ⟨c, v⟩ := e
    intro s hf
    obtain ⟨s1, rects, h1, hk1, hok1, hs1⟩ := buildLine_spec d hf v
    obtain ⟨s2, ls, h2, hk2, ha, hb, hs2⟩ := ih hk1.forest
    refine ⟨s2, ⟨layer, d, c, rects⟩ :: ls, by simp [buildLayer, h1, h2], hk1.trans hk2, ?_, ?_, ?_⟩
    · intro l hl
      rcases List.mem_cons.mp hl with rfl | hl
      · exact ⟨rfl, rfl, v, by simp, (hok1 layer c).keeps hk2⟩
      · obtain ⟨a1, a2, v', a3, a4⟩ := ha l hl
        exact ⟨a1, a2, v', List.mem_cons_of_mem _ a3, a4⟩
    · intro c' v' h
      rcases List.mem_cons.mp h with h | h
      · obtain ⟨rfl, rfl⟩ := Prod.mk.injEq .. ▸ h
        exact ⟨_, by simp, rfl, rfl, rfl, (hok1 layer _).keeps hk2⟩
      · obtain ⟨l, hl, h⟩ := hb c' v' h
        exact ⟨l, List.mem_cons_of_mem _ hl, h⟩
    · intro e he
      rcases hs2 e he with h | ⟨c', v', h, hp⟩
      · by_cases hmem : e ∈ s.shorts
        · exact Or.inl hmem
        · refine Or.inr ⟨c, v, by simp, fun hp => ?_⟩
          rcases hs1 hp e h with h' | h'
          · exact absurd h' hmem
          · exact h'
      · exact Or.inr ⟨c', v', List.mem_cons_of_mem _ h, hp⟩

/-- The shapes of one layer with a given doubled centre line. -/
def onLine (ts : List Shape) (layer : String) (d : Dir) (c : Int) : List Shape :=
  ts.filter fun t => decide (t.layer = layer ∧ t.rect.c0 d + t.rect.c1 d = c)

theorem centerlines_layer (skip : List String) (ts : List Shape) (layer : String) (d : Dir) (c : Int)
    (v : List Shape) :
    (c, v) ∈ centerlines d (ts.filter fun t => decide (t.layer = layer) && !skip.contains layer) ↔
      layer ∉ skip ∧ v ≠ [] ∧ v = onLine ts layer d c := by
  rw [centerlines_mem, List.filter_filter]
  by_cases hs : layer ∈ skip
  · simp only [hs, not_true_eq_false, false_and, iff_false, not_and]
    intro h1 h2
    apply h1; rw [h2]
    simp [hs]
  · simp only [hs, not_false_eq_true, true_and, onLine]
    have : (List.filter (fun a => decide (a.rect.c0 d + a.rect.c1 d = c) && (decide (a.layer = layer) && !skip.contains layer)) ts)
        = ts.filter fun t => decide (t.layer = layer ∧ t.rect.c0 d + t.rect.c1 d = c) := by
      apply List.filter_congr
      intro t _
      simp [hs, and_comm, Bool.and_comm]
    rw [this]

theorem buildScanLines_spec (skip : List String) (ts : List Shape) : ∀ (layers : List (String × Dir)) {s : St},
    Forest s.uf → ∃ s' ls, buildScanLines skip ts s layers = some (s', ls) ∧ Keeps s s' ∧
      (∀ l ∈ ls, (l.layer, l.dir) ∈ layers ∧ l.layer ∉ skip ∧ onLine ts l.layer l.dir l.center ≠ [] ∧
        LineOK s' l (onLine ts l.layer l.dir l.center)) ∧
      (∀ layer d c, (layer, d) ∈ layers → layer ∉ skip → onLine ts layer d c ≠ [] →
        ∃ l ∈ ls, l.layer = layer ∧ l.dir = d ∧ l.center = c) ∧
      (∀ e ∈ s'.shorts, e ∈ s.shorts ∨ ∃ layer d c, (layer, d) ∈ layers ∧ layer ∉ skip ∧
        (Proper d (onLine ts layer d c) → ShortIn (onLine ts layer d c))) := by
  intro layers
  induction layers with
  | nil => intro s hf; exact ⟨s, [], rfl, Keeps.refl hf, by simp, by simp, fun e he => Or.inl he⟩
  | cons e tl ih =>
    obtain ⟨layer, d⟩ := e
    intro s hf
    obtain ⟨s1, l1, h1, hk1, ha1, hb1, hs1⟩ := buildLayer_spec layer d
      (centerlines d (ts.filter fun t => decide (t.layer = layer) && !skip.contains layer)) hf
    obtain ⟨s2, l2, h2, hk2, ha2, hb2, hs2⟩ := ih hk1.forest
    refine ⟨s2, l1 ++ l2, by simp only [buildScanLines, h1]; simp [h2], hk1.trans hk2, ?_, ?_, ?_⟩
    · intro l hl
      rcases List.mem_append.mp hl with hl | hl
      · obtain ⟨a1, a2, v, a3, a4⟩ := ha1 l hl
        rw [centerlines_layer] at a3
        obtain ⟨b1, b2, b3⟩ := a3
        subst b3
        rw [a1, a2]
        exact ⟨by simp, b1, b2, a4.keeps hk2⟩
      · obtain ⟨a1, a2⟩ := ha2 l hl
        exact ⟨List.mem_cons_of_mem _ a1, a2⟩
    · intro layer' d' c hmem hskip hne
      rcases List.mem_cons.mp hmem with h | h
      · obtain ⟨rfl, rfl⟩ := Prod.mk.injEq .. ▸ h
        obtain ⟨l, hl, a1, a2, a3, -⟩ := hb1 c _ ((centerlines_layer _ _ _ _ _ _).mpr ⟨hskip, hne, rfl⟩)
        exact ⟨l, List.mem_append_left _ hl, a1, a2, a3⟩
      · obtain ⟨l, hl, a⟩ := hb2 layer' d' c h hskip hne
        exact ⟨l, List.mem_append_right _ hl, a⟩
    · intro e he
      rcases hs2 e he with h | ⟨layer', d', c, h3, h4⟩
      · rcases hs1 e h with h | ⟨c, v, h3, h4⟩
        · exact Or.inl h
        · rw [centerlines_layer] at h3
          obtain ⟨b1, b2, b3⟩ := h3
          subst b3
          exact Or.inr ⟨layer, d, c, by simp, b1, h4⟩
      · exact Or.inr ⟨layer', d', c, List.mem_cons_of_mem _ h3, h4⟩

/-! ## Vias -/

theorem forest_init : Forest St.init.uf := Inv.init.forest

/-- `connectPair` on two roots: names survive, and without a short the two are connected. -/
theorem connectRoots_keeps {s s' : St} {ra rb : Nat} {ok : Bool} (hf : Forest s.uf) (ha : ra < s.uf.n) (hb : rb < s.uf.n)
    (hra : RootOf s.uf ra ra) (hrb : RootOf s.uf rb rb) (h : connectPair s ra rb = some (s', ok)) :
    Keeps s s' ∧ s'.uf.n = s.uf.n ∧ (s'.shorts = [] → Conn s' ra rb) := by
  obtain ⟨s2, ok2, he, hf2, hn2, hsame, -, hcase⟩ := connectPair_spec hf ha hb
  rw [h] at he
  simp only [Option.some.injEq, Prod.mk.injEq] at he
  obtain ⟨rfl, rfl⟩ := he
  rcases hcase with ⟨hc, hsh, hname, a', b', ha', hb', hroot⟩ | ⟨hnc, hsh, hnode, huf⟩
  · obtain rfl := hra.unique ha'
    obtain rfl := hrb.unique hb'
    refine ⟨⟨hf2, by omega, fun i _ => hsame i, ?_, ?_, ⟨[], by simp [hsh]⟩⟩, hn2, ?_⟩
    · rintro i hi x ⟨r, hr, hx⟩
      refine ⟨_, hroot i r hr, ?_⟩
      rw [hname]
      by_cases h1 : r = rb
      · subst h1
        simp only [if_true, true_or]
        rcases hc with h | h | h
        · rw [h, hx]; rfl
        · rw [h] at hx; simp at hx
        · rw [h, hx]; rfl
      · rw [if_neg h1]
        by_cases h2 : r = ra
        · subst h2; simp [hx]
        · simp [h1, h2, hx]
    · rintro i hi j hj ⟨r, h1, h2⟩
      exact ⟨_, hroot i r h1, hroot j r h2⟩
    · intro _
      refine ⟨ra, ?_, ?_⟩
      · have := hroot ra ra hra
        by_cases h : ra = rb
        · simpa [h] using this
        · simpa [h] using this
      · simpa using hroot rb rb hrb
  · refine ⟨⟨hf2, by omega, fun i _ => hsame i, ?_, ?_, ⟨_, hsh⟩⟩, hn2, ?_⟩
    · rintro i hi x ⟨r, hr, hx⟩; exact ⟨r, by rw [huf]; exact hr, by rw [hnode]; exact hx⟩
    · rintro i hi j hj ⟨r, h1, h2⟩; exact ⟨r, by rw [huf]; exact h1, by rw [huf]; exact h2⟩
    · intro hs; rw [hsh] at hs; simp at hs

/-- Two root lookups followed by `connectPair` on the roots. -/
theorem lookupConnect {s s' : St} {a b : Nat} (hf : Forest s.uf) (ha : a < s.uf.n) (hb : b < s.uf.n)
    (h : (do
      let (u1, ra) ← s.uf.root a
      let (u2, rb) ← u1.root b
      let (s', _) ← connectPair { s with uf := u2 } ra rb
      some s' : Option St) = some s') :
    Keeps s s' ∧ s'.uf.n = s.uf.n ∧ (s'.shorts = [] → Conn s' a b) := by
  obtain ⟨u1, ra, h1, hra, hran, hn1, hf1, he1⟩ := root_spec hf ha
  obtain ⟨u2, rb, h2, hrb, hrbn, hn2, hf2, he2⟩ := root_spec hf1 (x := b) (by omega)
  have e12 : ∀ y r, RootOf s.uf y r ↔ RootOf u2 y r := fun y r => (he1 y r).trans (he2 y r)
  rw [h1] at h
  simp only [Option.bind_eq_bind, Option.bind_some, h2] at h
  obtain ⟨⟨s2, ok⟩, hcp, hs2⟩ := Option.bind_eq_some_iff.mp h
  simp only [Option.some.injEq] at hs2
  subst hs2
  have hn : ({ s with uf := u2 } : St).uf.n = s.uf.n := by simp [hn1, hn2]
  have hrb' : RootOf s.uf b rb := (he1 _ _).mpr hrb
  obtain ⟨hk, hnk, hc⟩ := connectRoots_keeps (s := { s with uf := u2 }) hf2 (by rw [hn]; exact hran)
    (by rw [hn]; omega) ((e12 _ _).mp hra.self) ((e12 _ _).mp hrb'.self) hcp
  have hk0 : Keeps s { s with uf := u2 } := by
    refine ⟨hf2, by rw [hn], fun i _ => by simp [SameBut], ?_, ?_, ⟨[], by simp⟩⟩
    · rintro i _ x ⟨r, hr, hx⟩; exact ⟨r, (e12 _ _).mp hr, hx⟩
    · rintro i _ j _ ⟨r, h1, h2⟩; exact ⟨r, (e12 _ _).mp h1, (e12 _ _).mp h2⟩
  refine ⟨hk0.trans hk, by rw [hnk, hn], fun hs => ?_⟩
  have c1 : Conn s2 ra rb := hc hs
  have ca : Conn s2 a ra := hk.conn a (by rw [hn]; exact ha) ra (by rw [hn]; exact hran)
    ⟨ra, (e12 _ _).mp hra, (e12 _ _).mp hra.self⟩
  have cb : Conn s2 b rb := hk.conn b (by rw [hn]; exact hb) rb (by rw [hn]; omega)
    ⟨rb, (e12 _ _).mp hrb', (e12 _ _).mp hrb'.self⟩
  obtain ⟨r1, x1, x2⟩ := c1
  obtain ⟨r2, y1, y2⟩ := ca
  obtain ⟨r3, z1, z2⟩ := cb
  obtain rfl := x1.unique y2
  obtain rfl := x2.unique z2
  exact ⟨_, y1, z1⟩

theorem Conn.symm {s : St} {i j : Nat} (h : Conn s i j) : Conn s j i := by
  obtain ⟨r, h1, h2⟩ := h; exact ⟨r, h2, h1⟩

theorem findTouching_lt {s : St} {r : Rect} {rects : List Nat} {m : Nat} (h : findTouching s r rects = some m)
    (hr : ∀ i ∈ rects, i < s.uf.n) : m < s.uf.n ∧ m ∈ rects ∧ touching r (s.node m).rect = true := by
  have h1 := List.mem_of_find?_eq_some h
  exact ⟨hr m h1, h1, List.find?_some (p := fun i => touching r (s.node i).rect) h⟩

theorem viaV_spec {s s' : St} {ml : Line} {v : Nat} (hf : Forest s.uf) (hv : v < s.uf.n)
    (hr : ∀ i ∈ ml.rects, i < s.uf.n) (h : viaV s ml v = some s') :
    Keeps s s' ∧ s'.uf.n = s.uf.n ∧ ∃ m, findTouching s (s.node v).rect ml.rects = some m ∧
      (s'.shorts = [] → Conn s' v m) := by
  unfold viaV at h
  simp only [Option.bind_eq_bind] at h
  obtain ⟨m, hm, h2⟩ := Option.bind_eq_some_iff.mp h
  obtain ⟨hml, -, -⟩ := findTouching_lt hm hr
  obtain ⟨hk, hn, hc⟩ := lookupConnect hf hml hv h2
  exact ⟨hk, hn, m, hm, fun hs => (hc hs).symm⟩

theorem viaH_spec {s s' : St} {ls : List Line} {mh : String} {v : Nat} (hf : Forest s.uf) (hv : v < s.uf.n)
    (hr : ∀ l ∈ ls, ∀ i ∈ l.rects, i < s.uf.n) (h : viaH s ls mh v = some s') :
    Keeps s s' ∧ s'.uf.n = s.uf.n ∧
      ∀ ml, findLine ls mh ((s.node v).rect.y0 + (s.node v).rect.y1) = some ml →
        ∃ m, findTouching s (s.node v).rect ml.rects = some m ∧ (s'.shorts = [] → Conn s' v m) := by
  unfold viaH at h
  split at h
  · rename_i hnone
    simp only [Option.some.injEq] at h
    subst h
    exact ⟨Keeps.refl hf, rfl, by rw [hnone]; simp⟩
  · rename_i ml hsome
    have hml : ml ∈ ls := List.mem_of_find?_eq_some hsome
    simp only [Option.bind_eq_bind] at h
    obtain ⟨m, hm, h2⟩ := Option.bind_eq_some_iff.mp h
    obtain ⟨hmlt, -, -⟩ := findTouching_lt hm (hr ml hml)
    obtain ⟨hk, hn, hc⟩ := lookupConnect hf hv hmlt h2
    refine ⟨hk, hn, ?_⟩
    intro ml' h'
    rw [hsome] at h'
    simp only [Option.some.injEq] at h'
    subst h'
    exact ⟨m, hm, hc⟩

/-- Folding a step that keeps things, with a goal that later steps keep. -/
theorem foldlM_keeps {α : Type} {f : St → α → Option St} {P : St → α → Prop} {n : Nat} :
    ∀ (l : List α), (∀ a ∈ l, ∀ s s', Forest s.uf → s.uf.n = n → f s a = some s' →
        Keeps s s' ∧ s'.uf.n = n ∧ P s' a) →
      (∀ a ∈ l, ∀ s s', s.uf.n = n → Keeps s s' → P s a → P s' a) →
      ∀ {s s' : St}, Forest s.uf → s.uf.n = n → l.foldlM f s = some s' →
        Keeps s s' ∧ s'.uf.n = n ∧ ∀ a ∈ l, P s' a := by
  intro l
  induction l with
  | nil =>
    intro _ _ s s' hf hn h
    simp only [List.foldlM_nil, Option.pure_def, Option.some.injEq] at h
    subst h
    exact ⟨Keeps.refl hf, hn, by simp⟩
  | cons a l ih =>
    intro hstep hP s s' hf hn h
    rw [List.foldlM_cons] at h
    simp only [Option.bind_eq_bind] at h
    obtain ⟨s1, h1, h2⟩ := Option.bind_eq_some_iff.mp h
    obtain ⟨hk1, hn1, hp1⟩ := hstep a (by simp) s s1 hf hn h1
    obtain ⟨hk2, hn2, hp2⟩ := ih (fun b hb => hstep b (List.mem_cons_of_mem _ hb))
      (fun b hb => hP b (List.mem_cons_of_mem _ hb)) hk1.forest hn1 h2
    refine ⟨hk1.trans hk2, hn2, ?_⟩
    intro b hb
    rcases List.mem_cons.mp hb with rfl | hb
    · exact hP b (by simp) s1 s' hn1 hk2 hp1
    · exact hp2 b hb

end Verif.RemoveDup

import Verif.Pnr.Charge
import Verif.Hier.HpwlProps

/-! # C83: the currents between pins -/

namespace Verif.Charge

/-! ## Specification -/

/-- The pin is on the net. -/
def onNet (insts : List Inst) (n : String) (p : Pin) : Bool :=
  insts.any fun x => x.conn.any fun pn => decide (pn.2 = n) && decide (x.name ++ "/" ++ pn.1 = p)

/-- The pins on the net for which the constraint gives a current. -/
def carriers (insts : List Inst) (k : Flow) (n : String) : List Pin := (k.cur.map Prod.fst).filter (onNet insts n)

/-- The current of a pin at a time. -/
def I (k : Flow) (i : Nat) (p : Pin) : Rat := ((k.cur.lookup p).getD []).getD i 0

/-- The sum of the currents of the sources among some pins. -/
def supply (k : Flow) (i : Nat) (ps : List Pin) : Rat := ((ps.filter fun p => decide (0 ≤ I k i p)).map (I k i)).sum

/-- The current between two of the pins: what the sink takes is split between the sources in proportion to what they give. -/
def share (k : Flow) (ps : List Pin) (i : Nat) (a b : Pin) : Rat :=
  if 0 ≤ I k i a ∧ I k i b < 0 then |I k i b| * I k i a / supply k i ps
  else if I k i a < 0 ∧ 0 ≤ I k i b then |I k i a| * I k i b / supply k i ps
  else 0

/-- The mean over time of the square of a quantity that is given at the times of the constraint. -/
def meanSq (k : Flow) (x : Nat → Rat) : Rat :=
  ((List.range (k.time.length - 1)).map fun i => (k.time.getD (i + 1) 0 - k.time.getD i 0) * ((x i + x (i + 1)) / 2) ^ 2).sum /
    (k.time.getD (k.time.length - 1) 0 - k.time.getD 0 0)

/-- The currents on the net add up to zero. -/
def Kirchhoff (k : Flow) (i : Nat) (ps : List Pin) : Prop := (ps.map (I k i)).sum = 0

/-! ## Sums -/

theorem sum_filter_mul (l : List Pin) (f : Pin → Rat) (p : Pin → Bool) (c s : Rat) :
    (l.map fun a => if p a then c * f a / s else 0).sum = c * ((l.filter p).map f).sum / s := by
  induction l with
  | nil => simp
  | cons a l ih =>
    rw [List.map_cons, List.sum_cons, ih, List.filter_cons]
    by_cases h : p a
    · simp only [h, if_true, List.map_cons, List.sum_cons]; ring
    · simp only [h, Bool.false_eq_true, if_false]; ring

theorem sum_split (l : List Pin) (f : Pin → Rat) (p : Pin → Bool) :
    (l.map f).sum = ((l.filter p).map f).sum + ((l.filter fun a => !p a).map f).sum := by
  induction l with
  | nil => simp
  | cons a l ih =>
    rw [List.map_cons, List.sum_cons, ih, List.filter_cons, List.filter_cons]
    cases p a <;> simp <;> ring

theorem sum_nonneg {l : List Rat} (h : ∀ x ∈ l, 0 ≤ x) : 0 ≤ l.sum := by
  induction l with
  | nil => simp
  | cons a l ih =>
    rw [List.sum_cons]
    have := ih fun x hx => h x (List.mem_cons_of_mem _ hx)
    have := h a List.mem_cons_self
    linarith

theorem le_sum {l : List Rat} (h : ∀ x ∈ l, 0 ≤ x) {a : Rat} (ha : a ∈ l) : a ≤ l.sum := by
  induction l with
  | nil => simp at ha
  | cons b l ih =>
    rw [List.sum_cons]
    have h1 := sum_nonneg fun x hx => h x (List.mem_cons_of_mem _ hx)
    have h2 := h b List.mem_cons_self
    rcases List.mem_cons.1 ha with rfl | ha
    · linarith
    · have := ih (fun x hx => h x (List.mem_cons_of_mem _ hx)) ha
      linarith

theorem supply_nonneg (k : Flow) (i : Nat) (ps : List Pin) : 0 ≤ supply k i ps := by
  apply sum_nonneg
  intro x hx
  obtain ⟨p, hp, rfl⟩ := List.mem_map.1 hx
  simpa using (List.mem_filter.1 hp).2

theorem le_supply {k : Flow} {i : Nat} {ps : List Pin} {p : Pin} (hp : p ∈ ps) (h : 0 ≤ I k i p) : I k i p ≤ supply k i ps := by
  apply le_sum
  · intro x hx
    obtain ⟨p, hp, rfl⟩ := List.mem_map.1 hx
    simpa using (List.mem_filter.1 hp).2
  · exact List.mem_map.2 ⟨p, List.mem_filter.2 ⟨hp, by simpa using h⟩, rfl⟩

/-- With Kirchhoff's law, what the sinks take is what the sources give. -/
theorem demand {k : Flow} {i : Nat} {ps : List Pin} (h : Kirchhoff k i ps) :
    ((ps.filter fun p => !decide (0 ≤ I k i p)).map fun p => |I k i p|).sum = supply k i ps := by
  have h1 := sum_split ps (I k i) fun p => decide (0 ≤ I k i p)
  rw [h] at h1
  have h2 : ((ps.filter fun p => !decide (0 ≤ I k i p)).map fun p => |I k i p|).sum =
      -((ps.filter fun p => !decide (0 ≤ I k i p)).map (I k i)).sum := by
    have : ∀ l : List Pin, (∀ p ∈ l, I k i p < 0) → (l.map fun p => |I k i p|).sum = -(l.map (I k i)).sum := by
      intro l hl
      induction l with
      | nil => simp
      | cons a l ih =>
        rw [List.map_cons, List.sum_cons, List.map_cons, List.sum_cons, ih fun p hp => hl p (List.mem_cons_of_mem _ hp),
          abs_of_neg (hl a List.mem_cons_self)]
        ring
    apply this
    intro p hp
    simpa using (List.mem_filter.1 hp).2
  rw [h2]
  unfold supply
  linarith

/-- **C83.**  Where Kirchhoff's law holds, the currents between a pin and the other pins add up to the current of the pin. -/
theorem C83_conserve {k : Flow} {i : Nat} {ps : List Pin} (h : Kirchhoff k i ps) {b : Pin} (hb : b ∈ ps) :
    (ps.map fun a => share k ps i a b).sum = |I k i b| := by
  by_cases hs : 0 ≤ I k i b
  · have e : (fun a => share k ps i a b) = fun a => if (!decide (0 ≤ I k i a)) then I k i b * |I k i a| / supply k i ps else 0 := by
      funext a
      unfold share
      rw [if_neg (by rintro ⟨_, h⟩; linarith)]
      by_cases ha : 0 ≤ I k i a
      · simp [ha, not_lt.2 ha]
      · simp [ha, not_le.1 ha, hs, mul_comm]
    rw [e, sum_filter_mul ps (fun p => |I k i p|), demand h, abs_of_nonneg hs]
    by_cases hz : supply k i ps = 0
    · have := le_supply hb hs
      have : I k i b = 0 := by linarith
      rw [hz, this]; simp
    · field_simp
  · have hneg := not_le.1 hs
    have e : (fun a => share k ps i a b) = fun a => if (decide (0 ≤ I k i a)) then |I k i b| * I k i a / supply k i ps else 0 := by
      funext a
      unfold share
      by_cases ha : 0 ≤ I k i a
      · simp [ha, hneg]
      · simp [ha, hs]
    rw [e, sum_filter_mul ps (I k i)]
    have hpos : supply k i ps ≠ 0 := by
      intro hz
      have h1 := demand h
      rw [hz] at h1
      have h2 : |I k i b| ≤ 0 := by
        rw [← h1]
        apply le_sum
        · intro x hx
          obtain ⟨p, _, rfl⟩ := List.mem_map.1 hx
          exact abs_nonneg _
        · exact List.mem_map.2 ⟨b, List.mem_filter.2 ⟨hb, by simpa using hneg⟩, rfl⟩
      have := abs_pos.2 (ne_of_lt hneg)
      linarith
    change |I k i b| * supply k i ps / supply k i ps = _
    field_simp

/-! ## The dictionary of pairs -/

/-- The entry for a pair, in either order. -/
def entry (pp : PP) (a b : Pin) : Option (List Rat) := (pp.lookup (a, b)).or (pp.lookup (b, a))

/-- The current of a pair. -/
def pairAt (pp : PP) (a b : Pin) (i : Nat) : Rat := ((entry pp a b).getD []).getD i 0

structure Fine (T : Nat) (pp : PP) : Prop where
  keys : (pp.map Prod.fst).Nodup
  once : ∀ a b, (pp.lookup (a, b)).isSome → (pp.lookup (b, a)).isSome → a = b
  irr : ∀ e ∈ pp, e.1.1 ≠ e.1.2
  len : ∀ e ∈ pp, e.2.length = T

theorem lookup_update (pp : PP) (k k' : Pin × Pin) (i : Nat) (v : Rat) :
    (update pp k i v).lookup k' = if k' = k then (pp.lookup k').map fun l => l.set i v else pp.lookup k' := by
  induction pp with
  | nil => simp [update]
  | cons e pp ih =>
    unfold update at ih ⊢
    rw [List.map_cons, List.lookup_cons, List.lookup_cons, ih]
    by_cases he : e.1 = k
    · rw [if_pos he]
      by_cases hk : k' = e.1
      · subst hk; simp [he]
      · have : k' ≠ k := fun h => hk (h.trans he.symm)
        simp [beq_eq_false_iff_ne.2 hk, this]
    · rw [if_neg he]
      by_cases hk : k' = e.1
      · subst hk; simp [he]
      · simp [beq_eq_false_iff_ne.2 hk]

theorem lookup_snoc (pp : PP) (k k' : Pin × Pin) (l : List Rat) :
    (pp ++ [(k, l)]).lookup k' = (pp.lookup k').or (if k' = k then some l else none) := by
  induction pp with
  | nil =>
    by_cases h : k' = k
    · subst h; simp
    · simp [List.lookup, beq_eq_false_iff_ne.2 h, h]
  | cons e pp ih =>
    rw [List.cons_append, List.lookup_cons, List.lookup_cons, ih]
    by_cases h : k' = e.1
    · subst h; simp
    · simp [beq_eq_false_iff_ne.2 h]

theorem lookup_len {T : Nat} {pp : PP} (h : Fine T pp) {k : Pin × Pin} {l : List Rat} (hl : pp.lookup k = some l) : l.length = T :=
  h.len (k, l) (Hier.lookup_mem hl)

theorem fine_snoc {T : Nat} {pp : PP} (h : Fine T pp) {a b : Pin} (hab : a ≠ b) (h1 : pp.lookup (a, b) = none)
    (h2 : pp.lookup (b, a) = none) : Fine T (pp ++ [((a, b), List.replicate T 0)]) := by
  constructor
  · rw [List.map_append, List.nodup_append]
    refine ⟨h.keys, by simp, ?_⟩
    intro x hx y hy
    simp only [List.map_cons, List.map_nil, List.mem_singleton] at hy
    subst hy
    rintro rfl
    obtain ⟨e, he, hek⟩ := List.mem_map.1 hx
    have : ((a, b), e.2) ∈ pp := by rw [← hek]; exact he
    rw [(Hier.lookup_iff_mem h.keys).2 this] at h1
    simp at h1
  · intro c d hc hd
    rw [lookup_snoc] at hc hd
    by_cases e1 : (c, d) = (a, b)
    · simp only [Prod.mk.injEq] at e1
      obtain ⟨rfl, rfl⟩ := e1
      rw [h2, if_neg (by simp only [Prod.mk.injEq, not_and]; intro h; exact absurd h.symm hab)] at hd
      simp at hd
    · by_cases e2 : (d, c) = (a, b)
      · simp only [Prod.mk.injEq] at e2
        obtain ⟨rfl, rfl⟩ := e2
        rw [h2, if_neg e1] at hc
        simp at hc
      · rw [if_neg e1, Option.or_none] at hc
        rw [if_neg e2, Option.or_none] at hd
        exact h.once c d hc hd
  · intro e he
    rcases List.mem_append.1 he with he | he
    · exact h.irr e he
    · rw [List.mem_singleton] at he; subst he; exact hab
  · intro e he
    rcases List.mem_append.1 he with he | he
    · exact h.len e he
    · rw [List.mem_singleton] at he; subst he; simp

theorem fine_update {T : Nat} {pp : PP} (h : Fine T pp) (k : Pin × Pin) (i : Nat) (v : Rat) : Fine T (update pp k i v) := by
  have hk : (update pp k i v).map Prod.fst = pp.map Prod.fst := by
    unfold update
    rw [List.map_map]
    apply List.map_congr_left
    intro e _
    simp only [Function.comp_apply]
    split <;> rfl
  have hl : ∀ k', ((update pp k i v).lookup k').isSome = (pp.lookup k').isSome := by
    intro k'
    rw [lookup_update]
    split
    · rw [Option.isSome_map]
    · rfl
  constructor
  · rw [hk]; exact h.keys
  · intro a b ha hb
    rw [hl] at ha hb
    exact h.once a b ha hb
  · intro e he
    obtain ⟨d, hd, rfl⟩ := List.mem_map.1 he
    have := h.irr d hd
    split <;> exact this
  · intro e he
    obtain ⟨d, hd, rfl⟩ := List.mem_map.1 he
    have := h.len d hd
    split
    · simpa using this
    · exact this

theorem entry_comm {T : Nat} {pp : PP} (h : Fine T pp) (a b : Pin) : entry pp a b = entry pp b a := by
  unfold entry
  cases h1 : pp.lookup (a, b) with
  | none => cases pp.lookup (b, a) <;> rfl
  | some l =>
    cases h2 : pp.lookup (b, a) with
    | none => rfl
    | some m =>
      have := h.once a b (by rw [h1]; rfl) (by rw [h2]; rfl)
      subst this
      rw [h1] at h2
      cases h2
      rfl

theorem entry_update {T : Nat} {pp : PP} (h : Fine T pp) {s t : Pin} (hs : (pp.lookup (s, t)).isSome) (i : Nat) (v : Rat) (a b : Pin) :
    entry (update pp (s, t) i v) a b =
      if (a = s ∧ b = t) ∨ (a = t ∧ b = s) then (entry pp a b).map fun l => l.set i v else entry pp a b := by
  have hst : s ≠ t := by
    obtain ⟨l, hl⟩ := Option.isSome_iff_exists.1 hs
    exact h.irr _ (Hier.lookup_mem hl)
  have hrev : pp.lookup (t, s) = none := by
    by_contra hc
    exact hst (h.once s t hs (Option.ne_none_iff_isSome.1 hc))
  unfold entry
  rw [lookup_update, lookup_update]
  by_cases h1 : a = s ∧ b = t
  · obtain ⟨rfl, rfl⟩ := h1
    have hn : ¬ ((b, a) = (a, b)) := by
      simp only [Prod.mk.injEq, not_and]
      intro h; exact absurd h.symm hst
    rw [if_pos rfl, if_neg hn, if_pos (Or.inl ⟨rfl, rfl⟩), hrev]
    cases pp.lookup (a, b) <;> rfl
  · by_cases h2 : a = t ∧ b = s
    · obtain ⟨rfl, rfl⟩ := h2
      have hn : ¬ ((a, b) = (b, a)) := by
        simp only [Prod.mk.injEq, not_and]
        intro h; exact absurd h.symm hst
      rw [if_neg hn, if_pos rfl, if_pos (Or.inr ⟨rfl, rfl⟩), hrev]
      cases pp.lookup (b, a) <;> rfl
    · rw [if_neg (by simpa using h1), if_neg (by simp only [Prod.mk.injEq]; rintro ⟨rfl, rfl⟩; exact h2 ⟨rfl, rfl⟩), if_neg (by tauto)]

/-- One assignment: it makes or changes the entry of the pair, and nothing else. -/
theorem setPair_spec {T : Nat} {pp : PP} (h : Fine T pp) {src snk : Pin} (hne : src ≠ snk) {i : Nat} (v : Rat) :
    Fine T (setPair T pp src snk i v) ∧ ∀ a b, entry (setPair T pp src snk i v) a b =
      if (a = src ∧ b = snk) ∨ (a = snk ∧ b = src) then some (((entry pp a b).getD (List.replicate T 0)).set i v) else entry pp a b := by
  unfold setPair
  simp only
  by_cases hnone : ((pp.lookup (src, snk)).isNone && (pp.lookup (snk, src)).isNone) = true
  · rw [if_pos hnone]
    simp only [Bool.and_eq_true, Option.isNone_iff_eq_none] at hnone
    have hf := fine_snoc h hne hnone.1 hnone.2
    have hs : ((pp ++ [((src, snk), List.replicate T 0)]).lookup (src, snk)).isSome := by
      rw [lookup_snoc]; simp
    rw [if_pos hs]
    refine ⟨fine_update hf _ _ _, ?_⟩
    intro a b
    rw [entry_update hf hs]
    have he : entry (pp ++ [((src, snk), List.replicate T 0)]) a b =
        if (a = src ∧ b = snk) ∨ (a = snk ∧ b = src) then some (List.replicate T 0) else entry pp a b := by
      unfold entry
      rw [lookup_snoc, lookup_snoc]
      by_cases h1 : a = src ∧ b = snk
      · obtain ⟨rfl, rfl⟩ := h1
        have hn : ¬ ((b, a) = (a, b)) := by
          simp only [Prod.mk.injEq, not_and]
          intro h; exact absurd h.symm hne
        rw [if_pos rfl, if_neg hn, if_pos (Or.inl ⟨rfl, rfl⟩), hnone.1]; rfl
      · by_cases h2 : a = snk ∧ b = src
        · obtain ⟨rfl, rfl⟩ := h2
          rw [if_neg (by simp only [Prod.mk.injEq, not_and]; intro h; exact absurd h.symm hne), if_pos rfl, if_pos (Or.inr ⟨rfl, rfl⟩),
            hnone.1, hnone.2]
          rfl
        · rw [if_neg (by simpa using h1), if_neg (by simp only [Prod.mk.injEq]; rintro ⟨rfl, rfl⟩; exact h2 ⟨rfl, rfl⟩),
            if_neg (by tauto), Option.or_none, Option.or_none]
    rw [he]
    by_cases hc : (a = src ∧ b = snk) ∨ (a = snk ∧ b = src)
    · rw [if_pos hc, if_pos hc, if_pos hc]
      have : entry pp a b = none := by
        unfold entry
        rcases hc with ⟨rfl, rfl⟩ | ⟨rfl, rfl⟩
        · rw [hnone.1, hnone.2]; rfl
        · rw [hnone.1, hnone.2]; rfl
      rw [this]; rfl
    · rw [if_neg hc, if_neg hc, if_neg hc]
  · rw [if_neg hnone]
    have fin : ∀ s t, ((src = s ∧ snk = t) ∨ (src = t ∧ snk = s)) → (pp.lookup (s, t)).isSome → ∀ a b,
        entry (update pp (s, t) i v) a b = if (a = src ∧ b = snk) ∨ (a = snk ∧ b = src) then
          some (((entry pp a b).getD (List.replicate T 0)).set i v) else entry pp a b := by
      intro s t hst hs a b
      rw [entry_update h hs]
      have hc : ((a = s ∧ b = t) ∨ (a = t ∧ b = s)) ↔ ((a = src ∧ b = snk) ∨ (a = snk ∧ b = src)) := by
        rcases hst with ⟨rfl, rfl⟩ | ⟨rfl, rfl⟩
        · exact Iff.rfl
        · exact or_comm
      by_cases h1 : (a = src ∧ b = snk) ∨ (a = snk ∧ b = src)
      · rw [if_pos h1, if_pos (hc.2 h1)]
        have : (entry pp a b).isSome := by
          unfold entry
          rcases hc.2 h1 with ⟨rfl, rfl⟩ | ⟨rfl, rfl⟩
          · obtain ⟨l, hl⟩ := Option.isSome_iff_exists.1 hs
            rw [hl]; rfl
          · obtain ⟨l, hl⟩ := Option.isSome_iff_exists.1 hs
            rw [hl]; cases pp.lookup (a, b) <;> rfl
        obtain ⟨l, hl⟩ := Option.isSome_iff_exists.1 this
        rw [hl]; rfl
      · rw [if_neg h1, if_neg fun hx => h1 (hc.1 hx)]
    by_cases hs : (pp.lookup (src, snk)).isSome = true
    · rw [if_pos hs]
      exact ⟨fine_update h _ _ _, fin src snk (.inl ⟨rfl, rfl⟩) hs⟩
    · rw [if_neg hs]
      have hs' : (pp.lookup (snk, src)).isSome := by
        simp only [Bool.and_eq_true, Option.isNone_iff_eq_none, not_and] at hnone
        exact Option.ne_none_iff_isSome.1 (hnone (Option.not_isSome_iff_eq_none.1 hs))
      exact ⟨fine_update h _ _ _, fin snk src (.inr ⟨rfl, rfl⟩) hs'⟩

/-! ## The loop -/

variable {T : Nat} {pc : List (Pin × List Rat)}

theorem mem_jobs {i : Nat} {snk src : Pin × List Rat} : (i, snk, src) ∈ jobs T pc ↔
    i < T ∧ snk ∈ pc ∧ at' i snk < 0 ∧ src ∈ pc ∧ 0 ≤ at' i src := by
  unfold jobs
  simp only [List.mem_flatMap, List.mem_range, List.mem_filter, List.mem_map, Bool.not_eq_true', decide_eq_false_iff_not, not_le,
    decide_eq_true_eq, Prod.mk.injEq]
  constructor
  · rintro ⟨j, hj, s, ⟨h1, h2⟩, r, ⟨h3, h4⟩, rfl, rfl, rfl⟩
    exact ⟨hj, h1, h2, h3, h4⟩
  · rintro ⟨hj, h1, h2, h3, h4⟩
    exact ⟨i, hj, snk, ⟨h1, h2⟩, src, ⟨h3, h4⟩, rfl, rfl, rfl⟩

/-- What the dictionary is after some of the steps. -/
structure After (T : Nat) (pc : List (Pin × List Rat)) (js : List (Nat × (Pin × List Rat) × (Pin × List Rat))) (pp : PP) : Prop where
  fine : Fine T pp
  some' : ∀ a b, (entry pp a b).isSome ↔ ∃ j ∈ js, (a = j.2.2.1 ∧ b = j.2.1.1) ∨ (a = j.2.1.1 ∧ b = j.2.2.1)
  val : ∀ j ∈ js, pairAt pp j.2.2.1 j.2.1.1 j.1 = |at' j.1 j.2.1| * at' j.1 j.2.2 / sumc pc j.1
  zero : ∀ i a b, (∀ j ∈ js, ¬ (j.1 = i ∧ ((a = j.2.2.1 ∧ b = j.2.1.1) ∨ (a = j.2.1.1 ∧ b = j.2.2.1)))) → pairAt pp a b i = 0
  pos : ∀ j ∈ js, sumc pc j.1 ≠ 0

theorem key_inj (hn : (pc.map Prod.fst).Nodup) {x y : Pin × List Rat} (hx : x ∈ pc) (hy : y ∈ pc) (h : x.1 = y.1) : x = y :=
  List.inj_on_of_nodup_map hn hx hy h

theorem after_step (hn : (pc.map Prod.fst).Nodup) {js : List (Nat × (Pin × List Rat) × (Pin × List Rat))} {pp pp' : PP}
    (h : After T pc js pp) {j : Nat × (Pin × List Rat) × (Pin × List Rat)} (hj : j ∈ jobs T pc) (hjs : ∀ d ∈ js, d ∈ jobs T pc)
    (hs : job T pc pp j = some pp') : After T pc (js ++ [j]) pp' := by
  obtain ⟨i, snk, src⟩ := j
  obtain ⟨hi, hk1, hk2, hr1, hr2⟩ := mem_jobs.1 hj
  unfold job at hs
  simp only at hs
  split at hs
  · cases hs
  rename_i hpos
  simp only [Option.some.injEq] at hs
  have hne : src.1 ≠ snk.1 := by
    intro hc
    have := key_inj hn hr1 hk1 hc
    subst this
    linarith
  obtain ⟨f1, f2⟩ := setPair_spec (T := T) h.fine hne (i := i) (|at' i snk| * at' i src / sumc pc i)
  rw [hs] at f1 f2
  have len : ∀ a b, ((entry pp a b).getD (List.replicate T 0)).length = T := by
    intro a b
    cases he : entry pp a b with
    | none => simp
    | some l =>
      unfold entry at he
      rcases Option.or_eq_some_iff.1 he with h1 | ⟨_, h1⟩
      · exact lookup_len h.fine h1
      · exact lookup_len h.fine h1
  have pairAt' : ∀ a b m, m < T → ((entry pp a b).getD (List.replicate T 0)).getD m 0 = pairAt pp a b m := by
    intro a b m hm
    unfold pairAt
    cases entry pp a b with
    | none => simp [hm]
    | some l => rfl
  -- the value of a pair afterwards
  have hval : ∀ a b m, pairAt pp' a b m = if m = i ∧ ((a = src.1 ∧ b = snk.1) ∨ (a = snk.1 ∧ b = src.1)) then
      |at' i snk| * at' i src / sumc pc i else pairAt pp a b m := by
    intro a b m
    have e : pairAt pp' a b m = ((entry pp' a b).getD []).getD m 0 := rfl
    rw [e, f2]
    by_cases hc : (a = src.1 ∧ b = snk.1) ∨ (a = snk.1 ∧ b = src.1)
    · rw [if_pos hc, Option.getD_some]
      by_cases hm : m = i
      · subst hm
        rw [if_pos ⟨rfl, hc⟩, List.getD_eq_getElem?_getD, List.getElem?_set_self (by rw [len]; exact hi)]
        rfl
      · rw [if_neg (by tauto), List.getD_eq_getElem?_getD, List.getElem?_set_ne (Ne.symm hm), ← List.getD_eq_getElem?_getD]
        by_cases hmT : m < T
        · exact pairAt' a b m hmT
        · rw [List.getD_eq_getElem?_getD, List.getElem?_eq_none (by rw [len]; omega)]
          unfold pairAt
          cases he : entry pp a b with
          | none => simp
          | some l =>
            have := len a b
            rw [he] at this
            simp only [Option.getD_some] at this
            rw [Option.getD_some, List.getD_eq_getElem?_getD, List.getElem?_eq_none (by omega)]
    · rw [if_neg hc, if_neg (by tauto)]
      rfl
  constructor
  · exact f1
  · intro a b
    rw [f2]
    by_cases hc : (a = src.1 ∧ b = snk.1) ∨ (a = snk.1 ∧ b = src.1)
    · rw [if_pos hc]
      simp only [Option.isSome_some, true_iff]
      exact ⟨(i, snk, src), by simp, hc⟩
    · rw [if_neg hc, h.some']
      constructor
      · rintro ⟨d, hd, hx⟩
        exact ⟨d, List.mem_append_left _ hd, hx⟩
      · rintro ⟨d, hd, hx⟩
        rcases List.mem_append.1 hd with hd | hd
        · exact ⟨d, hd, hx⟩
        · rw [List.mem_singleton] at hd; subst hd; exact absurd hx hc
  · intro d hd
    rw [hval]
    rcases List.mem_append.1 hd with hd' | hd
    · split
      · rename_i hc
        obtain ⟨h1, h2⟩ := hc
        obtain ⟨di, dsnk, dsrc⟩ := d
        simp only at h1 h2 ⊢
        subst h1
        obtain ⟨_, d1, d2, d3, d4⟩ := mem_jobs.1 (hjs _ hd')
        rcases h2 with ⟨h2, h3⟩ | ⟨h2, h3⟩
        · rw [key_inj hn d3 hr1 h2, key_inj hn d1 hk1 h3]
        · have := key_inj hn d3 hk1 h2
          subst this
          linarith
      · exact h.val d hd'
    · rw [List.mem_singleton] at hd; subst hd
      rw [if_pos ⟨rfl, .inl ⟨rfl, rfl⟩⟩]
  · intro m a b hm
    rw [hval, if_neg]
    · exact h.zero m a b fun d hd => hm d (List.mem_append_left _ hd)
    · rintro ⟨rfl, hc⟩
      exact hm (m, snk, src) (by simp) ⟨rfl, hc⟩
  · intro d hd
    rcases List.mem_append.1 hd with hd | hd
    · exact h.pos d hd
    · rw [List.mem_singleton] at hd; subst hd; exact hpos

theorem after_all (hn : (pc.map Prod.fst).Nodup) (todo : List (Nat × (Pin × List Rat) × (Pin × List Rat))) :
    ∀ (js : List (Nat × (Pin × List Rat) × (Pin × List Rat))) (pp pp' : PP), After T pc js pp → (∀ d ∈ js, d ∈ jobs T pc) →
    (∀ d ∈ todo, d ∈ jobs T pc) → todo.foldlM (job T pc) pp = some pp' → After T pc (js ++ todo) pp' := by
  induction todo with
  | nil =>
    intro js pp pp' h _ _ hr
    simp at hr
    subst hr
    simpa using h
  | cons j todo ih =>
    intro js pp pp' h h1 h2 hr
    rw [List.foldlM_cons] at hr
    obtain ⟨q, hq, hr⟩ := Option.bind_eq_some_iff.1 hr
    have := after_step hn h (h2 j List.mem_cons_self) h1 hq
    have := ih (js ++ [j]) q pp' this (by
      intro d hd
      rcases List.mem_append.1 hd with hd | hd
      · exact h1 d hd
      · rw [List.mem_singleton] at hd; subst hd; exact h2 d List.mem_cons_self) (fun d hd => h2 d (List.mem_cons_of_mem _ hd)) hr
    simpa using this

theorem after_pairs (hn : (pc.map Prod.fst).Nodup) {pp : PP} (h : pairs T pc = some pp) : After T pc (jobs T pc) pp := by
  have h0 : After T pc [] [] := by
    refine ⟨⟨by simp, ?_, by simp, by simp⟩, ?_, by simp, ?_, by simp⟩
    · intro a b ha; simp at ha
    · intro a b; simp [entry]
    · intro i a b _; simp [pairAt, entry]
  have := after_all hn (jobs T pc) [] [] pp h0 (by simp) (fun d hd => hd) h
  simpa using this

end Verif.Charge

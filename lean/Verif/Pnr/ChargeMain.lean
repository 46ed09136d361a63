import Verif.Pnr.ChargeProps
import Verif.Pnr.Subset

/-! # C83: the currents between pins (continued) -/

namespace Verif.Charge

open Hier (mapM_forall₂ lookup_iff_mem lookup_mem nodup_eraseDups)

/-! ## Specification of the result -/

/-- At some time the one pin is a source and the other a sink. -/
def Opposed (k : Flow) (a b : Pin) : Prop :=
  ∃ i < k.time.length, (0 ≤ I k i a ∧ I k i b < 0) ∨ (I k i a < 0 ∧ 0 ≤ I k i b)

/-- What is written for a constraint, with the scale `m`. -/
structure Good (sqrt : Rat → Rat) (pg : List String) (insts : List Inst) (m : Rat) (k : Flow)
    (c : List (String × List ((Pin × Pin) × Rat))) : Prop where
  once : (c.map Prod.fst).Nodup
  signal : ∀ e ∈ c, e.1 ∉ pg
  pins : ∀ e ∈ c, ∀ x ∈ e.2, x.1.1 ≠ x.1.2 ∧ x.1.1 ∈ carriers insts k e.1 ∧ x.1.2 ∈ carriers insts k e.1
  value : ∀ e ∈ c, ∀ x ∈ e.2, x.2 * m = sqrt (meanSq k fun i => share k (carriers insts k e.1) i x.1.1 x.1.2)
  listed : ∀ n, n ∉ pg → ∀ a ∈ carriers insts k n, ∀ b ∈ carriers insts k n,
    (Opposed k a b ↔ ∃ l, (n, l) ∈ c ∧ ∃ v, ((a, b), v) ∈ l ∨ ((b, a), v) ∈ l)
  single : ∀ e ∈ c, (e.2.map Prod.fst).Nodup ∧ ∀ a b v w, ((a, b), v) ∈ e.2 → ((b, a), w) ∉ e.2

/-! ## The pins of a net -/

theorem mem_pinsOf {insts : List Inst} {n : String} {p : Pin} : p ∈ pinsOf insts n ↔ onNet insts n p = true := by
  unfold pinsOf onNet
  simp only [List.mem_eraseDups, List.mem_flatMap, List.mem_map, List.mem_filter, decide_eq_true_eq, List.any_eq_true,
    Bool.and_eq_true]
  constructor
  · rintro ⟨x, hx, pn, ⟨h1, h2⟩, h3⟩
    exact ⟨x, hx, pn, h1, h2, h3⟩
  · rintro ⟨x, hx, pn, h1, h2, h3⟩
    exact ⟨x, hx, pn, ⟨h1, h2⟩, h3⟩

theorem mem_nets {pg : List String} {insts : List Inst} {n : String} : n ∈ nets pg insts ↔
    (∃ x ∈ insts, ∃ pn ∈ x.conn, pn.2 = n) ∧ n ∉ pg := by
  unfold nets
  simp only [List.mem_eraseDups, List.mem_filter, List.mem_flatMap, List.mem_map, Bool.not_eq_true', List.contains_eq_mem,
    decide_eq_false_iff_not]

theorem given_keys (k : Flow) (pins : List Pin) : (given k pins).map Prod.fst = pins.filter fun p => (k.cur.lookup p).isSome := by
  unfold given
  induction pins with
  | nil => rfl
  | cons p pins ih =>
    rw [List.filterMap_cons, List.filter_cons]
    cases h : k.cur.lookup p with
    | none => simpa using ih
    | some c => simp [ih]

theorem mem_given {k : Flow} {pins : List Pin} {x : Pin × List Rat} : x ∈ given k pins ↔ x.1 ∈ pins ∧ k.cur.lookup x.1 = some x.2 := by
  unfold given
  simp only [List.mem_filterMap, Option.map_eq_some_iff]
  constructor
  · rintro ⟨p, hp, c, hc, rfl⟩
    exact ⟨hp, hc⟩
  · rintro ⟨h1, h2⟩
    exact ⟨x.1, h1, x.2, h2, rfl⟩

theorem at_given {k : Flow} {pins : List Pin} {x : Pin × List Rat} (hx : x ∈ given k pins) (i : Nat) : at' i x = I k i x.1 := by
  unfold at' I
  rw [(mem_given.1 hx).2]; rfl

theorem mem_carriers {insts : List Inst} {k : Flow} {n : String} {p : Pin} :
    p ∈ carriers insts k n ↔ (k.cur.lookup p).isSome ∧ onNet insts n p = true := by
  unfold carriers
  rw [List.mem_filter]
  have : p ∈ k.cur.map Prod.fst ↔ (k.cur.lookup p).isSome := by
    rw [List.lookup_isSome_iff]
    simp only [List.mem_map, beq_iff_eq]
    constructor
    · rintro ⟨e, he, rfl⟩; exact ⟨e, he, rfl⟩
    · rintro ⟨e, he, h⟩; exact ⟨e, he, h.symm⟩
  rw [this]

section

variable {order : List Pin → List Pin} (ho : ∀ l, (order l).Perm l) {insts : List Inst} {k : Flow} (hk : (k.cur.map Prod.fst).Nodup)

include ho in
theorem given_nodup (n : String) : ((given k (order (pinsOf insts n))).map Prod.fst).Nodup := by
  rw [given_keys]
  exact ((ho _).nodup_iff.2 (nodup_eraseDups _ _ (le_refl _))).filter _

include ho in
theorem mem_given_keys (n : String) (p : Pin) :
    p ∈ (given k (order (pinsOf insts n))).map Prod.fst ↔ p ∈ carriers insts k n := by
  rw [given_keys, List.mem_filter, (ho _).mem_iff, mem_pinsOf, mem_carriers, and_comm]

include ho hk in
theorem given_perm (n : String) : ((given k (order (pinsOf insts n))).map Prod.fst).Perm (carriers insts k n) :=
  (List.perm_ext_iff_of_nodup (given_nodup ho n) (hk.filter _)).2 fun p => mem_given_keys ho n p

include ho hk in
theorem sumc_eq (n : String) (i : Nat) : sumc (given k (order (pinsOf insts n))) i = supply k i (carriers insts k n) := by
  have h1 : sumc (given k (order (pinsOf insts n))) i = supply k i ((given k (order (pinsOf insts n))).map Prod.fst) := by
    unfold sumc supply
    rw [List.filter_map, List.map_map]
    congr 1
    have e : ∀ l : List (Pin × List Rat), (∀ x ∈ l, at' i x = I k i x.1) → List.map (at' i) (l.filter fun x => decide (0 ≤ at' i x)) =
        List.map (I k i ∘ Prod.fst) (l.filter ((fun p => decide (0 ≤ I k i p)) ∘ Prod.fst)) := by
      intro l hl
      induction l with
      | nil => rfl
      | cons x l ih =>
        rw [List.filter_cons, List.filter_cons, Function.comp_apply, hl x List.mem_cons_self]
        have := ih fun y hy => hl y (List.mem_cons_of_mem _ hy)
        split
        · rw [List.map_cons, List.map_cons, this, hl x List.mem_cons_self]; rfl
        · exact this
    exact e _ fun x hx => at_given hx i
  rw [h1]
  unfold supply
  exact (((given_perm ho hk n).filter _).map _).sum_eq

theorem exists_given {n : String} {p : Pin} (hp : p ∈ (given k (order (pinsOf insts n))).map Prod.fst) :
    ∃ c, (p, c) ∈ given k (order (pinsOf insts n)) := by
  obtain ⟨x, hx, rfl⟩ := List.mem_map.1 hp
  exact ⟨x.2, hx⟩

include ho hk in
/-- The currents between pins are those of the specification. -/
theorem pairAt_share {n : String} {pp : PP} (h : pairs k.time.length (given k (order (pinsOf insts n))) = some pp) {a b : Pin}
    (ha : a ∈ carriers insts k n) (hb : b ∈ carriers insts k n) {i : Nat} (hi : i < k.time.length) :
    pairAt pp a b i = share k (carriers insts k n) i a b := by
  have A := after_pairs (given_nodup ho n) h
  obtain ⟨ca, hca⟩ := exists_given ((mem_given_keys ho n a).2 ha)
  obtain ⟨cb, hcb⟩ := exists_given ((mem_given_keys ho n b).2 hb)
  have ea := at_given hca i
  have eb := at_given hcb i
  simp only at ea eb
  unfold share
  by_cases h1 : 0 ≤ I k i a ∧ I k i b < 0
  · rw [if_pos h1]
    have := A.val (i, (b, cb), (a, ca)) (mem_jobs.2 ⟨hi, hcb, by rw [eb]; exact h1.2, hca, by rw [ea]; exact h1.1⟩)
    simp only at this
    rw [this, ea, eb, sumc_eq ho hk]
  · rw [if_neg h1]
    by_cases h2 : I k i a < 0 ∧ 0 ≤ I k i b
    · rw [if_pos h2]
      have := A.val (i, (a, ca), (b, cb)) (mem_jobs.2 ⟨hi, hca, by rw [ea]; exact h2.1, hcb, by rw [eb]; exact h2.2⟩)
      simp only at this
      have hc : pairAt pp a b i = pairAt pp b a i := by
        unfold pairAt; rw [entry_comm A.fine]
      rw [hc, this, ea, eb, sumc_eq ho hk]
    · rw [if_neg h2]
      apply A.zero
      rintro ⟨j, snk, src⟩ hj ⟨rfl, hc⟩
      obtain ⟨_, k1, k2, k3, k4⟩ := mem_jobs.1 hj
      rw [at_given k1] at k2
      rw [at_given k3] at k4
      simp only at hc
      rcases hc with ⟨e1, e2⟩ | ⟨e1, e2⟩
      · exact h1 ⟨e1 ▸ k4, e2 ▸ k2⟩
      · exact h2 ⟨e1 ▸ k2, e2 ▸ k4⟩

include ho in
/-- The pairs are those that are opposed at some time. -/
theorem entry_opposed {n : String} {pp : PP} (h : pairs k.time.length (given k (order (pinsOf insts n))) = some pp) (a b : Pin) :
    (entry pp a b).isSome ↔ a ∈ carriers insts k n ∧ b ∈ carriers insts k n ∧ Opposed k a b := by
  have A := after_pairs (given_nodup ho n) h
  rw [A.some']
  constructor
  · rintro ⟨⟨i, snk, src⟩, hj, hc⟩
    obtain ⟨hi, k1, k2, k3, k4⟩ := mem_jobs.1 hj
    rw [at_given k1] at k2
    rw [at_given k3] at k4
    have m1 := (mem_given_keys ho n snk.1).1 (List.mem_map_of_mem k1)
    have m2 := (mem_given_keys ho n src.1).1 (List.mem_map_of_mem k3)
    simp only at hc
    rcases hc with ⟨rfl, rfl⟩ | ⟨rfl, rfl⟩
    · exact ⟨m2, m1, i, hi, .inl ⟨k4, k2⟩⟩
    · exact ⟨m1, m2, i, hi, .inr ⟨k2, k4⟩⟩
  · rintro ⟨ha, hb, i, hi, hc⟩
    obtain ⟨ca, hca⟩ := exists_given ((mem_given_keys ho n a).2 ha)
    obtain ⟨cb, hcb⟩ := exists_given ((mem_given_keys ho n b).2 hb)
    have ea := at_given hca i
    have eb := at_given hcb i
    simp only at ea eb
    rcases hc with hc | hc
    · exact ⟨(i, (b, cb), (a, ca)), mem_jobs.2 ⟨hi, hcb, by rw [eb]; exact hc.2, hca, by rw [ea]; exact hc.1⟩, .inl ⟨rfl, rfl⟩⟩
    · exact ⟨(i, (a, ca), (b, cb)), mem_jobs.2 ⟨hi, hca, by rw [ea]; exact hc.1, hcb, by rw [eb]; exact hc.2⟩, .inr ⟨rfl, rfl⟩⟩

end

/-! ## Root mean square -/

theorem rms_eq (sqrt : Rat → Rat) (k : Flow) (x : List Rat) : rms sqrt k.time x =
    if k.time.getD (k.time.length - 1) 0 - k.time.getD 0 0 = 0 then none
    else if meanSq k (fun i => x.getD i 0) < 0 then none else some (sqrt (meanSq k fun i => x.getD i 0)) := by
  unfold rms meanSq
  simp only
  have : (fun i => (k.time.getD (i + 1) 0 - k.time.getD i 0) * (x.getD i 0 + x.getD (i + 1) 0) ^ 2 / 4) =
      fun i => (k.time.getD (i + 1) 0 - k.time.getD i 0) * ((x.getD i 0 + x.getD (i + 1) 0) / 2) ^ 2 := by
    funext i; ring
  rw [this]

theorem meanSq_congr {k : Flow} {x y : Nat → Rat} (h : ∀ i < k.time.length, x i = y i) : meanSq k x = meanSq k y := by
  unfold meanSq
  congr 2
  apply List.map_congr_left
  intro i hi
  rw [List.mem_range] at hi
  rw [h i (by omega), h (i + 1) (by omega)]

/-! ## One net, one constraint -/

section

variable {sqrt : Rat → Rat} {order : List Pin → List Pin} (ho : ∀ l, (order l).Perm l) {pg : List String} {insts : List Inst} {k : Flow}
  (hk : (k.cur.map Prod.fst).Nodup)

include ho hk in
theorem flowNet_spec {n : String} {r : List ((Pin × Pin) × Rat)} (h : flowNet sqrt k (order (pinsOf insts n)) = some r) :
    (∀ x ∈ r, x.1.1 ≠ x.1.2 ∧ x.1.1 ∈ carriers insts k n ∧ x.1.2 ∈ carriers insts k n ∧
      x.2 = sqrt (meanSq k fun i => share k (carriers insts k n) i x.1.1 x.1.2)) ∧
    (∀ a b, (∃ v, ((a, b), v) ∈ r ∨ ((b, a), v) ∈ r) ↔ a ∈ carriers insts k n ∧ b ∈ carriers insts k n ∧ Opposed k a b) ∧
    (r.map Prod.fst).Nodup ∧ ∀ a b v w, ((a, b), v) ∈ r → ((b, a), w) ∉ r := by
  unfold flowNet at h
  obtain ⟨pp, hpp, h⟩ := Option.bind_eq_some_iff.1 h
  have A := after_pairs (given_nodup ho n) hpp
  have F := mapM_forall₂ h
  have keys : r.map Prod.fst = pp.map Prod.fst := by
    have : ∀ {p : PP} {q : List ((Pin × Pin) × Rat)},
        List.Forall₂ (fun e b => (rms sqrt k.time e.2).map (fun v => (e.1, v)) = some b) p q → q.map Prod.fst = p.map Prod.fst := by
      intro p q hpq
      induction hpq with
      | nil => rfl
      | cons h1 _ ih =>
        obtain ⟨v, _, rfl⟩ := Option.map_eq_some_iff.1 h1
        rw [List.map_cons, List.map_cons, ih]
    exact this F
  have hmem : ∀ a b, (∃ v, ((a, b), v) ∈ r) ↔ (pp.lookup (a, b)).isSome := by
    intro a b
    have h1 : (∃ v, ((a, b), v) ∈ r) ↔ (a, b) ∈ r.map Prod.fst := by simp
    rw [h1, keys, List.lookup_isSome_iff]
    simp only [List.mem_map, beq_iff_eq]
    constructor
    · rintro ⟨e, he, h⟩; exact ⟨e, he, h.symm⟩
    · rintro ⟨e, he, h⟩; exact ⟨e, he, h.symm⟩
  have hiff : ∀ a b, (∃ v, ((a, b), v) ∈ r ∨ ((b, a), v) ∈ r) ↔ a ∈ carriers insts k n ∧ b ∈ carriers insts k n ∧ Opposed k a b := by
    intro a b
    rw [← entry_opposed ho hpp]
    unfold entry
    rw [Option.isSome_or, Bool.or_eq_true, ← hmem, ← hmem]
    constructor
    · rintro ⟨v, hv | hv⟩
      · exact .inl ⟨v, hv⟩
      · exact .inr ⟨v, hv⟩
    · rintro (⟨v, hv⟩ | ⟨v, hv⟩)
      · exact ⟨v, .inl hv⟩
      · exact ⟨v, .inr hv⟩
  refine ⟨?_, hiff, ?_, ?_⟩
  · intro x hx
    obtain ⟨e, he, hv⟩ := (Pnr.mapM_all h).2 x hx
    obtain ⟨v, hv, rfl⟩ := Option.map_eq_some_iff.1 hv
    obtain ⟨⟨a, b⟩, l⟩ := e
    obtain ⟨h1, h2, _⟩ := (hiff a b).1 ⟨v, .inl hx⟩
    refine ⟨A.fine.irr _ he, h1, h2, ?_⟩
    rw [rms_eq] at hv
    split at hv
    · cases hv
    split at hv
    · cases hv
    cases hv
    change sqrt (meanSq k fun i => l.getD i 0) = sqrt (meanSq k fun i => share k (carriers insts k n) i a b)
    congr 1
    apply meanSq_congr
    intro i hi
    rw [← pairAt_share ho hk hpp h1 h2 hi]
    unfold pairAt entry
    rw [(lookup_iff_mem A.fine.keys).2 he]
    rfl
  · rw [keys]; exact A.fine.keys
  · intro a b v w hv hw
    have h1 := (hmem a b).1 ⟨v, hv⟩
    have h2 := (hmem b a).1 ⟨w, hw⟩
    have := A.fine.once a b h1 h2
    obtain ⟨l, hl⟩ := Option.isSome_iff_exists.1 h1
    exact A.fine.irr _ (lookup_mem hl) this

include ho hk in
theorem flow_good {c : List (String × List ((Pin × Pin) × Rat))} (h : flow sqrt order pg insts k = some c) :
    Good sqrt pg insts 1 k c := by
  unfold flow at h
  obtain ⟨l, hl, rfl⟩ := Option.map_eq_some_iff.1 h
  have F := mapM_forall₂ hl
  have keys : l.map Prod.fst = nets pg insts := by
    have : ∀ {p : List String} {q : List (String × List ((Pin × Pin) × Rat))},
        List.Forall₂ (fun n b => (flowNet sqrt k (order (pinsOf insts n))).map (fun r => (n, r)) = some b) p q → q.map Prod.fst = p := by
      intro p q hpq
      induction hpq with
      | nil => rfl
      | cons h1 _ ih =>
        obtain ⟨v, _, rfl⟩ := Option.map_eq_some_iff.1 h1
        rw [List.map_cons, ih]
    exact this F
  have hnet : ∀ e ∈ l, e.1 ∈ nets pg insts ∧ flowNet sqrt k (order (pinsOf insts e.1)) = some e.2 := by
    intro e he
    obtain ⟨n, hn, hv⟩ := (Pnr.mapM_all hl).2 e he
    obtain ⟨v, hv', rfl⟩ := Option.map_eq_some_iff.1 hv
    exact ⟨hn, hv'⟩
  have hn : (l.map Prod.fst).Nodup := by rw [keys]; exact nodup_eraseDups _ _ (le_refl _)
  have sub : ∀ e ∈ l.filter (fun e => !e.2.isEmpty), e ∈ l := fun e he => (List.mem_filter.1 he).1
  constructor
  · exact hn.sublist (List.filter_sublist.map _)
  · intro e he
    exact (mem_nets.1 (hnet e (sub e he)).1).2
  · intro e he x hx
    have := (flowNet_spec ho hk (hnet e (sub e he)).2).1 x hx
    exact ⟨this.1, this.2.1, this.2.2.1⟩
  · intro e he x hx
    rw [mul_one]
    exact ((flowNet_spec ho hk (hnet e (sub e he)).2).1 x hx).2.2.2
  · intro n hpg a ha b hb
    constructor
    · intro hop
      have hnn : n ∈ nets pg insts := by
        have := (mem_carriers.1 ha).2
        unfold onNet at this
        simp only [List.any_eq_true, Bool.and_eq_true, decide_eq_true_eq] at this
        obtain ⟨x, hx, pn, hp, hp2, _⟩ := this
        exact mem_nets.2 ⟨⟨x, hx, pn, hp, hp2⟩, hpg⟩
      rw [← keys] at hnn
      obtain ⟨⟨n', r⟩, he, rfl⟩ := List.mem_map.1 hnn
      obtain ⟨v, hv⟩ := ((flowNet_spec ho hk (hnet _ he).2).2.1 a b).2 ⟨ha, hb, hop⟩
      refine ⟨r, List.mem_filter.2 ⟨he, ?_⟩, v, hv⟩
      cases r with
      | nil => simp at hv
      | cons _ _ => rfl
    · rintro ⟨r, hr, hv⟩
      exact (((flowNet_spec ho hk (hnet _ (sub _ hr)).2).2.1 a b).1 hv).2.2
  · intro e he
    exact (flowNet_spec ho hk (hnet e (sub e he)).2).2.2

end

/-! ## Scaling -/

theorem foldl_max (l : List Rat) : ∀ m : Rat, m ≤ l.foldl max m ∧ (∀ x ∈ l, x ≤ l.foldl max m) ∧ (l.foldl max m = m ∨ l.foldl max m ∈ l) := by
  induction l with
  | nil => intro m; simp
  | cons a l ih =>
    intro m
    obtain ⟨h1, h2, h3⟩ := ih (max m a)
    rw [List.foldl_cons]
    refine ⟨le_trans (le_max_left _ _) h1, ?_, ?_⟩
    · intro x hx
      rcases List.mem_cons.1 hx with rfl | hx
      · exact le_trans (le_max_right _ _) h1
      · exact h2 x hx
    · rcases h3 with h3 | h3
      · rw [h3]
        rcases max_choice m a with h | h
        · left; exact h
        · right; rw [h]; exact List.mem_cons_self
      · right; exact List.mem_cons_of_mem _ h3

/-- The divisor. -/
def divisor (o : Out) : Rat := if 0 < top o then top o else 1

theorem divisor_pos (o : Out) : 0 < divisor o := by
  unfold divisor
  split
  · assumption
  · norm_num

theorem scale_eq (o : Out) : scale o = o.map fun c => c.map fun n => (n.1, n.2.map fun e => (e.1, e.2 / divisor o)) := by
  unfold scale divisor
  split
  · rfl
  · simp

theorem values_scale (o : Out) : values (scale o) = (values o).map fun v => v / divisor o := by
  rw [scale_eq]
  unfold values
  simp [List.flatMap_map, List.map_flatMap, Function.comp_def]

theorem good_scale {sqrt : Rat → Rat} {pg : List String} {insts : List Inst} {k : Flow} {c : List (String × List ((Pin × Pin) × Rat))} {m : Rat}
    (hm : 0 < m) (h : Good sqrt pg insts 1 k c) : Good sqrt pg insts m k (c.map fun n => (n.1, n.2.map fun e => (e.1, e.2 / m))) := by
  have key : ∀ r : List ((Pin × Pin) × Rat), (r.map fun e => (e.1, e.2 / m)).map Prod.fst = r.map Prod.fst := by
    intro r; rw [List.map_map]; rfl
  have mem : ∀ (r : List ((Pin × Pin) × Rat)) q v, (q, v) ∈ r.map (fun e => (e.1, e.2 / m)) → ∃ w, (q, w) ∈ r ∧ v = w / m := by
    intro r q v hv
    obtain ⟨e, he, hv⟩ := List.mem_map.1 hv
    cases hv
    exact ⟨e.2, he, rfl⟩
  constructor
  · rw [List.map_map]; exact h.once
  · intro e he
    obtain ⟨d, hd, rfl⟩ := List.mem_map.1 he
    exact h.signal d hd
  · intro e he x hx
    obtain ⟨d, hd, rfl⟩ := List.mem_map.1 he
    obtain ⟨y, hy, rfl⟩ := List.mem_map.1 hx
    exact h.pins d hd y hy
  · intro e he x hx
    obtain ⟨d, hd, rfl⟩ := List.mem_map.1 he
    obtain ⟨y, hy, rfl⟩ := List.mem_map.1 hx
    have := h.value d hd y hy
    rw [mul_one] at this
    simp only
    rw [← this]
    field_simp
  · intro n hn a ha b hb
    rw [h.listed n hn a ha b hb]
    constructor
    · rintro ⟨l, hl, v, hv⟩
      refine ⟨l.map fun e => (e.1, e.2 / m), List.mem_map.2 ⟨(n, l), hl, rfl⟩, v / m, ?_⟩
      rcases hv with hv | hv
      · exact .inl (List.mem_map.2 ⟨_, hv, rfl⟩)
      · exact .inr (List.mem_map.2 ⟨_, hv, rfl⟩)
    · rintro ⟨l, hl, v, hv⟩
      obtain ⟨d, hd, he⟩ := List.mem_map.1 hl
      cases he
      rcases hv with hv | hv
      · obtain ⟨w, hw, _⟩ := mem _ _ _ hv
        exact ⟨d.2, hd, w, .inl hw⟩
      · obtain ⟨w, hw, _⟩ := mem _ _ _ hv
        exact ⟨d.2, hd, w, .inr hw⟩
  · intro e he
    obtain ⟨d, hd, rfl⟩ := List.mem_map.1 he
    refine ⟨by simp only; rw [key]; exact (h.single d hd).1, ?_⟩
    intro a b v w hv hw
    obtain ⟨v', hv', _⟩ := mem _ _ _ hv
    obtain ⟨w', hw', _⟩ := mem _ _ _ hw
    exact (h.single d hd).2 a b v' w' hv' hw'

/-- **C83.**  Whatever the order of the sets: for each constraint the result lists, for the nets that are not of power, ground or
clock, the pairs of pins between which current flows, each once, and the values are the root mean squares of the currents
between them, all divided by the same number. -/
theorem C83_flow {sqrt : Rat → Rat} {order : List Pin → List Pin} (ho : ∀ l, (order l).Perm l) {pg : List String} {insts : List Inst}
    {ks : List Flow} (hk : ∀ k ∈ ks, (k.cur.map Prod.fst).Nodup) {out : Out} (h : charge sqrt order pg insts ks = some out) :
    ∃ m, 0 < m ∧ List.Forall₂ (Good sqrt pg insts m) ks out := by
  unfold charge at h
  obtain ⟨o, hoo, rfl⟩ := Option.map_eq_some_iff.1 h
  refine ⟨divisor o, divisor_pos o, ?_⟩
  rw [scale_eq, List.forall₂_map_right_iff]
  generalize hd : divisor o = d
  have hpos : 0 < d := hd ▸ divisor_pos o
  have F := mapM_forall₂ hoo
  clear hoo h hd
  induction F with
  | nil => exact .nil
  | cons h1 _ ih =>
    exact .cons (good_scale hpos (flow_good ho (hk _ List.mem_cons_self) h1)) (ih fun k hk' => hk k (List.mem_cons_of_mem _ hk'))

/-- **C83.**  The values are between 0 and 1, and unless all are 0 one of them is 1. -/
theorem C83_scaled {sqrt : Rat → Rat} (hs : ∀ q, 0 ≤ q → 0 ≤ sqrt q) {order : List Pin → List Pin} {pg : List String} {insts : List Inst}
    {ks : List Flow} {out : Out} (h : charge sqrt order pg insts ks = some out) :
    (∀ v ∈ values out, 0 ≤ v ∧ v ≤ 1) ∧ ((∃ v ∈ values out, v ≠ 0) → 1 ∈ values out) := by
  unfold charge at h
  obtain ⟨o, hoo, rfl⟩ := Option.map_eq_some_iff.1 h
  have nonneg : ∀ v ∈ values o, 0 ≤ v := by
    intro v hv
    unfold values at hv
    obtain ⟨c, hc, hv⟩ := List.mem_flatMap.1 hv
    obtain ⟨n, hn, hv⟩ := List.mem_flatMap.1 hv
    obtain ⟨e, he, rfl⟩ := List.mem_map.1 hv
    obtain ⟨k, _, hk⟩ := (Pnr.mapM_all hoo).2 c hc
    unfold flow at hk
    obtain ⟨l, hl, rfl⟩ := Option.map_eq_some_iff.1 hk
    obtain ⟨m, _, hm⟩ := (Pnr.mapM_all hl).2 n (List.mem_filter.1 hn).1
    obtain ⟨r, hr, rfl⟩ := Option.map_eq_some_iff.1 hm
    unfold flowNet at hr
    obtain ⟨pp, _, hr⟩ := Option.bind_eq_some_iff.1 hr
    obtain ⟨d, _, hd⟩ := (Pnr.mapM_all hr).2 e he
    obtain ⟨v, hw, rfl⟩ := Option.map_eq_some_iff.1 hd
    rw [rms_eq] at hw
    split at hw
    · cases hw
    split at hw
    · cases hw
    rename_i hq
    cases hw
    exact hs _ (not_lt.1 hq)
  obtain ⟨_, hle, hor⟩ := foldl_max (values o) (-1)
  have hpos := divisor_pos o
  rw [values_scale]
  constructor
  · intro w hw
    obtain ⟨v, hv, rfl⟩ := List.mem_map.1 hw
    refine ⟨div_nonneg (nonneg v hv) hpos.le, ?_⟩
    rw [div_le_iff₀ hpos, one_mul]
    unfold divisor
    have := hle v hv
    change v ≤ top o at this
    split
    · exact this
    · rename_i hn
      linarith
  · rintro ⟨w, hw, hne⟩
    obtain ⟨v, hv, rfl⟩ := List.mem_map.1 hw
    have hv0 : 0 < v := lt_of_le_of_ne (nonneg v hv) fun h => hne (by rw [← h]; simp)
    have ht : 0 < top o := lt_of_lt_of_le hv0 (hle v hv)
    have hd : divisor o = top o := by unfold divisor; rw [if_pos ht]
    rcases hor with h1 | h1
    · change top o = -1 at h1
      linarith
    · exact List.mem_map.2 ⟨top o, h1, by rw [hd]; exact div_self ht.ne'⟩

/-! ## When it succeeds -/

theorem sumc_ne_zero {ps : List Pin} {k : Flow} {i : Nat} (h : Kirchhoff k i ps) {b : Pin} (hb : b ∈ ps) (hneg : I k i b < 0) :
    supply k i ps ≠ 0 := by
  intro hz
  have h1 := demand h
  rw [hz] at h1
  have h2 : |I k i b| ≤ 0 := by
    rw [← h1]
    apply le_sum
    · intro x hx
      obtain ⟨p, _, rfl⟩ := List.mem_map.1 hx
      exact abs_nonneg _
    · exact List.mem_map.2 ⟨b, List.mem_filter.2 ⟨hb, by simpa using hneg⟩, rfl⟩
  have := abs_pos.2 (ne_of_lt hneg)
  linarith

theorem foldlM_isSome {α β : Type} {f : β → α → Option β} {l : List α} (h : ∀ a ∈ l, ∀ b, (f b a).isSome) :
    ∀ b, (l.foldlM f b).isSome := by
  induction l with
  | nil => intro b; simp
  | cons a l ih =>
    intro b
    rw [List.foldlM_cons]
    obtain ⟨c, hc⟩ := Option.isSome_iff_exists.1 (h a List.mem_cons_self b)
    rw [hc]
    exact ih (fun x hx => h x (List.mem_cons_of_mem _ hx)) c

theorem meanSq_nonneg {k : Flow} (h1 : k.time.Pairwise (· < ·)) (h2 : 2 ≤ k.time.length) (x : Nat → Rat) : 0 ≤ meanSq k x := by
  have lt : ∀ i j, i < j → j < k.time.length → k.time.getD i 0 < k.time.getD j 0 := by
    intro i j hij hj
    rw [List.getD_eq_getElem?_getD, List.getD_eq_getElem?_getD, List.getElem?_eq_getElem hj, List.getElem?_eq_getElem (by omega)]
    exact List.pairwise_iff_getElem.1 h1 i j (by omega) hj hij
  unfold meanSq
  apply div_nonneg
  · apply sum_nonneg
    intro y hy
    obtain ⟨i, hi, rfl⟩ := List.mem_map.1 hy
    rw [List.mem_range] at hi
    have := lt i (i + 1) (by omega) (by omega)
    apply mul_nonneg
    · linarith
    · exact sq_nonneg _
  · have := lt 0 (k.time.length - 1) (by omega) (by omega)
    linarith

/-- **C83.**  There is a result when at least two times are given in increasing order, and the currents on each net add up to zero. -/
theorem C83_succeeds_partial (sqrt : Rat → Rat) {order : List Pin → List Pin} (ho : ∀ l, (order l).Perm l) (pg : List String)
    (insts : List Inst) {ks : List Flow} (hk : ∀ k ∈ ks, (k.cur.map Prod.fst).Nodup)
    (ht : ∀ k ∈ ks, 2 ≤ k.time.length ∧ k.time.Pairwise (· < ·))
    (hK : ∀ k ∈ ks, ∀ n, n ∉ pg → ∀ i < k.time.length, Kirchhoff k i (carriers insts k n)) :
    (charge sqrt order pg insts ks).isSome := by
  unfold charge
  rw [Option.isSome_map]
  apply Pnr.mapM_isSome
  intro k hkk
  unfold flow
  rw [Option.isSome_map]
  apply Pnr.mapM_isSome
  intro n hn
  rw [Option.isSome_map]
  unfold flowNet
  have hp : (pairs k.time.length (given k (order (pinsOf insts n)))).isSome := by
    unfold pairs
    apply foldlM_isSome
    rintro ⟨i, snk, src⟩ hj pp
    obtain ⟨hi, k1, k2, k3, k4⟩ := mem_jobs.1 hj
    unfold job
    simp only
    rw [if_neg]
    · rfl
    · rw [sumc_eq ho (hk k hkk)]
      apply sumc_ne_zero (hK k hkk n (mem_nets.1 hn).2 i hi) ((mem_given_keys ho n snk.1).1 (List.mem_map_of_mem k1))
      rw [← at_given k1]; exact k2
  obtain ⟨pp, hpp⟩ := Option.isSome_iff_exists.1 hp
  rw [hpp, Option.bind_some]
  apply Pnr.mapM_isSome
  intro e _
  rw [Option.isSome_map, rms_eq]
  obtain ⟨h2, h1⟩ := ht k hkk
  have hd : k.time.getD (k.time.length - 1) 0 - k.time.getD 0 0 ≠ 0 := by
    rw [List.getD_eq_getElem?_getD, List.getD_eq_getElem?_getD, List.getElem?_eq_getElem (by omega), List.getElem?_eq_getElem (by omega)]
    have := List.pairwise_iff_getElem.1 h1 0 (k.time.length - 1) (by omega) (by omega) (by omega)
    simp only [Option.getD_some]
    intro h
    linarith
  rw [if_neg hd, if_neg (not_lt.2 (meanSq_nonneg h1 h2 _))]
  rfl

/-! ## A case, and where it fails -/

instance : DecidableEq (List ((Pin × Pin) × Rat)) := inferInstance

instance : DecidableEq (List (String × List ((Pin × Pin) × Rat))) := inferInstance

/-- What the constraint checks when it is read (align/schema/constraint.py 1338-1351): at least one time; the pin names an
instance, in upper or lower case; as many currents as times. -/
def checked (insts : List Inst) (k : Flow) : Bool :=
  decide (1 ≤ k.time.length) && k.cur.all fun e => decide (e.2.length = k.time.length) &&
    insts.any fun x => decide (x.name.toList = (e.1.toList.takeWhile (· ≠ '/')).map Char.toUpper)

def pair : List Inst := [{ name := "A", conn := [("P", "N1"), ("Q", "VDD")] }, { name := "B", conn := [("P", "N1"), ("Q", "N2")] },
  { name := "C", conn := [("P", "N1"), ("Q", "N2")] }]

def flows : Flow := { time := [0, 1, 3], cur := [("A/P", [4, 4, -2]), ("B/P", [-1, -3, 1]), ("C/P", [-3, -1, 1])] }

example : (∀ k ∈ [flows], (k.cur.map Prod.fst).Nodup) ∧ (∀ k ∈ [flows], 2 ≤ k.time.length ∧ k.time.Pairwise (· < ·)) ∧
    checked pair flows = true ∧ charge (fun q => q) (fun l => l) ["VDD"] pair [flows] =
      some [[("N1", [(("A/P", "B/P"), 1), (("A/P", "C/P"), 1 / 2)])]] := by
  decide +kernel

/-- The currents of `flows` add up to zero on each net: the hypotheses of `C83_succeeds_partial` can be met. -/
example : ∀ n, n ∉ ["VDD"] → ∀ i < flows.time.length, Kirchhoff flows i (carriers pair flows n) := by
  intro n _ i hi
  have h : ∀ p ∈ flows.cur.map Prod.fst, onNet pair n p = decide (n = "N1") := by
    intro p hp
    by_cases hn : n = "N1"
    · subst hn
      revert p
      decide +kernel
    · simp only [flows, List.map_cons, List.map_nil, List.mem_cons, List.not_mem_nil, or_false] at hp
      have hn' : ¬ "N1" = n := fun h => hn h.symm
      rcases hp with rfl | rfl | rfl <;> simp [onNet, pair, hn, hn']
  unfold carriers
  rw [List.filter_congr h]
  by_cases hn : n = "N1"
  · simp only [hn, decide_true]
    revert i
    unfold Kirchhoff
    decide +kernel
  · simp [hn, Kirchhoff]

/-- **C83 is violated**: a pin with current 0 next to a sink makes a division by zero, though the constraint is accepted. -/
theorem C83_violated_zero : ∃ k, checked pair k = true ∧ k.time = [0, 1] ∧ ∀ sqrt, charge sqrt (fun l => l) ["VDD"] pair [k] = none := by
  refine ⟨{ time := [0, 1], cur := [("A/P", [0, 1]), ("B/P", [-1, -1])] }, by decide +kernel, rfl, ?_⟩
  intro sqrt
  have h : pairs 2 (given { time := [0, 1], cur := [("A/P", [0, 1]), ("B/P", [-1, -1])] } (pinsOf pair "N1")) = none := by decide +kernel
  have hn : nets ["VDD"] pair = ["N1", "N2"] := by decide +kernel
  simp [charge, flow, flowNet, hn, h]

/-- **C83 is violated**: one time is accepted, but makes a division by zero. -/
theorem C83_violated_single : ∃ k, checked pair k = true ∧ k.time.length = 1 ∧
    ∀ sqrt, charge sqrt (fun l => l) ["VDD"] pair [k] = none := by
  refine ⟨{ time := [0], cur := [("A/P", [1]), ("B/P", [-1])] }, by decide +kernel, rfl, ?_⟩
  intro sqrt
  have h : pairs 1 (given { time := [0], cur := [("A/P", [1]), ("B/P", [-1])] } (pinsOf pair "N1")) = some [(("A/P", "B/P"), [1])] := by
    decide +kernel
  have hn : nets ["VDD"] pair = ["N1", "N2"] := by decide +kernel
  simp [charge, flow, flowNet, hn, h, rms]

/-- **C83 is violated**: pins in lower case are accepted, but have no effect. -/
theorem C83_violated_case : ∃ k, checked pair k = true ∧ k.cur = [("a/p", [1, 1]), ("b/p", [-1, -1])] ∧
    charge (fun q => q) (fun l => l) ["VDD"] pair [k] = some [[]] := by
  refine ⟨{ time := [0, 1], cur := [("a/p", [1, 1]), ("b/p", [-1, -1])] }, by decide +kernel, rfl, by decide +kernel⟩

end Verif.Charge

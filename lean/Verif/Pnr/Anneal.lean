import Mathlib.Data.Rat.Defs
import Mathlib.Algebra.Order.Ring.Rat
import Mathlib.Algebra.Order.Field.Rat

/-!
# C117: what the annealing of the placer keeps

`Placer::PlacementCoreAspectRatio_ILP` (`placer/Placer.cpp` 217-416) from the point where it anneals (270 on), with `ReshapeSeqPairMap`
(432-445). Sequence pairs, solutions and all that is random are of any type: what the solver and the moves do is a parameter and may
depend on everything done before. The cache answers as shown in `Verif/Pnr/SeqCache.lean` (C116).

Simplifications: floating point numbers are rationals; the number that `exp` and `rand` decide by is a parameter; logging is left out.
The list `tried` is not in the code: it records each call of the solver with its result.
-/

namespace Verif.Anneal

/-! ## The code -/

variable {ω σ τ κ : Type}

/-- What the loop calls: a new solver (344), `GenerateValidSolution` or `GenerateValidSolution_select` with the solver and the sequence
pair they change, `PerturbationNew`, what the cache distinguishes, and the test of 371-375 for worse costs, given the temperature. -/
structure Env (ω σ τ κ : Type) where
  fresh : τ
  solve : ω → τ → σ → ω × τ × σ × Rat
  perturb : ω → σ → ω × σ × Bool
  key : σ → κ
  climb : ω → Rat → Rat → ω × Bool

/-- `PlacerHyperparameters` with `effort` and `nodeSize`, and `__DBL_MAX__`. -/
structure Hyper where
  initTrials : Int
  cacheHits : Int
  iters : Nat
  start : Rat
  stop : Rat
  alpha : Rat
  effort : Int
  keep : Nat
  useCache : Bool
  big : Rat

/-- The variables of the loop. -/
structure St (ω σ τ κ : Type) where
  world : ω
  cache : List (κ × Rat)
  sp : σ
  sol : τ
  cost : Rat
  kept : List (Rat × σ × τ)
  tried : List (σ × τ × Rat)

/-- `isSeqInCache` with the cost. -/
def look [DecidableEq κ] (use : Bool) (k : κ) : List (κ × Rat) → Option Rat
  | [] => none
  | e :: l => if use = true ∧ e.1 = k then some e.2 else look use k l

/-- `oData[cost] = ..` on a map ordered by cost. -/
def put (c : Rat) (v : σ × τ) : List (Rat × σ × τ) → List (Rat × σ × τ)
  | [] => [(c, v)]
  | e :: l => if c < e.1 then (c, v) :: e :: l else if c = e.1 then (c, v) :: l else e :: put c v l

/-- The first loop (271-292); `k` rounds are left. -/
def begin [DecidableEq κ] (E : Env ω σ τ κ) (H : Hyper) : Nat → St ω σ τ κ → St ω σ τ κ
  | 0, s => s
  | k + 1, s =>
    let s' := match look H.useCache (E.key s.sp) s.cache with
      | some _ => s
      | none =>
        let r := E.solve s.world s.sol s.sp
        { s with world := r.1, sol := r.2.1, sp := r.2.2.1, cost := r.2.2.2, cache := (E.key r.2.2.1, r.2.2.2) :: s.cache,
                 tried := s.tried ++ [(r.2.2.1, r.2.1, r.2.2.2)] }
    if 0 < s'.cost then s'
    else
      let q := E.perturb s'.world s'.sp
      begin E H k { s' with world := q.1, sp := q.2.1 }

/-- The moves until one is new (335-341). -/
def draw [DecidableEq κ] (E : Env ω σ τ κ) (H : Hyper) (cache : List (κ × Rat)) : Nat → ω → σ → ω × σ
  | 0, w, sp => (w, sp)
  | k + 1, w, sp =>
    let q := E.perturb w sp
    if q.2.2 = false then draw E H cache k q.1 q.2.1
    else if look H.useCache (E.key q.2.1) cache = none then (q.1, q.2.1)
    else draw E H cache k q.1 q.2.1

/-- `Smark` (362-378). -/
def smark (E : Env ω σ τ κ) (w : ω) (t cost c : Rat) : ω × Bool := if c - cost < 0 then (w, true) else E.climb w t (c - cost)

/-- One round of the inner loop (325-396). -/
def trial [DecidableEq κ] (E : Env ω σ τ κ) (H : Hyper) (t : Rat) (s : St ω σ τ κ) : St ω σ τ κ :=
  let d := draw E H s.cache (H.cacheHits - 1).toNat s.world s.sp
  let s' := match look H.useCache (E.key d.2) s.cache with
    | none =>
      let r := E.solve d.1 E.fresh d.2
      let s₁ : St ω σ τ κ :=
        { s with world := r.1, cache := (E.key r.2.2.1, r.2.2.2) :: s.cache, tried := s.tried ++ [(r.2.2.1, r.2.1, r.2.2.2)],
                 kept := if 0 ≤ r.2.2.2 then put r.2.2.2 (r.2.2.1, r.2.1) s.kept else s.kept }
      if 0 ≤ r.2.2.2 then
        let m := smark E r.1 t s.cost r.2.2.2
        if m.2 then { s₁ with world := m.1, cost := r.2.2.2, sp := r.2.2.1, sol := r.2.1 } else { s₁ with world := m.1 }
      else s₁
    | some c =>
      if 0 ≤ c then
        let m := smark E d.1 t s.cost c
        if m.2 then
          let r := E.solve m.1 E.fresh d.2
          { s with world := r.1, cost := r.2.2.2, sp := r.2.2.1, sol := r.2.1, tried := s.tried ++ [(r.2.2.1, r.2.1, r.2.2.2)] }
        else { s with world := m.1 }
      else { s with world := d.1 }
  { s' with kept := s'.kept.take H.keep }

/-- The inner loop (317-396), `k` rounds. -/
def trials [DecidableEq κ] (E : Env ω σ τ κ) (H : Hyper) (t : Rat) : Nat → St ω σ τ κ → St ω σ τ κ
  | 0, s => s
  | k + 1, s => trials E H t k (trial E H t s)

/-- The outer loop (315-408); the break at `SA_MAX_ITER` leaves at most `k` rounds. -/
def anneal [DecidableEq κ] (E : Env ω σ τ κ) (H : Hyper) : Nat → Rat → St ω σ τ κ → St ω σ τ κ
  | 0, _, s => s
  | k + 1, t, s => if H.stop < t then anneal E H k (t * H.alpha) (trials E H t (max H.effort 1).toNat s) else s

/-- The first solution (294-301). -/
def first (H : Hyper) (s : St ω σ τ κ) : St ω σ τ κ :=
  let c := if s.cost < 0 then H.big else s.cost
  { s with cost := c, kept := (put c (s.sp, s.sol) []).take H.keep }

/-- From 222 on, without enumeration and without the other placer. -/
def place [DecidableEq κ] (E : Env ω σ τ κ) (H : Hyper) (w : ω) (sp : σ) (sol : τ) : St ω σ τ κ :=
  anneal E H (max H.iters 1) H.start (first H (begin E H (H.initTrials - 1).toNat ⟨w, [], sp, sol, 0, [], []⟩))

/-! ## What the property says -/

/-- The cheapest: a cost is kept, or as many as asked for are kept and all are cheaper. -/
def Cheapest (n : Nat) (kept : List (Rat × σ × τ)) (c : Rat) : Prop :=
  (∃ e ∈ kept, e.1 = c) ∨ (kept.length = n ∧ ∀ e ∈ kept, e.1 < c)

/-! ## Proofs -/

theorem mem_put {c : Rat} {v : σ × τ} : ∀ {l : List (Rat × σ × τ)} {e : Rat × σ × τ}, e ∈ put c v l → e = (c, v) ∨ e ∈ l
  | [], e, h => by simp only [put, List.mem_singleton] at h; exact Or.inl h
  | a :: l, e, h => by
    unfold put at h
    by_cases h1 : c < a.1
    · rw [if_pos h1] at h
      exact List.mem_cons.1 h
    · rw [if_neg h1] at h
      by_cases h2 : c = a.1
      · rw [if_pos h2] at h
        exact (List.mem_cons.1 h).imp id (List.mem_cons_of_mem _)
      · rw [if_neg h2] at h
        rcases List.mem_cons.1 h with h | h
        · exact Or.inr (by rw [h]; exact List.mem_cons_self)
        · exact (mem_put h).imp id (List.mem_cons_of_mem _)

theorem put_self (c : Rat) (v : σ × τ) : ∀ l : List (Rat × σ × τ), (c, v) ∈ put c v l
  | [] => by simp [put]
  | a :: l => by
    unfold put
    by_cases h1 : c < a.1
    · rw [if_pos h1]; exact List.mem_cons_self
    · rw [if_neg h1]
      by_cases h2 : c = a.1
      · rw [if_pos h2]; exact List.mem_cons_self
      · rw [if_neg h2]; exact List.mem_cons_of_mem _ (put_self c v l)

theorem put_keeps {c : Rat} {v : σ × τ} : ∀ {l : List (Rat × σ × τ)} {e : Rat × σ × τ}, e ∈ l → ∃ e' ∈ put c v l, e'.1 = e.1
  | [], e, h => absurd h (by simp)
  | a :: l, e, h => by
    unfold put
    by_cases h1 : c < a.1
    · rw [if_pos h1]; exact ⟨e, List.mem_cons_of_mem _ h, rfl⟩
    · rw [if_neg h1]
      by_cases h2 : c = a.1
      · rw [if_pos h2]
        rcases List.mem_cons.1 h with h | h
        · exact ⟨(c, v), List.mem_cons_self, by rw [h]; exact h2⟩
        · exact ⟨e, List.mem_cons_of_mem _ h, rfl⟩
      · rw [if_neg h2]
        rcases List.mem_cons.1 h with h | h
        · exact ⟨e, by rw [h]; exact List.mem_cons_self, rfl⟩
        · obtain ⟨e', h3, h4⟩ := put_keeps (c := c) (v := v) h
          exact ⟨e', List.mem_cons_of_mem _ h3, h4⟩

theorem length_put (c : Rat) (v : σ × τ) : ∀ l : List (Rat × σ × τ), l.length ≤ (put c v l).length
  | [] => by simp
  | a :: l => by
    unfold put
    by_cases h1 : c < a.1
    · rw [if_pos h1]; simp
    · rw [if_neg h1]
      by_cases h2 : c = a.1
      · rw [if_pos h2]; simp
      · rw [if_neg h2]
        have := length_put c v l
        simp only [List.length_cons]; omega

/-- In order of cost. -/
def Sorted (l : List (Rat × σ × τ)) : Prop := l.Pairwise (fun a b => a.1 < b.1)

theorem sorted_put {c : Rat} {v : σ × τ} : ∀ {l : List (Rat × σ × τ)}, Sorted l → Sorted (put c v l)
  | [], _ => by simp [put, Sorted]
  | a :: l, h => by
    have h' := List.pairwise_cons.1 h
    unfold put
    by_cases h1 : c < a.1
    · rw [if_pos h1]
      refine List.pairwise_cons.2 ⟨fun e he => ?_, h⟩
      rcases List.mem_cons.1 he with he | he
      · rw [he]; exact h1
      · exact lt_trans h1 (h'.1 e he)
    · rw [if_neg h1]
      by_cases h2 : c = a.1
      · rw [if_pos h2]
        refine List.pairwise_cons.2 ⟨fun e he => ?_, h'.2⟩
        show c < e.1
        rw [h2]; exact h'.1 e he
      · rw [if_neg h2]
        refine List.pairwise_cons.2 ⟨fun e he => ?_, sorted_put h'.2⟩
        rcases mem_put he with he | he
        · rw [he]; exact lt_of_le_of_ne (not_lt.1 h1) (fun e => h2 e.symm)
        · exact h'.1 e he

/-- Cutting a list in order keeps the cheapest. -/
theorem cheapest_take {n : Nat} {l : List (Rat × σ × τ)} (hs : Sorted l) {c : Rat} (h : (∃ e ∈ l, e.1 = c) ∨ (n ≤ l.length ∧ ∀ e ∈ l.take n, e.1 < c)) :
    Cheapest n (l.take n) c := by
  rcases h with ⟨e, he, hc⟩ | ⟨h1, h2⟩
  · rw [← List.take_append_drop n l] at he hs
    rcases List.mem_append.1 he with he | he
    · exact Or.inl ⟨e, he, hc⟩
    · refine Or.inr ⟨?_, fun a ha => ?_⟩
      · have : (l.drop n).length ≠ 0 := by
          intro e0
          rw [List.length_eq_zero_iff.1 e0] at he
          simp at he
        rw [List.length_drop] at this
        rw [List.length_take]; omega
      · rw [← hc]
        exact (List.pairwise_append.1 hs).2.2 a ha e he
  · exact Or.inr ⟨by rw [List.length_take]; omega, h2⟩

theorem put_take_lt {n : Nat} {c x : Rat} {v : σ × τ} : ∀ {l : List (Rat × σ × τ)}, Sorted l → l.length = n → (∀ e ∈ l, e.1 < c) →
    ∀ e ∈ (put x v l).take n, e.1 < c := by
  intro l hs hn hl e he
  by_cases hx : x < c
  · rcases mem_put (List.mem_of_mem_take he) with h | h
    · rw [h]; exact hx
    · exact hl e h
  · -- the new cost is larger than all, so it comes last
    have happ : ∀ l : List (Rat × σ × τ), (∀ e ∈ l, e.1 < c) → put x v l = l ++ [(x, v)] := by
      intro l
      induction l with
      | nil => intro _; rfl
      | cons a l ih =>
        intro h
        have ha := h a List.mem_cons_self
        have h1 : ¬ x < a.1 := not_lt.2 (le_trans (le_of_lt ha) (not_lt.1 hx))
        have h2 : ¬ x = a.1 := fun e => hx (by rw [e]; exact ha)
        unfold put
        rw [if_neg h1, if_neg h2, ih (fun e he => h e (List.mem_cons_of_mem _ he))]
        rfl
    rw [happ l hl, List.take_append_of_le_length (by omega)] at he
    exact hl e (List.mem_of_mem_take he)

theorem cheapest_put {n : Nat} {x c : Rat} {v : σ × τ} {l : List (Rat × σ × τ)} (hs : Sorted l) (h : Cheapest n l c) :
    Cheapest n ((put x v l).take n) c := by
  apply cheapest_take (sorted_put hs)
  rcases h with ⟨e, he, hc⟩ | ⟨h1, h2⟩
  · obtain ⟨e', he', hc'⟩ := put_keeps (c := x) (v := v) he
    exact Or.inl ⟨e', he', hc'.trans hc⟩
  · have := length_put x v l
    exact Or.inr ⟨by omega, put_take_lt hs h1 h2⟩

theorem cheapest_self {n : Nat} {x : Rat} {v : σ × τ} {l : List (Rat × σ × τ)} (hs : Sorted l) : Cheapest n ((put x v l).take n) x :=
  cheapest_take (sorted_put hs) (Or.inl ⟨(x, v), put_self x v l, rfl⟩)

theorem cheapest_cut {n : Nat} {c : Rat} {l : List (Rat × σ × τ)} (hl : l.length ≤ n) (h : Cheapest n l c) : Cheapest n (l.take n) c := by
  rw [List.take_of_length_le hl]; exact h

/-! ### What is kept -/

/-- What always holds of the solutions kept: in order, not too many, each a result of the solver or the first one. -/
structure Kept (n : Nat) (ok : Rat × σ × τ → Prop) (s : St ω σ τ κ) : Prop where
  sorted : Sorted s.kept
  few : s.kept.length ≤ n
  some : 1 ≤ n → s.kept ≠ []
  good : ∀ e ∈ s.kept, ok e ∨ (0 ≤ e.1 ∧ (e.2.1, e.2.2, e.1) ∈ s.tried)

theorem put_ne_nil {c : Rat} {v : σ × τ} {l : List (Rat × σ × τ)} : put c v l ≠ [] := by
  intro e
  have := put_self c v l
  rw [e] at this
  simp at this

theorem take_ne_nil {α : Type} {n : Nat} (h : 1 ≤ n) {l : List α} (hl : l ≠ []) : l.take n ≠ [] := by
  intro e
  rcases List.take_eq_nil_iff.1 e with h' | h'
  · omega
  · exact hl h'

variable [DecidableEq κ]

/-- The cases of a round. -/
theorem trial_cases (E : Env ω σ τ κ) (H : Hyper) (t : Rat) (s : St ω σ τ κ) :
    ∃ d : ω × σ, d = draw E H s.cache (H.cacheHits - 1).toNat s.world s.sp ∧
    ((∃ r, look H.useCache (E.key d.2) s.cache = none ∧ r = E.solve d.1 E.fresh d.2
        ∧ (trial E H t s).tried = s.tried ++ [(r.2.2.1, r.2.1, r.2.2.2)]
        ∧ (trial E H t s).cache = (E.key r.2.2.1, r.2.2.2) :: s.cache
        ∧ (trial E H t s).kept = (if 0 ≤ r.2.2.2 then put r.2.2.2 (r.2.2.1, r.2.1) s.kept else s.kept).take H.keep)
      ∨ (∃ c, look H.useCache (E.key d.2) s.cache = some c ∧ (trial E H t s).kept = s.kept.take H.keep
        ∧ (trial E H t s).cache = s.cache
        ∧ ((trial E H t s).tried = s.tried ∨ ∃ w r, 0 ≤ c ∧ r = E.solve w E.fresh d.2
          ∧ (trial E H t s).tried = s.tried ++ [(r.2.2.1, r.2.1, r.2.2.2)]))) := by
  refine ⟨_, rfl, ?_⟩
  unfold trial
  simp only
  cases hl : look H.useCache (E.key (draw E H s.cache (H.cacheHits - 1).toNat s.world s.sp).2) s.cache with
  | none =>
    refine Or.inl ⟨_, rfl, rfl, ?_⟩
    simp only
    by_cases h0 : 0 ≤ (E.solve (draw E H s.cache (H.cacheHits - 1).toNat s.world s.sp).1 E.fresh (draw E H s.cache (H.cacheHits - 1).toNat s.world s.sp).2).2.2.2
    · simp only [if_pos h0]
      by_cases hm : (smark E (E.solve (draw E H s.cache (H.cacheHits - 1).toNat s.world s.sp).1 E.fresh (draw E H s.cache (H.cacheHits - 1).toNat s.world s.sp).2).1 t s.cost (E.solve (draw E H s.cache (H.cacheHits - 1).toNat s.world s.sp).1 E.fresh (draw E H s.cache (H.cacheHits - 1).toNat s.world s.sp).2).2.2.2).2 = true
      · simp only [if_pos hm]; exact ⟨trivial, trivial, trivial⟩
      · simp only [if_neg hm]; exact ⟨trivial, trivial, trivial⟩
    · simp only [if_neg h0]; exact ⟨trivial, trivial, trivial⟩
  | some c =>
    refine Or.inr ⟨c, rfl, ?_⟩
    simp only
    by_cases h0 : 0 ≤ c
    · simp only [if_pos h0]
      by_cases hm : (smark E (draw E H s.cache (H.cacheHits - 1).toNat s.world s.sp).1 t s.cost c).2 = true
      · simp only [if_pos hm]; exact ⟨trivial, trivial, Or.inr ⟨_, _, h0, rfl, rfl⟩⟩
      · simp only [if_neg hm]; exact ⟨trivial, trivial, Or.inl trivial⟩
    · simp only [if_neg h0]; exact ⟨trivial, trivial, Or.inl trivial⟩

theorem kept_trial {E : Env ω σ τ κ} {H : Hyper} {t : Rat} {ok : Rat × σ × τ → Prop} {s : St ω σ τ κ} (h : Kept H.keep ok s) :
    Kept H.keep ok (trial E H t s) := by
  obtain ⟨d, _, h' | h'⟩ := trial_cases E H t s
  · obtain ⟨r, _, _, h2, _, h3⟩ := h'
    have hs : Sorted (if 0 ≤ r.2.2.2 then put r.2.2.2 (r.2.2.1, r.2.1) s.kept else s.kept) := by
      by_cases h0 : 0 ≤ r.2.2.2
      · rw [if_pos h0]; exact sorted_put h.sorted
      · rw [if_neg h0]; exact h.sorted
    constructor
    · rw [h3]; exact hs.sublist (List.take_sublist _ _)
    · rw [h3, List.length_take]; exact Nat.min_le_left _ _
    · intro hn
      rw [h3]
      apply take_ne_nil hn
      by_cases h0 : 0 ≤ r.2.2.2
      · rw [if_pos h0]; exact put_ne_nil
      · rw [if_neg h0]; exact h.some hn
    · intro e he
      rw [h3] at he
      rw [h2]
      have old : e ∈ s.kept → ok e ∨ (0 ≤ e.1 ∧ (e.2.1, e.2.2, e.1) ∈ s.tried ++ [(r.2.2.1, r.2.1, r.2.2.2)]) := fun k =>
        (h.good e k).imp id (fun q => ⟨q.1, List.mem_append_left _ q.2⟩)
      have he := List.mem_of_mem_take he
      by_cases h0 : 0 ≤ r.2.2.2
      · rw [if_pos h0] at he
        rcases mem_put he with k | k
        · rw [k]; exact Or.inr ⟨h0, List.mem_append_right _ List.mem_cons_self⟩
        · exact old k
      · rw [if_neg h0] at he; exact old he
  · obtain ⟨c, _, h2, _, h3⟩ := h'
    rw [List.take_of_length_le h.few] at h2
    refine ⟨by rw [h2]; exact h.sorted, by rw [h2]; exact h.few, fun hn => by rw [h2]; exact h.some hn, fun e he => ?_⟩
    rw [h2] at he
    rcases h3 with h3 | ⟨w, r, _, _, h3⟩
    · rw [h3]; exact h.good e he
    · rw [h3]; exact (h.good e he).imp id (fun q => ⟨q.1, List.mem_append_left _ q.2⟩)

theorem anneal_inv {E : Env ω σ τ κ} {H : Hyper} {P : St ω σ τ κ → Prop} (hP : ∀ t s, P s → P (trial E H t s)) :
    ∀ {k : Nat} {t : Rat} {s : St ω σ τ κ}, P s → P (anneal E H k t s) := by
  have h1 : ∀ (t : Rat) (k : Nat) (s : St ω σ τ κ), P s → P (trials E H t k s) := by
    intro t k
    induction k with
    | zero => intro s h; exact h
    | succ k ih => intro s h; exact ih _ (hP t s h)
  intro k
  induction k with
  | zero => intro t s h; exact h
  | succ k ih =>
    intro t s h
    unfold anneal
    by_cases ht : H.stop < t
    · rw [if_pos ht]; exact ih (h1 _ _ _ h)
    · rw [if_neg ht]; exact h

omit [DecidableEq κ] in
theorem kept_first {H : Hyper} {s : St ω σ τ κ} (ok : Rat × σ × τ → Prop)
    (h : ok (if s.cost < 0 then H.big else s.cost, s.sp, s.sol)
      ∨ (0 ≤ (if s.cost < 0 then H.big else s.cost) ∧ (s.sp, s.sol, if s.cost < 0 then H.big else s.cost) ∈ s.tried)) :
    Kept H.keep ok (first H s) := by
  constructor
  · exact (sorted_put (l := ([] : List (Rat × σ × τ))) List.Pairwise.nil).sublist (List.take_sublist _ _)
  · show (List.take _ _).length ≤ _
    rw [List.length_take]; exact Nat.min_le_left _ _
  · intro hn; exact take_ne_nil hn put_ne_nil
  · intro e he
    have he := List.mem_of_mem_take he
    rcases mem_put he with k | k
    · rw [k]; exact h
    · simp at k

/-- C117: what is kept is in order of cost, all costs differ, and it is no more than asked for, and not nothing. -/
theorem C117_few (E : Env ω σ τ κ) (H : Hyper) (w : ω) (sp : σ) (sol : τ) :
    (place E H w sp sol).kept.Pairwise (fun a b => a.1 < b.1) ∧ (place E H w sp sol).kept.length ≤ H.keep
      ∧ (1 ≤ H.keep → (place E H w sp sol).kept ≠ []) := by
  have h : Kept H.keep (fun _ => True) (place E H w sp sol) := anneal_inv (fun t s h => kept_trial h) (kept_first _ (Or.inl trivial))
  exact ⟨h.sorted, h.few, h.some⟩

theorem begin_found {E : Env ω σ τ κ} {H : Hyper} : ∀ {k : Nat} {s : St ω σ τ κ},
    (0 < s.cost → (s.sp, s.sol, s.cost) ∈ s.tried) →
    0 < (begin E H k s).cost → ((begin E H k s).sp, (begin E H k s).sol, (begin E H k s).cost) ∈ (begin E H k s).tried
  | 0, s, hs, h => hs h
  | k + 1, s, hs, h => by
    unfold begin at h ⊢
    simp only at h ⊢
    cases hl : look H.useCache (E.key s.sp) s.cache with
    | some c =>
      simp only [hl] at h ⊢
      by_cases h0 : 0 < s.cost
      · simp only [if_pos h0] at h ⊢; exact hs h0
      · simp only [if_neg h0] at h ⊢
        exact begin_found (fun q => absurd q h0) h
    | none =>
      simp only [hl] at h ⊢
      by_cases h0 : 0 < (E.solve s.world s.sol s.sp).2.2.2
      · simp only [if_pos h0] at h ⊢
        exact List.mem_append_right _ List.mem_cons_self
      · simp only [if_neg h0] at h ⊢
        exact begin_found (fun q => absurd q h0) h

/-- C117, in part: if the first loop finds a solution, everything kept is a result of the solver with a cost that is not negative, kept
under this cost and with the sequence pair it is for. -/
theorem C117_valid_partial (E : Env ω σ τ κ) (H : Hyper) (w : ω) (sp : σ) (sol : τ)
    (h : 0 < (begin E H (H.initTrials - 1).toNat ⟨w, [], sp, sol, 0, [], []⟩).cost) :
    ∀ e ∈ (place E H w sp sol).kept, 0 ≤ e.1 ∧ (e.2.1, e.2.2, e.1) ∈ (place E H w sp sol).tried := by
  have hk : Kept H.keep (fun _ => False) (place E H w sp sol) := by
    refine anneal_inv (fun t s h => kept_trial h) (kept_first _ (Or.inr ?_))
    rw [if_neg (not_lt.2 (le_of_lt h))]
    exact ⟨le_of_lt h, begin_found (fun q => absurd q (lt_irrefl _)) h⟩
  exact fun e he => (hk.good e he).resolve_left id

/-! ### The cheapest are kept -/

/-- The cost is a matter of what the cache distinguishes. -/
structure Fair (E : Env ω σ τ κ) (f : κ → Rat) : Prop where
  cost : ∀ w t sp, (E.solve w t sp).2.2.2 = f (E.key sp)
  key : ∀ w t sp, E.key (E.solve w t sp).2.2.1 = E.key sp

theorem look_mem {use : Bool} {k : κ} {c : Rat} : ∀ {l : List (κ × Rat)}, look use k l = some c → (k, c) ∈ l
  | [], h => by simp [look] at h
  | e :: l, h => by
    unfold look at h
    by_cases h1 : use = true ∧ e.1 = k
    · rw [if_pos h1] at h
      rw [← h1.2, ← Option.some.inj h]
      exact List.mem_cons_self
    · rw [if_neg h1] at h
      exact List.mem_cons_of_mem _ (look_mem h)

/-- What holds of all tried. -/
structure Best (f : κ → Rat) (n : Nat) (s : St ω σ τ κ) : Prop where
  sorted : Sorted s.kept
  few : s.kept.length ≤ n
  cache : ∀ e ∈ s.cache, e.2 = f e.1 ∧ (0 < e.2 → Cheapest n s.kept e.2)
  tried : ∀ e ∈ s.tried, 0 < e.2.2 → Cheapest n s.kept e.2.2

theorem best_trial {E : Env ω σ τ κ} {f : κ → Rat} (hf : Fair E f) {H : Hyper} {t : Rat} {s : St ω σ τ κ} (h : Best f H.keep s) :
    Best f H.keep (trial E H t s) := by
  obtain ⟨d, _, h' | h'⟩ := trial_cases E H t s
  · obtain ⟨r, _, hr, h2, h4, h3⟩ := h'
    have hs : Sorted (if 0 ≤ r.2.2.2 then put r.2.2.2 (r.2.2.1, r.2.1) s.kept else s.kept) := by
      by_cases h0 : 0 ≤ r.2.2.2
      · rw [if_pos h0]; exact sorted_put h.sorted
      · rw [if_neg h0]; exact h.sorted
    have hold : ∀ c, Cheapest H.keep s.kept c → Cheapest H.keep (trial E H t s).kept c := by
      intro c hc
      rw [h3]
      by_cases h0 : 0 ≤ r.2.2.2
      · rw [if_pos h0]; exact cheapest_put h.sorted hc
      · rw [if_neg h0]; exact cheapest_cut h.few hc
    have hnew : 0 < r.2.2.2 → Cheapest H.keep (trial E H t s).kept r.2.2.2 := by
      intro h0
      rw [h3, if_pos (le_of_lt h0)]
      exact cheapest_self h.sorted
    constructor
    · rw [h3]; exact hs.sublist (List.take_sublist _ _)
    · rw [h3, List.length_take]; exact Nat.min_le_left _ _
    · intro e he
      rw [h4] at he
      rcases List.mem_cons.1 he with k | k
      · rw [k]
        exact ⟨by simp only [hr, hf.cost, hf.key], hnew⟩
      · exact ⟨(h.cache e k).1, fun q => hold _ ((h.cache e k).2 q)⟩
    · intro e he h0
      rw [h2] at he
      rcases List.mem_append.1 he with k | k
      · exact hold _ (h.tried e k h0)
      · rw [List.mem_singleton.1 k] at h0 ⊢
        exact hnew h0
  · obtain ⟨c, hc, h2, h4, h3⟩ := h'
    rw [List.take_of_length_le h.few] at h2
    refine ⟨by rw [h2]; exact h.sorted, by rw [h2]; exact h.few, by rw [h2, h4]; exact h.cache, ?_⟩
    rw [h2]
    rcases h3 with h3 | ⟨w, r, hc0, hr, h3⟩
    · rw [h3]; exact h.tried
    · rw [h3]
      intro e he h0
      rcases List.mem_append.1 he with k | k
      · exact h.tried e k h0
      · rw [List.mem_singleton.1 k] at h0 ⊢
        obtain ⟨k1, k2⟩ := h.cache _ (look_mem hc)
        simp only at k1 k2 h0 ⊢
        have : r.2.2.2 = c := by rw [hr, hf.cost, k1]
        rw [this] at h0 ⊢
        exact k2 h0

/-- The first loop: nothing tried before the end has a positive cost. -/
theorem begin_low {E : Env ω σ τ κ} {f : κ → Rat} (hf : Fair E f) {H : Hyper} : ∀ {k : Nat} {s : St ω σ τ κ},
    (∀ e ∈ s.cache, e.2 = f e.1 ∧ e.2 ≤ 0) → (∀ e ∈ s.tried, e.2.2 ≤ 0) →
    (∀ e ∈ (begin E H k s).cache, e.2 = f e.1 ∧ (0 < e.2 → e.2 = (begin E H k s).cost))
      ∧ ∀ e ∈ (begin E H k s).tried, 0 < e.2.2 → e.2.2 = (begin E H k s).cost
  | 0, s, h1, h2 => ⟨fun e he => ⟨(h1 e he).1, fun q => absurd q (not_lt.2 (h1 e he).2)⟩, fun e he q => absurd q (not_lt.2 (h2 e he))⟩
  | k + 1, s, h1, h2 => by
    unfold begin
    simp only
    cases hl : look H.useCache (E.key s.sp) s.cache with
    | some c =>
      simp only
      by_cases h0 : 0 < s.cost
      · simp only [if_pos h0]
        exact ⟨fun e he => ⟨(h1 e he).1, fun q => absurd q (not_lt.2 (h1 e he).2)⟩, fun e he q => absurd q (not_lt.2 (h2 e he))⟩
      · simp only [if_neg h0]
        exact begin_low hf h1 h2
    | none =>
      simp only
      have hkey : (E.solve s.world s.sol s.sp).2.2.2 = f (E.key (E.solve s.world s.sol s.sp).2.2.1) := by rw [hf.cost, hf.key]
      by_cases h0 : 0 < (E.solve s.world s.sol s.sp).2.2.2
      · simp only [if_pos h0]
        constructor
        · intro e he
          rcases List.mem_cons.1 he with q | q
          · rw [q]; exact ⟨hkey, fun _ => rfl⟩
          · exact ⟨(h1 e q).1, fun z => absurd z (not_lt.2 (h1 e q).2)⟩
        · intro e he z
          rcases List.mem_append.1 he with q | q
          · exact absurd z (not_lt.2 (h2 e q))
          · rw [List.mem_singleton.1 q]
      · simp only [if_neg h0]
        apply begin_low hf
        · intro e he
          rcases List.mem_cons.1 he with q | q
          · rw [q]; exact ⟨hkey, not_lt.1 h0⟩
          · exact h1 e q
        · intro e he
          rcases List.mem_append.1 he with q | q
          · exact h2 e q
          · rw [List.mem_singleton.1 q]; exact not_lt.1 h0

/-- C117, in part: if the cost is a matter of the sequences and the variants alone, then of all solutions ever tried with a positive cost
the cheapest are kept. -/
theorem C117_best_partial {E : Env ω σ τ κ} {f : κ → Rat} (hf : Fair E f) (H : Hyper) (w : ω) (sp : σ) (sol : τ) :
    ∀ e ∈ (place E H w sp sol).tried, 0 < e.2.2 → Cheapest H.keep (place E H w sp sol).kept e.2.2 := by
  have hb : Best f H.keep (place E H w sp sol) := by
    refine anneal_inv (fun t s h => best_trial hf h) ?_
    obtain ⟨h1, h2⟩ := begin_low hf (H := H) (k := (H.initTrials - 1).toNat) (s := ⟨w, [], sp, sol, 0, [], []⟩)
      (fun e he => absurd he (by simp)) (fun e he => absurd he (by simp))
    generalize begin E H (H.initTrials - 1).toNat ⟨w, [], sp, sol, 0, [], []⟩ = s at h1 h2
    have hc : ∀ c, 0 < c → c = s.cost → Cheapest H.keep (first H s).kept c := by
      intro c h0 e
      have : (if s.cost < 0 then H.big else s.cost) = c := by rw [if_neg (not_lt.2 (le_of_lt (by rw [← e]; exact h0)))]; exact e.symm
      unfold first
      simp only [this]
      exact cheapest_self List.Pairwise.nil
    constructor
    · exact (sorted_put (l := ([] : List (Rat × σ × τ))) List.Pairwise.nil).sublist (List.take_sublist _ _)
    · show (List.take _ _).length ≤ _
      rw [List.length_take]; exact Nat.min_le_left _ _
    · exact fun e he => ⟨(h1 e he).1, fun q => hc _ q ((h1 e he).2 q)⟩
    · exact fun e he q => hc _ q (h2 e he q)
  exact hb.tried

/-! ### An example -/

/-- Sequence pairs are numbers, a move adds one, and the solver has the costs of a table. -/
def toy (costs : List Rat) : Env Unit Nat Nat Nat where
  fresh := 0
  solve := fun _ _ sp => ((), sp, sp, costs.getD sp (-1))
  perturb := fun _ sp => ((), sp + 1, true)
  key := id
  climb := fun _ _ _ => ((), true)

/-- Ten rounds; two solutions asked for. -/
def toyHyper : Hyper := ⟨3, 10, 5, 1, 0, 1, 1, 2, true, 1000000⟩

theorem toy_fair (costs : List Rat) : Fair (toy costs) (fun sp => costs.getD sp (-1)) := ⟨fun _ _ _ => rfl, fun _ _ _ => rfl⟩

/-- The first try fails, the second has a solution; of four solutions the two cheapest are kept. -/
example : 0 < (begin (toy [-1, 7, 3, -1, 5, 2]) toyHyper (toyHyper.initTrials - 1).toNat ⟨(), [], 0, 0, 0, [], []⟩).cost
    ∧ (place (toy [-1, 7, 3, -1, 5, 2]) toyHyper () 0 0).kept = [(2, 5, 5), (3, 2, 2)] := by
  decide +kernel

/-- C117 does not hold in full: if the first loop finds no solution, the sequence pair it ends with is kept all the same with the
solver of the one before, which failed, and is returned if fewer solutions than asked for are found later. -/
theorem C117_violated : ∃ (E : Env Unit Nat Nat Nat) (f : Nat → Rat) (H : Hyper) (e : Rat × Nat × Nat), Fair E f ∧ 1 < H.initTrials
    ∧ e ∈ (place E H () 0 0).kept ∧ ¬ (∃ c, 0 ≤ c ∧ (e.2.1, e.2.2, c) ∈ (place E H () 0 0).tried)
    ∧ (∃ c, c < 0 ∧ (e.2.2, e.2.2, c) ∈ (place E H () 0 0).tried) := by
  refine ⟨toy [-1, -1, -1, 4], _, toyHyper, (1000000, 2, 1), toy_fair _, by decide, ?_, ?_, ?_⟩
  · decide +kernel
  · have key : (place (toy [-1, -1, -1, 4]) toyHyper () 0 0).tried.all (fun z => decide (z.1 = 2 → z.2.1 ≠ 1)) = true := by decide +kernel
    rintro ⟨c, _, h⟩
    exact of_decide_eq_true (List.all_eq_true.1 key _ h) rfl rfl
  · exact ⟨-1, by decide, by decide +kernel⟩

end Verif.Anneal

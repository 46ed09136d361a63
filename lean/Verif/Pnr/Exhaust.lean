import Verif.Pnr.Enum
import Verif.Pnr.Anneal

/-!
# C118: the placements kept when all sequence pairs are tried

The branch of `Placer::PlacementCoreAspectRatio_ILP` for small designs (`placer/Placer.cpp` 249-268). The sequence pairs come from the
enumerator in `Verif/Pnr/Enum.lean` (C104); `PerturbationNew` then asks it once (`SeqPair.cpp` 1703-1707, `retval` stays false).

Simplifications: as in `Verif/Pnr/Anneal.lean`. The solver does not change the sequence pair, which it gets as `const`
(`ILP_solver.h` 97); what it finds is a parameter and may depend on everything done before. The list `tried` is not in the code.
-/

namespace Verif.Exhaust

open Verif.Enum (Des Sp Mode Ok Next Has Choice choose start permute maxSize run)
open Verif.Anneal (put Cheapest)

/-! ## The code -/

/-- Positive sequence, negative sequence and variants. -/
abbrev Pair := List Nat × List Nat × List Nat

variable {ω τ : Type}

/-- The variables of the loop. -/
structure St (ω τ : Type) where
  world : ω
  sp : Sp
  kept : List (Rat × Pair × τ)
  tried : List (Pair × τ × Rat)

/-- The part of the sequence pair that the solver sees. -/
def seen (s : Sp) : Pair := (s.pos, s.neg, s.selected)

/-- One round (252-261). -/
def round (solve : ω → Pair → ω × τ × Rat) (step : Sp → Sp) (keep : Nat) (s : St ω τ) : St ω τ :=
  let r := solve s.world (seen s.sp)
  { world := r.1, sp := step s.sp, tried := s.tried ++ [(seen s.sp, r.2.1, r.2.2)],
    kept := if 0 ≤ r.2.2 then (put r.2.2 (seen s.sp, r.2.1) s.kept).take keep else s.kept }

/-- The loop (251-263); the guard at `SA_MAX_ITER` leaves `k` rounds. -/
def loop (solve : ω → Pair → ω × τ × Rat) (step : Sp → Sp) (keep : Nat) : Nat → St ω τ → St ω τ
  | 0, s => s
  | k + 1, s => if s.sp.done then s else loop solve step keep k (round solve step keep s)

/-- The branch. If `sp.done` holds at the end, `kept` is returned (264-267); otherwise `assert(0)` fails (268). -/
def exhaust (solve : ω → Pair → ω × τ × Rat) (D : Des) (m : Mode) (M : Nat) (m0 : Int) (keep iters : Nat) (w : ω) : St ω τ :=
  loop solve (permute D m M (maxSize D m0)) keep (max 1 iters) ⟨w, start D m, [], []⟩

/-! ## What the property says -/

/-- What is returned is in order of cost, no more than asked for, and consists of solutions that were found. Every sequence pair and
choice of variants as in `adm` was tried, and nothing else; of the solutions found the cheapest are returned. -/
structure Exact (adm : List Nat → List Nat → List Nat → Prop) (keep : Nat) (s : St ω τ) : Prop where
  sorted : s.kept.Pairwise (fun a b => a.1 < b.1)
  few : s.kept.length ≤ keep
  found : ∀ e ∈ s.kept, 0 ≤ e.1 ∧ (e.2.1, e.2.2, e.1) ∈ s.tried
  only : ∀ e ∈ s.tried, adm e.1.1 e.1.2.1 e.1.2.2
  all : ∀ p q c, adm p q c → ∃ t x, ((p, q, c), t, x) ∈ s.tried ∧ (0 ≤ x → Cheapest keep s.kept x)

/-! ## Proofs -/

/-- What is tried is what the enumerator gives. -/
theorem loop_run (solve : ω → Pair → ω × τ × Rat) (step : Sp → Sp) (keep : Nat) : ∀ (k : Nat) (s : St ω τ),
    (loop solve step keep k s).sp = (run step k s.sp).2
      ∧ (loop solve step keep k s).tried.map (·.1) = s.tried.map (·.1) ++ (run step k s.sp).1
  | 0, s => by simp [loop, run]
  | k + 1, s => by
    unfold loop run
    by_cases hd : s.sp.done = true
    · simp [hd]
    · simp only [hd, if_false, Bool.false_eq_true]
      obtain ⟨h1, h2⟩ := loop_run solve step keep k (round solve step keep s)
      refine ⟨h1, ?_⟩
      rw [h2]
      simp [round, seen]

structure Inv (keep : Nat) (s : St ω τ) : Prop where
  sorted : s.kept.Pairwise (fun a b => a.1 < b.1)
  few : s.kept.length ≤ keep
  found : ∀ e ∈ s.kept, 0 ≤ e.1 ∧ (e.2.1, e.2.2, e.1) ∈ s.tried
  best : ∀ e ∈ s.tried, 0 ≤ e.2.2 → Cheapest keep s.kept e.2.2

theorem inv_round {solve : ω → Pair → ω × τ × Rat} {step : Sp → Sp} {keep : Nat} {s : St ω τ} (h : Inv keep s) :
    Inv keep (round solve step keep s) := by
  unfold round
  simp only
  generalize solve s.world (seen s.sp) = r
  by_cases h0 : 0 ≤ r.2.2
  · rw [if_pos h0]
    constructor
    · exact List.Pairwise.sublist (List.take_sublist _ _) (Anneal.sorted_put h.sorted)
    · show (List.take _ _).length ≤ _
      rw [List.length_take]; exact Nat.min_le_left _ _
    · intro e he
      rcases Anneal.mem_put (List.mem_of_mem_take he) with k | k
      · rw [k]; exact ⟨h0, List.mem_append_right _ List.mem_cons_self⟩
      · exact ⟨(h.found e k).1, List.mem_append_left _ (h.found e k).2⟩
    · intro e he hc
      rcases List.mem_append.1 he with k | k
      · exact Anneal.cheapest_put h.sorted (h.best e k hc)
      · rw [List.mem_singleton.1 k]; exact Anneal.cheapest_self h.sorted
  · rw [if_neg h0]
    refine ⟨h.sorted, h.few, fun e he => ⟨(h.found e he).1, List.mem_append_left _ (h.found e he).2⟩, fun e he hc => ?_⟩
    rcases List.mem_append.1 he with k | k
    · exact h.best e k hc
    · rw [List.mem_singleton.1 k] at hc; exact absurd hc h0

theorem inv_loop {solve : ω → Pair → ω × τ × Rat} {step : Sp → Sp} {keep : Nat} : ∀ {k : Nat} {s : St ω τ}, Inv keep s →
    Inv keep (loop solve step keep k s)
  | 0, _, h => h
  | k + 1, s, h => by
    unfold loop
    by_cases hd : s.sp.done = true
    · rw [if_pos hd]; exact h
    · rw [if_neg hd]; exact inv_loop (inv_round h)

/-- Once all is done, more rounds change nothing. -/
theorem run_more {step : Sp → Sp} : ∀ {k : Nat} {s : Sp}, (run step k s).2.done = true → ∀ j, run step (k + j) s = run step k s
  | 0, s, h, j => by
    cases j with
    | zero => rfl
    | succ j =>
      have h : s.done = true := h
      simp [run, h]
  | k + 1, s, h, j => by
    have e : k + 1 + j = (k + j) + 1 := by omega
    rw [e]
    unfold run at h ⊢
    by_cases hd : s.done = true
    · rw [if_pos hd, if_pos hd]
    · rw [if_neg hd] at h
      rw [if_neg hd, if_neg hd]
      simp only
      rw [run_more h j]

theorem run_same {step : Sp → Sp} {k j : Nat} {s : Sp} (hk : (run step k s).2.done = true) (hj : (run step j s).2.done = true) :
    run step k s = run step j s := by
  rcases Nat.le_total k j with h | h
  · obtain ⟨i, rfl⟩ := Nat.exists_eq_add_of_le h
    exact (run_more hk i).symm
  · obtain ⟨i, rfl⟩ := Nat.exists_eq_add_of_le h
    exact run_more hj i

theorem exact_of {solve : ω → Pair → ω × τ × Rat} {D : Des} {m : Mode} {M : Nat} {m0 : Int} {keep iters : Nat} {w : ω}
    {adm : List Nat → List Nat → List Nat → Prop}
    (h : ∀ p q c, (p, q, c) ∈ (run (permute D m M (maxSize D m0)) (max 1 iters) (start D m)).1 ↔ adm p q c) :
    Exact adm keep (exhaust solve D m M m0 keep iters w) := by
  have hi : Inv keep (exhaust solve D m M m0 keep iters w) :=
    inv_loop ⟨List.Pairwise.nil, Nat.zero_le _, fun e he => absurd he (by simp), fun e he => absurd he (by simp)⟩
  have ht : (exhaust solve D m M m0 keep iters w).tried.map (·.1) = (run (permute D m M (maxSize D m0)) (max 1 iters) (start D m)).1 :=
    (loop_run solve _ keep _ _).2
  refine ⟨hi.sorted, hi.few, hi.found, fun e he => ?_, fun p q c hc => ?_⟩
  · rw [← h, ← ht]
    exact List.mem_map.2 ⟨e, he, rfl⟩
  · rw [← h, ← ht] at hc
    obtain ⟨⟨k, t, x⟩, he, ek⟩ := List.mem_map.1 hc
    have ek : k = (p, q, c) := ek
    rw [ek] at he
    exact ⟨t, x, he, hi.best _ he⟩

/-- C118: without orders, when the placer reports that all is exhausted, the result is exact for all sequence pairs and all choices of
variants. -/
theorem C118_all (solve : ω → Pair → ω × τ × Rat) {D : Des} (h : Ok D) {next nx : List Nat → List Nat} (hnext : Next D.n next) {maxIter M : Nat}
    (hc : choose D next maxIter = some (.all nx, M)) (m0 : Int) (keep iters : Nat) (w : ω)
    (hd : (exhaust solve D (.all nx) M m0 keep iters w).sp.done = true) :
    Exact (fun p q c => p.Perm (List.range D.n) ∧ q.Perm (List.range D.n) ∧ Choice D c) keep
      (exhaust solve D (.all nx) M m0 keep iters w) := by
  have hr : (run (permute D (.all nx) M (maxSize D m0)) (max 1 iters) (start D (.all nx))).2.done = true := by
    rw [← (loop_run solve (permute D (.all nx) M (maxSize D m0)) keep (max 1 iters) ⟨w, start D (.all nx), [], []⟩).1]; exact hd
  obtain ⟨h1, _, h2⟩ := Enum.C104_all h hnext hc m0
  refine exact_of fun p q c => ?_
  rw [run_same hr h1]
  exact h2 p q c

/-- C118: without orders it is reported that all is exhausted, if the limit of iterations is no less than that under which the
enumeration was chosen. -/
theorem C118_done_partial (solve : ω → Pair → ω × τ × Rat) {D : Des} (h : Ok D) {next nx : List Nat → List Nat} (hnext : Next D.n next)
    {maxIter M : Nat} (hc : choose D next maxIter = some (.all nx, M)) (m0 : Int) (keep iters : Nat) (w : ω) (hle : maxIter ≤ iters) :
    (exhaust solve D (.all nx) M m0 keep iters w).sp.done = true := by
  obtain ⟨h1, _, _⟩ := Enum.C104_all h hnext hc m0
  unfold exhaust
  rw [(loop_run solve (permute D (.all nx) M (maxSize D m0)) keep (max 1 iters) ⟨w, start D (.all nx), [], []⟩).1]
  obtain ⟨i, hi⟩ := Nat.exists_eq_add_of_le (le_trans hle (Nat.le_max_right 1 iters))
  show (run _ (max 1 iters) (start D (.all nx))).2.done = true
  rw [hi, run_more h1 i]
  exact h1

/-- C118 with orders of one direction: when the placer reports that all is exhausted, the result is exact for the sequence pairs that have
the orders. Missing: orders of both directions, see `C104_violated_missed`. -/
theorem C118_ordered_partial (solve : ω → Pair → ω × τ × Rat) {D : Des} (h : Ok D) {next : List Nat → List Nat} {maxIter M : Nat}
    {p q : List (List Nat)} (hc : choose D next maxIter = some (.ordered p q, M)) (ho : ∀ o ∈ D.cs, ∀ o' ∈ D.cs, o.2 = o'.2) (m0 : Int)
    (keep iters : Nat) (w : ω) (hd : (exhaust solve D (.ordered p q) M m0 keep iters w).sp.done = true) :
    Exact (fun a b c => a.Perm (List.range D.n) ∧ b.Perm (List.range D.n) ∧ Has D a b ∧ Choice D c) keep
      (exhaust solve D (.ordered p q) M m0 keep iters w) := by
  have hr : (run (permute D (.ordered p q) M (maxSize D m0)) (max 1 iters) (start D (.ordered p q))).2.done = true := by
    rw [← (loop_run solve (permute D (.ordered p q) M (maxSize D m0)) keep (max 1 iters) ⟨w, start D (.ordered p q), [], []⟩).1]; exact hd
  obtain ⟨k, h1, _, h2⟩ := Enum.C104_ordered_partial h hc ho m0
  refine exact_of fun a b c => ?_
  rw [run_same hr h1]
  exact h2 a b c

/-- C118 with any orders: all solutions returned are solutions found for a sequence pair that has the orders. -/
theorem C118_kept (solve : ω → Pair → ω × τ × Rat) {D : Des} (h : Ok D) {next : List Nat → List Nat} {maxIter M : Nat}
    {p q : List (List Nat)} (hc : choose D next maxIter = some (.ordered p q, M)) (m0 : Int) (keep iters : Nat) (w : ω) :
    ∀ e ∈ (exhaust solve D (.ordered p q) M m0 keep iters w).kept, 0 ≤ e.1
      ∧ (e.2.1, e.2.2, e.1) ∈ (exhaust solve D (.ordered p q) M m0 keep iters w).tried
      ∧ e.2.1.1.Perm (List.range D.n) ∧ e.2.1.2.1.Perm (List.range D.n) ∧ Has D e.2.1.1 e.2.1.2.1 ∧ Choice D e.2.1.2.2 := by
  have hi : Inv keep (exhaust solve D (.ordered p q) M m0 keep iters w) :=
    inv_loop ⟨List.Pairwise.nil, Nat.zero_le _, fun e he => absurd he (by simp), fun e he => absurd he (by simp)⟩
  intro e he
  obtain ⟨h0, h1⟩ := hi.found e he
  refine ⟨h0, h1, ?_⟩
  have ht := (loop_run solve (permute D (.ordered p q) M (maxSize D m0)) keep (max 1 iters) ⟨w, start D (.ordered p q), [], []⟩).2
  have hm : e.2.1 ∈ (loop solve (permute D (.ordered p q) M (maxSize D m0)) keep (max 1 iters) ⟨w, start D (.ordered p q), [], []⟩).tried.map (·.1) :=
    List.mem_map.2 ⟨_, h1, rfl⟩
  rw [ht] at hm
  exact Enum.C104_kept h hc m0 _ _ hm

/-! ### Examples and a violation -/

/-- A solver whose costs grow with the variants; it finds nothing for a certain sequence pair. -/
def toy (_ : Unit) (p : Pair) : Unit × Nat × Rat := ((), p.2.2.sum, if p.1 = p.2.1 then -1 else 5 - p.2.2.sum)

/-- Two blocks with one and two variants: eight combinations, four of them with solutions, of two costs. -/
example : choose Enum.exAll List.reverse 8 = some (.all List.reverse, 2) ∧ Ok Enum.exAll ∧ Next Enum.exAll.n List.reverse
    ∧ (exhaust toy Enum.exAll (.all List.reverse) 2 0 3 8 ()).sp.done = true
    ∧ (exhaust toy Enum.exAll (.all List.reverse) 2 0 3 8 ()).kept
      = [(4, ([1, 0], [0, 1], [0, 1]), 1), (5, ([1, 0], [0, 1], [0, 0]), 0)] :=
  ⟨rfl, Enum.exAll_ok, Enum.next_two, by decide +kernel, by decide +kernel⟩

/-- With orders of one direction. -/
example : choose Enum.exOrd List.reverse 460 = some (.ordered [[0, 1, 2], [0, 2, 1]] [[0, 1, 2], [0, 2, 1]], 2) ∧ Ok Enum.exOrd
    ∧ (∀ o ∈ Enum.exOrd.cs, ∀ o' ∈ Enum.exOrd.cs, o.2 = o'.2)
    ∧ (exhaust toy Enum.exOrd (.ordered [[0, 1, 2], [0, 2, 1]] [[0, 1, 2], [0, 2, 1]]) 2 0 1 460 ()).sp.done = true :=
  ⟨Enum.choose_of (by decide +kernel) (by decide +kernel) (by decide), Enum.exOrd_ok, by decide, by decide +kernel⟩

/-- C118 does not hold in full: the enumeration is chosen for up to ten thousand combinations (`pnr/placer.py` 30-31 makes the cooling
rate from the larger of this number and the iterations asked for), but the loop stops after the iterations asked for. With four
iterations and eight combinations, half are never tried, and the assertion that this cannot happen fails. -/
theorem C118_violated_iterations : ∃ (D : Des) (M : Nat), Ok D ∧ Next D.n List.reverse ∧ choose D List.reverse 10000 = some (.all List.reverse, M)
    ∧ (exhaust toy D (.all List.reverse) M 0 1 4 ()).sp.done = false
    ∧ ∃ (p : Pair), p.1.Perm (List.range D.n) ∧ p.2.1.Perm (List.range D.n) ∧ Choice D p.2.2
      ∧ p ∉ (exhaust toy D (.all List.reverse) M 0 1 4 ()).tried.map (·.1) :=
  ⟨Enum.exAll, 2, Enum.exAll_ok, Enum.next_two, rfl, by decide +kernel, ([1, 0], [0, 1], [0, 1]), by decide, by decide,
    ⟨by decide, by decide, by simp [Enum.exAll]⟩, by decide +kernel⟩

end Verif.Exhaust

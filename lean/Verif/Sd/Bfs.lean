import Verif.Sd.Model
import Mathlib.Data.List.Basic
import Mathlib.Tactic.Tauto

/-!
# Breadth first search

A search with a queue that marks nodes when they are appended, over any graph.
-/

namespace Verif.Sd

variable (R : String → String → Prop) (src bar : String → Prop)

/-- There is a walk of length `k` from a source to `x` that does not enter `bar`. -/
inductive Walk : Nat → String → Prop
  | zero {x : String} : src x → Walk 0 x
  | step {k : Nat} {x y : String} : Walk k x → R x y → ¬ bar y → Walk (k + 1) y

/-- The distance of `x`. -/
def Dist (k : Nat) (x : String) : Prop := Walk R src bar k x ∧ ∀ j, j < k → ¬ Walk R src bar j x

variable {R : String → String → Prop} {src bar : String → Prop}

theorem Dist.unique {j k : Nat} {x : String} (h : Dist R src bar j x) (h' : Dist R src bar k x) : j = k := by
  rcases Nat.lt_trichotomy j k with hc | hc | hc
  · exact absurd h.1 (h'.2 j hc)
  · exact hc
  · exact absurd h'.1 (h.2 k hc)

theorem exists_dist {k : Nat} {x : String} (h : Walk R src bar k x) : ∃ j, j ≤ k ∧ Dist R src bar j x := by
  induction k using Nat.strongRecOn with
  | _ k ih =>
    by_cases hc : ∃ j, j < k ∧ Walk R src bar j x
    · obtain ⟨j, hj, hw⟩ := hc
      obtain ⟨i, hi, hd⟩ := ih j hj hw
      exact ⟨i, by omega, hd⟩
    · push Not at hc
      exact ⟨k, Nat.le_refl k, h, hc⟩

/-- A node at distance `k + 1` has a neighbour at distance `k`. -/
theorem Dist.pred {k : Nat} {y : String} (h : Dist R src bar (k + 1) y) : ∃ x, Dist R src bar k x ∧ R x y ∧ ¬ bar y := by
  obtain ⟨hw, hm⟩ := h
  cases hw with
  | step hx hy hb =>
    rename_i x
    refine ⟨x, ⟨hx, fun j hj hw' => ?_⟩, hy, hb⟩
    exact hm (j + 1) (by omega) (.step hw' hy hb)

/-- A node is reached from `x`. -/
def visit (wrong : String → String → Bool) (x : String) (st : Scan) (y : String) : Scan :=
  if y ∈ st.traversed then st else ⟨st.queue ++ [y], st.traversed ++ [y], if wrong x y then st.changes ++ [y] else st.changes⟩

/-- How the marked nodes were reached. -/
structure Reached (R : String → String → Prop) (src bar : String → Prop) (wrong : String → String → Bool) (st : Scan) : Prop where
  out : ∀ y ∈ st.changes, ∃ x k, Dist R src bar k x ∧ Dist R src bar (k + 1) y ∧ R x y ∧ wrong x y = true
  all : ∀ y ∈ st.traversed, bar y ∨ src y ∨
    ∃ x k, Dist R src bar k x ∧ Dist R src bar (k + 1) y ∧ R x y ∧ (wrong x y = true → y ∈ st.changes)

/-- The invariant of the inner loop: `x` at distance `k` is visited, `A` are the other nodes at distance `k` in the queue, and the
neighbours `done` of `x` have been visited. -/
structure Inner (R : String → String → Prop) (src bar : String → Prop) (wrong : String → String → Bool) (k : Nat) (x : String)
    (A done : List String) (st : Scan) : Prop where
  here : Dist R src bar k x
  queue : ∃ B, st.queue = A ++ B ∧ (∀ y ∈ A, Dist R src bar k y) ∧ (∀ y ∈ B, Dist R src bar (k + 1) y) ∧
    ∀ y, y ∈ st.traversed ↔ bar y ∨ (∃ j, j ≤ k ∧ Dist R src bar j y) ∨ y ∈ B
  old : ∀ y j, j ≤ k → Dist R src bar j y → y ∈ A ∨ y = x ∨ ∀ z, R y z → z ∈ st.traversed
  done : ∀ z ∈ done, z ∈ st.traversed
  reached : Reached R src bar wrong st

theorem visit_inner {wrong : String → String → Bool} {k : Nat} {x : String} {A done : List String} {st : Scan}
    (h : Inner R src bar wrong k x A done st) {y : String} (hy : R x y) :
    Inner R src bar wrong k x A (done ++ [y]) (visit wrong x st y) := by
  unfold visit
  split
  · rename_i hm
    refine ⟨h.here, h.queue, h.old, fun z hz => ?_, h.reached⟩
    rcases List.mem_append.1 hz with hz | hz
    · exact h.done z hz
    · simp only [List.mem_singleton] at hz
      exact hz ▸ hm
  · rename_i hm
    obtain ⟨B, hq, hA, hB, hmk⟩ := h.queue
    have hyb : ¬ bar y := fun hc => hm ((hmk y).2 (.inl hc))
    have hyd : Dist R src bar (k + 1) y := by
      refine ⟨.step h.here.1 hy hyb, fun j hj hw => ?_⟩
      obtain ⟨i, hi, hd⟩ := exists_dist hw
      exact hm ((hmk y).2 (.inr (.inl ⟨i, by omega, hd⟩)))
    have mono : ∀ z ∈ st.traversed, z ∈ st.traversed ++ [y] := fun z hz => List.mem_append_left _ hz
    have monoOut : ∀ z ∈ st.changes, z ∈ (if wrong x y then st.changes ++ [y] else st.changes) := by
      intro z hz; split
      · exact List.mem_append_left _ hz
      · exact hz
    refine ⟨h.here, ⟨B ++ [y], by rw [hq, List.append_assoc], hA, ?_, ?_⟩, ?_, ?_, ⟨?_, ?_⟩⟩
    · intro z hz
      rcases List.mem_append.1 hz with hz | hz
      · exact hB z hz
      · simp only [List.mem_singleton] at hz
        exact hz ▸ hyd
    · intro z
      simp only [List.mem_append, List.mem_singleton, hmk z, or_assoc]
    · intro z j hj hd
      rcases h.old z j hj hd with h1 | h1 | h1
      · exact .inl h1
      · exact .inr (.inl h1)
      · exact .inr (.inr fun w hw => mono w (h1 w hw))
    · intro z hz
      rcases List.mem_append.1 hz with hz | hz
      · exact mono z (h.done z hz)
      · exact List.mem_append_right _ hz
    · intro z hz
      dsimp only at hz
      split at hz
      · rename_i hw
        rcases List.mem_append.1 hz with hz | hz
        · exact h.reached.out z hz
        · simp only [List.mem_singleton] at hz
          subst hz
          exact ⟨x, k, h.here, hyd, hy, hw⟩
      · exact h.reached.out z hz
    · intro z hz
      rcases List.mem_append.1 hz with hz | hz
      · rcases h.reached.all z hz with h1 | h1 | ⟨a, j, h1, h2, h3, h4⟩
        · exact .inl h1
        · exact .inr (.inl h1)
        · exact .inr (.inr ⟨a, j, h1, h2, h3, fun hw => monoOut z (h4 hw)⟩)
      · simp only [List.mem_singleton] at hz
        subst hz
        refine .inr (.inr ⟨x, k, h.here, hyd, hy, fun hw => ?_⟩)
        dsimp only
        rw [if_pos hw]
        exact List.mem_append_right _ (by simp)

theorem fold_inner {wrong : String → String → Bool} {k : Nat} {x : String} {A : List String} :
    ∀ (l done : List String) (st : Scan), (∀ y ∈ l, R x y) → Inner R src bar wrong k x A done st →
      Inner R src bar wrong k x A (done ++ l) (l.foldl (visit wrong x) st) := by
  intro l
  induction l with
  | nil => intro done st _ h; simpa using h
  | cons y l ih =>
    intro done st hl h
    have := ih (done ++ [y]) _ (fun z hz => hl z (by simp [hz])) (visit_inner h (hl y (by simp)))
    simpa using this

/-- The invariant of the outer loop. -/
structure Outer (R : String → String → Prop) (src bar : String → Prop) (wrong : String → String → Bool) (st : Scan) : Prop where
  queue : ∃ k A B, st.queue = A ++ B ∧ (∀ y ∈ A, Dist R src bar k y) ∧ (∀ y ∈ B, Dist R src bar (k + 1) y) ∧
    (∀ y, y ∈ st.traversed ↔ bar y ∨ (∃ j, j ≤ k ∧ Dist R src bar j y) ∨ y ∈ B) ∧
    ∀ y j, j ≤ k → Dist R src bar j y → y ∈ A ∨ ∀ z, R y z → z ∈ st.traversed
  reached : Reached R src bar wrong st

/-- When the nodes at distance `k` are done, the queue holds those at distance `k + 1`. -/
theorem next_level {k : Nat} {B marked : List String} (hB : ∀ y ∈ B, Dist R src bar (k + 1) y)
    (hm : ∀ y, y ∈ marked ↔ bar y ∨ (∃ j, j ≤ k ∧ Dist R src bar j y) ∨ y ∈ B)
    (hold : ∀ y j, j ≤ k → Dist R src bar j y → ∀ z, R y z → z ∈ marked) (y : String) : Dist R src bar (k + 1) y ↔ y ∈ B := by
  refine ⟨fun hd => ?_, hB y⟩
  obtain ⟨x, hx, hy, hb⟩ := hd.pred
  rcases (hm y).1 (hold x k (Nat.le_refl k) hx y hy) with h | ⟨j, hj, h⟩ | h
  · exact absurd h hb
  · have := hd.unique h; omega
  · exact h

theorem outer_step {wrong : String → String → Bool} {st : Scan} (h : Outer R src bar wrong st) {x : String} {q : List String}
    (hq : st.queue = x :: q) {ns : List String} (hns : ∀ y, y ∈ ns ↔ R x y) :
    Outer R src bar wrong (ns.foldl (visit wrong x) { st with queue := q }) := by
  obtain ⟨k, A, B, hAB, hA, hB, hm, hold⟩ := h.queue
  -- the nodes at the distance of `x`
  obtain ⟨k, A, B, hAB, hA, hB, hm, hold, hx⟩ : ∃ k A B, q = A ++ B ∧ (∀ y ∈ A, Dist R src bar k y) ∧
      (∀ y ∈ B, Dist R src bar (k + 1) y) ∧
      (∀ y, y ∈ st.traversed ↔ bar y ∨ (∃ j, j ≤ k ∧ Dist R src bar j y) ∨ y ∈ B) ∧
      (∀ y j, j ≤ k → Dist R src bar j y → y ∈ A ∨ y = x ∨ ∀ z, R y z → z ∈ st.traversed) ∧ Dist R src bar k x := by
    cases A with
    | cons a A =>
      rw [hq, List.cons_append, List.cons.injEq] at hAB
      obtain ⟨rfl, hAB⟩ := hAB
      refine ⟨k, A, B, hAB, fun y hy => hA y (by simp [hy]), hB, hm, fun y j hj hd => ?_, hA x (by simp)⟩
      rcases hold y j hj hd with h1 | h1
      · rcases List.mem_cons.1 h1 with h1 | h1
        · exact .inr (.inl h1)
        · exact .inl h1
      · exact .inr (.inr h1)
    | nil =>
      have hnl := next_level hB hm fun y j hj hd => (hold y j hj hd).resolve_left (by simp)
      rw [List.nil_append, hq] at hAB
      subst hAB
      refine ⟨k + 1, q, [], by simp, fun y hy => hB y (by simp [hy]), by simp, fun y => ?_, fun y j hj hd => ?_, hB x (by simp)⟩
      · rw [hm y]
        constructor
        · rintro (h | ⟨j, hj, h⟩ | h)
          · exact .inl h
          · exact .inr (.inl ⟨j, by omega, h⟩)
          · exact .inr (.inl ⟨k + 1, Nat.le_refl _, hB y h⟩)
        · rintro (h | ⟨j, hj, h⟩ | h)
          · exact .inl h
          · rcases Nat.lt_or_ge k j with hc | hc
            · have : j = k + 1 := by omega
              subst this
              exact .inr (.inr ((hnl y).1 h))
            · exact .inr (.inl ⟨j, hc, h⟩)
          · cases h
      · rcases Nat.lt_or_ge k j with hc | hc
        · have : j = k + 1 := by omega
          subst this
          rcases List.mem_cons.1 ((hnl y).1 hd) with h1 | h1
          · exact .inr (.inl h1)
          · exact .inl h1
        · exact .inr (.inr ((hold y j hc hd).resolve_left (by simp)))
  have hin : Inner R src bar wrong k x A [] { st with queue := q } :=
    ⟨hx, ⟨B, hAB, hA, hB, hm⟩, hold, by simp, ⟨h.reached.out, h.reached.all⟩⟩
  have := fold_inner ns [] _ (fun y hy => (hns y).1 hy) hin
  obtain ⟨B', hq', hA', hB', hm'⟩ := this.queue
  refine ⟨⟨k, A, B', hq', hA', hB', hm', fun y j hj hd => ?_⟩, this.reached⟩
  rcases this.old y j hj hd with h1 | h1 | h1
  · exact .inl h1
  · subst h1
    exact .inr fun z hz => this.done z (by simpa [hns] using hz)
  · exact .inr h1

/-- The start. -/
theorem outer_init (wrong : String → String → Bool) {q marked : List String} (hq : ∀ y, y ∈ q ↔ src y) (hm : ∀ y, y ∈ marked ↔ bar y ∨ src y) :
    Outer R src bar wrong ⟨q, marked, []⟩ := by
  have h0 : ∀ y, Dist R src bar 0 y ↔ src y := by
    intro y
    constructor
    · rintro ⟨h, -⟩
      cases h with
      | zero h => exact h
    · exact fun h => ⟨.zero h, by omega⟩
  refine ⟨⟨0, q, [], by simp, fun y hy => (h0 y).2 ((hq y).1 hy), by simp, fun y => ?_, fun y j hj hd => ?_⟩, ⟨by simp, fun y hy => ?_⟩⟩
  · dsimp only
    rw [hm y]
    constructor
    · rintro (h | h)
      · exact .inl h
      · exact .inr (.inl ⟨0, Nat.le_refl 0, (h0 y).2 h⟩)
    · rintro (h | ⟨j, hj, h⟩ | h)
      · exact .inl h
      · obtain rfl : j = 0 := by omega
        exact .inr ((h0 y).1 h)
      · cases h
  · obtain rfl : j = 0 := by omega
    exact .inl ((hq y).2 ((h0 y).1 hd))
  · rcases (hm y).1 hy with h | h
    · exact .inl h
    · exact .inr (.inl h)

/-- At the end all nodes that can be reached are marked. -/
theorem outer_end {wrong : String → String → Bool} {st : Scan} (h : Outer R src bar wrong st) (hq : st.queue = []) {k : Nat} {y : String}
    (hd : Dist R src bar k y) : y ∈ st.traversed := by
  obtain ⟨n, A, B, hAB, hA, hB, hm, hold⟩ := h.queue
  rw [hq] at hAB
  obtain ⟨rfl, rfl⟩ := List.append_eq_nil_iff.1 hAB.symm
  have hnl := next_level hB hm fun y j hj hd => (hold y j hj hd).resolve_left (by simp)
  have hle : ∀ k y, Dist R src bar k y → k ≤ n := by
    intro k
    induction k with
    | zero => intro y _; omega
    | succ k ih =>
      intro y hd
      obtain ⟨x, hx, -⟩ := hd.pred
      have := ih x hx
      rcases Nat.lt_or_ge k n with hc | hc
      · omega
      · obtain rfl : k = n := by omega
        exact absurd ((hnl y).1 hd) (by simp)
  exact (hm y).2 (.inr (.inl ⟨k, hle k y hd, hd⟩))

end Verif.Sd

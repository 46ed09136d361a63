import Verif.Schema.Checkpoint
import Mathlib.Data.List.Basic

/-!
# C36, C37: checkpoints

`Snap` is the specification: a checkpoint remembers a **copy** of the contents; reverting to a
checkpoint puts the copy back and forgets this checkpoint and the ones made after it.
-/

namespace Verif.Schema

/-! ## C36 -/

/-- Specification: the contents and the remembered copies, newest first. -/
structure Snap (α : Type) where
  contents : List α
  saved : List (String × List α)

/-- Put back the first of the given copies and forget it. -/
def Snap.restore {α : Type} : List (String × List α) → Option (Snap α)
  | [] => none
  | (_, c) :: older => some ⟨c, older⟩

/-- What the operations are documented to do.  Reverting without a name goes back to the newest
checkpoint; reverting to an unknown name, or with no checkpoint, is an error. -/
def Snap.step {α : Type} (s : Snap α) : LOp α → Option (Snap α)
  | .append x => some { s with contents := s.contents ++ [x] }
  | .extend xs => some { s with contents := s.contents ++ xs }
  | .checkpoint id =>
    if id ∈ s.saved.map Prod.fst then none else some { s with saved := (id, s.contents) :: s.saved }
  | .revert none => Snap.restore s.saved
  | .revert (some k) => Snap.restore (s.saved.dropWhile fun c => c.1 ≠ k)

/-- An operation which is an error changes nothing. -/
def Snap.exec {α : Type} (s : Snap α) (op : LOp α) : Snap α := (s.step op).getD s

/-- The lengths stored by the code are those of the copies, and every copy is a prefix of what came
later. -/
structure Rel {α : Type} (s : LState α) (t : Snap α) : Prop where
  items : s.items = t.contents
  commits : s.commits = t.saved.map fun c => (c.1, c.2.length)
  chain : (t.contents :: t.saved.map Prod.snd).IsChain fun new old => old <+: new

theorem foldl_append_singleton {α : Type} (xs l : List α) :
    xs.foldl (fun l x => l ++ [x]) l = l ++ xs := by
  induction xs generalizing l with
  | nil => simp
  | cons x xs ih => simp [ih]

theorem dropWhile_eq_nil_of_all {β : Type} {p : β → Bool} {l : List β} (h : ∀ x ∈ l, p x) :
    l.dropWhile p = [] := by
  induction l with
  | nil => rfl
  | cons a l ih =>
    rw [List.dropWhile_cons_of_pos (h a List.mem_cons_self)]
    exact ih fun x hx => h x (List.mem_cons_of_mem _ hx)

theorem revertAux_rel {α : Type} (name : Option String) (saved : List (String × List α))
    (contents : List α)
    (hc : (contents :: saved.map Prod.snd).IsChain fun new old => old <+: new) :
    Option.Rel Rel
      (revertAux name (saved.map fun c => (c.1, c.2.length)) contents)
      (Snap.step ⟨contents, saved⟩ (.revert name)) := by
  induction saved generalizing contents with
  | nil => cases name <;> simp [revertAux, Snap.step, Snap.restore, Option.Rel.none]
  | cons c saved ih =>
    obtain ⟨k, c⟩ := c
    simp only [List.map_cons, List.isChain_cons_cons] at hc
    have htake : contents.take c.length = c := (List.prefix_iff_eq_take.mp hc.1).symm
    simp only [List.map_cons, revertAux, htake]
    by_cases h : name = none ∨ name = some k
    · rw [if_pos h]
      have hs : Snap.step ⟨contents, (k, c) :: saved⟩ (.revert name) = some ⟨c, saved⟩ := by
        rcases h with rfl | rfl <;> simp [Snap.step, Snap.restore]
      rw [hs]
      exact Option.Rel.some ⟨rfl, rfl, hc.2⟩
    · rw [if_neg h]
      push Not at h
      obtain ⟨n, rfl⟩ := Option.ne_none_iff_exists'.mp h.1
      have hk : k ≠ n := fun e => h.2 (by rw [e])
      have ih' := ih c hc.2
      have hs : Snap.step ⟨contents, (k, c) :: saved⟩ (.revert (some n)) =
          Snap.step ⟨c, saved⟩ (.revert (some n)) := by
        simp [Snap.step, hk]
      rw [hs]
      split
      · exact ih'
      · rename_i hno
        have : Snap.step ⟨c, saved⟩ (.revert (some n)) = none := by
          have : (saved.dropWhile fun c => c.1 ≠ n) = [] := by
            refine dropWhile_eq_nil_of_all fun x hx => ?_
            simp only [ne_eq, decide_eq_true_eq]
            intro hxn
            apply hno
            simp only [List.any_eq_true]
            exact ⟨(x.1, x.2.length), List.mem_cons_of_mem _ (List.mem_map_of_mem hx), by simp [hxn]⟩
          show Snap.restore (saved.dropWhile fun c => c.1 ≠ n) = none
          rw [this]; rfl
        rw [this]
        exact Option.Rel.none

theorem step_rel {α : Type} {s : LState α} {t : Snap α} (h : Rel s t) (op : LOp α) :
    Option.Rel Rel (s.step op) (t.step op) := by
  obtain ⟨items, commits⟩ := s
  obtain ⟨contents, saved⟩ := t
  obtain ⟨h1, h2, h3⟩ := h
  simp only at h1 h2 h3
  subst h1 h2
  have hgrow : ∀ xs : List α, ((items ++ xs) :: saved.map Prod.snd).IsChain
      fun new old => old <+: new := by
    intro xs
    cases saved with
    | nil => simp
    | cons c saved =>
      simp only [List.map_cons, List.isChain_cons_cons] at h3 ⊢
      exact ⟨h3.1.trans (List.prefix_append _ _), h3.2⟩
  cases op with
  | append x => exact Option.Rel.some ⟨rfl, rfl, hgrow _⟩
  | extend xs => exact Option.Rel.some ⟨foldl_append_singleton xs items, rfl, hgrow _⟩
  | checkpoint id =>
    simp only [LState.step, Snap.step]
    by_cases hid : id ∈ saved.map Prod.fst
    · rw [if_pos hid, if_pos]
      · exact Option.Rel.none
      · simp only [List.mem_map] at hid
        obtain ⟨c, hc, rfl⟩ := hid
        simp only [List.any_eq_true]
        exact ⟨_, List.mem_map_of_mem hc, by simp⟩
    · rw [if_neg hid, if_neg]
      · refine Option.Rel.some ⟨rfl, rfl, ?_⟩
        simp only [List.map_cons, List.isChain_cons_cons]
        exact ⟨List.prefix_rfl, h3⟩
      · simp only [List.any_eq_true, List.mem_map, not_exists, not_and]
        rintro _ ⟨c, hc, rfl⟩ he
        exact hid (by simpa using ⟨c.2, by rw [← (by simpa using he : c.1 = id)]; exact hc⟩)
  | revert name => exact revertAux_rel name saved items h3

theorem exec_rel {α : Type} {s : LState α} {t : Snap α} (h : Rel s t) (op : LOp α) :
    Rel (s.exec op) (t.exec op) := by
  have := step_rel h op
  unfold LState.exec Snap.exec
  revert this
  cases s.step op <;> cases t.step op <;> intro hr <;> cases hr
  · exact h
  · assumption

theorem run_rel {α : Type} (ops : List (LOp α)) {s : LState α} {t : Snap α} (h : Rel s t) :
    Rel (ops.foldl LState.exec s) (ops.foldl Snap.exec t) := by
  induction ops generalizing s t with
  | nil => exact h
  | cons op ops ih => exact ih (exec_rel h op)

/-- **C36.**  After any history of appends, extensions, checkpoints and reverts the list holds what
remembering copies would have given, the same checkpoints are known in the same order, and the same
next operations succeed. -/
theorem C36_snapshots {α : Type} (l : List α) (ops : List (LOp α)) (op : LOp α) :
    let s := ops.foldl LState.exec ⟨l, []⟩
    let t := ops.foldl Snap.exec ⟨l, []⟩
    s.items = t.contents ∧ s.commits.map Prod.fst = t.saved.map Prod.fst ∧
      ((s.step op).isSome ↔ (t.step op).isSome) := by
  have h := run_rel ops (s := ⟨l, []⟩) (t := ⟨l, []⟩) ⟨rfl, rfl, by simp⟩
  refine ⟨h.items, by rw [h.commits]; simp [Function.comp_def], ?_⟩
  have := step_rel h op
  revert this
  cases (ops.foldl LState.exec ⟨l, []⟩).step op <;>
    cases (ops.foldl Snap.exec ⟨l, []⟩).step op <;> intro hr <;> cases hr <;> simp

/-- The names of the checkpoints that can be reverted to. -/
def LState.known {α : Type} (s : LState α) : List String := s.commits.map Prod.fst

theorem restore_mem {α : Type} {l : List (String × List α)} {t : Snap α}
    (h : Snap.restore l = some t) : ∃ c, l = (c, t.contents) :: t.saved := by
  cases l with
  | nil => simp [Snap.restore] at h
  | cons c l => simp [Snap.restore] at h; subst h; exact ⟨c.1, rfl⟩

/-- As long as a checkpoint is known, its copy and the older ones stay what they were. -/
theorem snap_keeps {α : Type} {id : String} {c : List α} {older : List (String × List α)}
    (hold : id ∉ older.map Prod.fst) {t : Snap α} {pre : List (String × List α)}
    (hp : id ∉ pre.map Prod.fst) (ht : t.saved = pre ++ (id, c) :: older) (op : LOp α)
    (hk : id ∈ (t.exec op).saved.map Prod.fst) :
    ∃ pre', id ∉ pre'.map Prod.fst ∧ (t.exec op).saved = pre' ++ (id, c) :: older := by
  unfold Snap.exec at hk ⊢
  cases hs : t.step op with
  | none => exact ⟨pre, hp, ht⟩
  | some t' =>
    rw [hs] at hk
    simp only [Option.getD_some] at hk ⊢
    have hsuff : ∀ l d, l <:+ t.saved → l = d :: t'.saved →
        ∃ pre', id ∉ pre'.map Prod.fst ∧ t'.saved = pre' ++ (id, c) :: older := by
      rintro l d ⟨u, hu⟩ rfl
      rw [ht] at hu
      have h2 : (u ++ [d]) ++ t'.saved = pre ++ (id, c) :: older := by simpa using hu
      rcases List.append_eq_append_iff.mp h2 with ⟨v, e1, e2⟩ | ⟨v, e1, e2⟩
      · refine ⟨v, fun hv => hp ?_, e2⟩
        rw [e1, List.map_append]; exact List.mem_append_right _ hv
      · cases v with
        | nil => exact ⟨[], by simp, by simpa using e2.symm⟩
        | cons x v =>
          exfalso
          have e3 : older = v ++ t'.saved := by simpa using (List.cons_eq_cons.mp e2).2
          apply hold
          rw [e3, List.map_append]; exact List.mem_append_right _ hk
    cases op with
    | append x => simp only [Snap.step, Option.some.injEq] at hs; subst hs; exact ⟨pre, hp, ht⟩
    | extend x => simp only [Snap.step, Option.some.injEq] at hs; subst hs; exact ⟨pre, hp, ht⟩
    | checkpoint i =>
      simp only [Snap.step] at hs
      split at hs
      · cases hs
      · rename_i hni
        simp only [Option.some.injEq] at hs
        subst hs
        refine ⟨(i, t.contents) :: pre, ?_, by simp [ht]⟩
        simp only [List.map_cons, List.mem_cons, not_or]
        refine ⟨?_, hp⟩
        rintro rfl
        exact hni (by simp [ht])
    | revert name =>
      cases name with
      | none =>
        obtain ⟨d, hd⟩ := restore_mem hs
        exact hsuff _ _ List.suffix_rfl hd
      | some k =>
        obtain ⟨d, hd⟩ := restore_mem hs
        exact hsuff _ _ (List.dropWhile_suffix _) hd

theorem snap_run_keeps {α : Type} {id : String} {c : List α} {older : List (String × List α)}
    (hold : id ∉ older.map Prod.fst) (ops : List (LOp α)) :
    ∀ {t : Snap α} {pre : List (String × List α)},
    id ∉ pre.map Prod.fst → t.saved = pre ++ (id, c) :: older →
    (∀ k ≤ ops.length, id ∈ ((ops.take k).foldl Snap.exec t).saved.map Prod.fst) →
    ∃ pre', id ∉ pre'.map Prod.fst ∧ (ops.foldl Snap.exec t).saved = pre' ++ (id, c) :: older := by
  induction ops with
  | nil => intro t pre hp ht _; exact ⟨pre, hp, ht⟩
  | cons op ops ih =>
    intro t pre hp ht hk
    obtain ⟨pre', hp', ht'⟩ := snap_keeps hold hp ht op (by simpa using hk 1 (by simp))
    refine ih hp' ht' fun k hkl => ?_
    simpa using hk (k + 1) (by simpa using hkl)

/-- **C36, in terms of one checkpoint.**  Take a list after any history, make a checkpoint, and go on
with any operations during which this checkpoint stays known.  Reverting to it then succeeds and
gives back exactly the contents and the older checkpoints of the time it was made. -/
theorem C36_revert_restores {α : Type} (l : List α) (before after : List (LOp α)) (id : String)
    (s1 : LState α)
    (hs1 : (before.foldl LState.exec ⟨l, []⟩).step (.checkpoint id) = some s1)
    (hknown : ∀ k ≤ after.length, id ∈ ((after.take k).foldl LState.exec s1).known) :
    (after.foldl LState.exec s1).step (.revert (some id)) =
      some (before.foldl LState.exec ⟨l, []⟩) := by
  have h0 := run_rel before (s := ⟨l, []⟩) (t := ⟨l, []⟩) ⟨rfl, rfl, by simp⟩
  generalize hs0 : before.foldl LState.exec ⟨l, []⟩ = s0 at *
  generalize ht0 : before.foldl Snap.exec ⟨l, []⟩ = t0 at *
  have h1 := step_rel h0 (.checkpoint id)
  rw [hs1] at h1
  simp only [Snap.step] at h1
  split at h1
  · cases h1
  · rename_i hfresh
    cases h1 with
    | some h1 =>
    have hnames : ∀ ops : List (LOp α), (ops.foldl LState.exec s1).known =
        (ops.foldl Snap.exec ⟨t0.contents, (id, t0.contents) :: t0.saved⟩).saved.map Prod.fst := by
      intro ops
      have := (run_rel ops h1).commits
      simp only [LState.known, this, List.map_map, Function.comp_def]
    obtain ⟨pre, hp, hsv⟩ := snap_run_keeps hfresh after
      (t := ⟨t0.contents, (id, t0.contents) :: t0.saved⟩) (pre := []) (by simp) rfl
      (fun k hk => by rw [← hnames]; exact hknown k hk)
    have hr := step_rel (run_rel after h1) (.revert (some id))
    have hdrop : (pre ++ (id, t0.contents) :: t0.saved).dropWhile (fun c => decide (c.1 ≠ id)) =
        (id, t0.contents) :: t0.saved := by
      rw [List.dropWhile_append_of_pos]
      · simp
      · intro x hx
        simp only [ne_eq, decide_eq_true_eq]
        rintro rfl
        exact hp (List.mem_map_of_mem hx)
    have ht : Snap.step (after.foldl Snap.exec ⟨t0.contents, (id, t0.contents) :: t0.saved⟩)
        (.revert (some id)) = some t0 := by
      simp only [Snap.step, hsv, hdrop, Snap.restore]
    rw [ht] at hr
    revert hr
    generalize (after.foldl LState.exec s1).step (.revert (some id)) = r
    intro hr
    cases hr with
    | @some a _ hr =>
      congr 1
      have e1 := hr.items.trans h0.items.symm
      have e2 := hr.commits.trans h0.commits.symm
      obtain ⟨a1, a2⟩ := a
      obtain ⟨b1, b2⟩ := s0
      simp only at e1 e2
      rw [e1, e2]

/-- The hypotheses hold in a history with nested checkpoints, one of them reverted by itself. -/
example : ∃ s1 : LState Nat,
    ([LOp.append 1, .checkpoint "A", .extend [2, 3]].foldl LState.exec ⟨[0], []⟩).step
      (.checkpoint "B") = some s1 ∧
    ((∀ k ≤ 4, "B" ∈ (([LOp.append 4, .checkpoint "C", .append 5, .revert none].take k).foldl
      LState.exec s1).known)) ∧
    ([LOp.append 4, .checkpoint "C", .append 5, .revert none].foldl LState.exec s1).items =
      [0, 1, 2, 3, 4] := by
  refine ⟨_, rfl, ?_, rfl⟩
  decide

/-- Removing elements is not restored: C36 speaks of appending only, and this is why. -/
example : (revertAux (none : Option String) [("A", 2)] ([1, 2, 3].erase 1)).map LState.items =
    some [2, 3] := rfl

end Verif.Schema

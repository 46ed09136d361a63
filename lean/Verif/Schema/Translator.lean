import Mathlib.Data.List.Basic
import Mathlib.Data.List.Nodup
import Mathlib.Tactic.Tauto

/-!
# C48: constraints after instances were merged into a new one

Model of `ConstraintTranslator._update_const` (`align/schema/translator.py`, 98-192) for lists of instances, pairs,
regions and pins.

Simplifications: `pin_current` is in `Verif.Schema.Currents`; pins are pairs of an instance (or none for a net) and
a port; the branch without a child hierarchy (170-173) is not modelled.  `keys` are the names in `node_map`, in order.
-/

namespace Verif.Schema.Tr

variable {α : Type} [DecidableEq α]

/-- `_list_replace` (106-109). -/
def listReplace (l : List α) (old new : α) : List α := l.map fun x => if x = old then new else x

/-- The body of the loop in 117-122. -/
def stepInst (new : α) (s : Bool × List α) (old : α) : Bool × List α :=
  if s.1 = true ∧ new ∉ s.2 then (false, listReplace s.2 old new)
  else if old ∈ s.2 then (s.1, s.2.erase old)
  else s

/-- Lines 113-125 (`GroupBlocks` is left alone by the caller). -/
def updInstances (new : α) (keys l : List α) : List α :=
  if l.any fun x => keys.contains x then (keys.foldl (stepInst new) (true, l)).2 else l

/-- Lines 127-138. -/
def updPair (new : α) (keys pair : List α) : List α :=
  match pair with
  | [a, b] =>
    if a ∈ keys ∧ b ∈ keys then [new]
    else if a ∈ keys then [new, b]
    else if b ∈ keys then [a, new]
    else [a, b]
  | [a] => if a ∈ keys then [new] else [a]
  | l => l

/-- The body of the loop in 185-190. -/
def stepRow (new : α) (s : Bool × List α) (old : α) : Bool × List α :=
  if s.1 = true then (false, listReplace s.2 old new)
  else if old ∈ s.2 then (s.1, s.2.erase old)
  else s

/-- Lines 182-190. -/
def updRow (new : α) (keys l : List α) : List α :=
  if l.any fun x => keys.contains x then (keys.foldl (stepRow new) (true, l)).2 else l

/-- A pin: an instance (or none for a net of this hierarchy) and the name of a port or net. -/
abbrev Pin (α : Type) := Option α × String

/-- Lines 164-173 with `_get_pin_map` (194-206): the replacements, in the order of the pins.  `port inst p` is the
net of port `p` of the instance in the child; no net is an error. -/
def replacements (new : α) (keys : List α) (port : α → String → Option String) (pins : List (Pin α)) :
    Option (List (Pin α × Pin α)) :=
  pins.foldlM (fun acc p =>
    match p.1 with
    | none => some acc
    | some i =>
      if i ∈ keys then (port i p.2).map fun q => acc ++ [(p, ((some new, q) : Pin α))] else some acc) []

/-- Lines 174-179: one replacement in both lists; the second is indexed by the positions of the first. -/
def replacePins (s : List (Pin α) × List (Pin α)) (kv : Pin α × Pin α) : Option (List (Pin α) × List (Pin α)) :=
  if s.1.length ≤ s.2.length then
    some (s.1.map (fun p => if kv.1 = p then kv.2 else p),
      (s.2.take s.1.length).map (fun p => if kv.1 = p then kv.2 else p) ++ s.2.drop s.1.length)
  else none

/-- Lines 162-179. -/
def updPins (new : α) (keys : List α) (port : α → String → Option String) (p1 p2 : List (Pin α)) :
    Option (List (Pin α) × List (Pin α)) :=
  (replacements new keys port (p1 ++ p2)).bind fun kvs => kvs.foldlM replacePins (p1, p2)

/-! ## Specification -/

/-- `r` is `l` after merging: no merged instance is left, the others keep their order, and the new instance is there
exactly once if a merged one was mentioned. -/
structure Merged (new : α) (keys l r : List α) : Prop where
  gone : ∀ k ∈ keys, k ∉ r
  others : (r.filter fun x => decide (x ≠ new)) = l.filter fun x => decide (x ∉ keys)
  once : r.count new = if ∃ x ∈ l, x ∈ keys then 1 else 0

/-- As `Merged`, with the new instance there at most once. -/
structure MergedAtMost (new : α) (keys l r : List α) : Prop where
  gone : ∀ k ∈ keys, k ∉ r
  others : (r.filter fun x => decide (x ≠ new)) = l.filter fun x => decide (x ∉ keys ∧ x ≠ new)
  once : r.count new ≤ 1

/-! ## Proofs -/

theorem nodup_listReplace {l : List α} {old new : α} (hn : l.Nodup) (hnew : new ∉ l) :
    (listReplace l old new).Nodup := by
  unfold listReplace
  apply List.Nodup.map_on _ hn
  intro x hx y hy h
  by_cases h1 : x = old <;> by_cases h2 : y = old
  · rw [h1, h2]
  · rw [if_pos h1, if_neg h2] at h; exact absurd (h ▸ hy) hnew
  · rw [if_neg h1, if_pos h2] at h; exact absurd (h ▸ hx) hnew
  · rw [if_neg h1, if_neg h2] at h; exact h

theorem filter_listReplace {l : List α} {old new : α} (q : α → Bool) (ho : q old = false) :
    (listReplace l old new).filter (fun x => decide (x ≠ new) && q x) =
      l.filter fun x => decide (x ≠ new) && q x := by
  unfold listReplace
  induction l with
  | nil => rfl
  | cons a l ih =>
    rw [List.map_cons, List.filter_cons, List.filter_cons, ih]
    by_cases h : a = old
    · subst h; simp [ho]
    · simp only [h, if_false]

theorem filter_erase {l : List α} {old : α} (hn : l.Nodup) (q : α → Bool) (ho : q old = false) :
    (l.erase old).filter q = l.filter q := by
  rw [hn.erase_eq_filter, List.filter_filter]
  apply List.filter_congr
  intro x _
  by_cases h : x = old
  · subst h; simp [ho]
  · simp [h]

/-- After the first key, later ones are removed. -/
theorem fold_remove {new : α} {step : Bool × List α → α → Bool × List α}
    (hstep : ∀ l old, step (false, l) old = if old ∈ l then (false, l.erase old) else (false, l)) :
    ∀ {keys l : List α}, l.Nodup → new ∉ keys →
      let r := (keys.foldl step (false, l)).2
      r.Nodup ∧ (∀ x, x ∈ r ↔ x ∈ l ∧ x ∉ keys) ∧
        (r.filter fun x => decide (x ≠ new)) = l.filter fun x => decide (x ≠ new) && decide (x ∉ keys)
  | [], l, hn, _ => by simp [hn]
  | k :: keys, l, hn, hk => by
    rw [List.mem_cons, not_or] at hk
    simp only [List.foldl_cons]
    have hstep' : step (false, l) k = (false, l.erase k) := by
      rw [hstep]
      split
      · rfl
      · rename_i h; rw [List.erase_of_not_mem h]
    rw [hstep']
    obtain ⟨h1, h2, h3⟩ := fold_remove hstep (hn.erase k) hk.2
    refine ⟨h1, ?_, ?_⟩
    · intro x
      rw [h2, hn.mem_erase_iff]
      simp only [List.mem_cons, not_or]
      tauto
    · rw [h3, hn.erase_eq_filter, List.filter_filter]
      apply List.filter_congr
      intro x _
      by_cases hx : x = k
      · subst hx; simp
      · simp [hx]

theorem stepInst_false {new : α} (l : List α) (old : α) :
    stepInst new (false, l) old = if old ∈ l then (false, l.erase old) else (false, l) := by
  simp [stepInst]

theorem stepRow_false {new : α} (l : List α) (old : α) :
    stepRow new (false, l) old = if old ∈ l then (false, l.erase old) else (false, l) := by
  simp [stepRow]

/-- If the new instance is there already, the flag stays and keys are removed. -/
theorem fold_present {new : α} : ∀ {keys l : List α}, l.Nodup → new ∉ keys → new ∈ l →
      (keys.foldl (stepInst new) (true, l)).2.Nodup ∧
      (∀ x, x ∈ (keys.foldl (stepInst new) (true, l)).2 ↔ x ∈ l ∧ x ∉ keys) ∧
        ((keys.foldl (stepInst new) (true, l)).2.filter fun x => decide (x ≠ new)) =
          l.filter fun x => decide (x ≠ new) && decide (x ∉ keys)
  | [], l, hn, _, _ => by simp [hn]
  | k :: keys, l, hn, hk, hl => by
    rw [List.mem_cons, not_or] at hk
    simp only [List.foldl_cons]
    have hstep' : stepInst new (true, l) k = (true, l.erase k) := by
      unfold stepInst
      rw [if_neg (by simp [hl])]
      split
      · rfl
      · rename_i h; simp only at h; rw [List.erase_of_not_mem h]
    rw [hstep']
    obtain ⟨h1, h2, h3⟩ := fold_present (hn.erase k) hk.2 (hn.mem_erase_iff.mpr ⟨hk.1, hl⟩)
    refine ⟨h1, ?_, ?_⟩
    · intro x
      rw [h2, hn.mem_erase_iff]
      simp only [List.mem_cons, not_or]
      tauto
    · rw [h3, hn.erase_eq_filter, List.filter_filter]
      apply List.filter_congr
      intro x _
      by_cases hx : x = k
      · subst hx; simp
      · simp [hx]

theorem mem_listReplace {l : List α} {old new x : α} :
    x ∈ listReplace l old new ↔ (x ∈ l ∧ x ≠ old) ∨ (x = new ∧ old ∈ l) := by
  unfold listReplace
  rw [List.mem_map]
  constructor
  · rintro ⟨a, ha, rfl⟩
    by_cases h : a = old
    · subst h; right; simp [ha]
    · left; simp [h, ha]
  · rintro (⟨h1, h2⟩ | ⟨rfl, h⟩)
    · exact ⟨x, h1, by simp [h2]⟩
    · exact ⟨old, h, by simp⟩

/-- The rule for lists of instances, exactly. -/
theorem updInstances_spec {new : α} {keys l : List α} (hn : l.Nodup) (hk : new ∉ keys) :
    (updInstances new keys l).Nodup ∧
    (∀ k ∈ keys, k ∉ updInstances new keys l) ∧
    ((updInstances new keys l).filter fun x => decide (x ≠ new)) = (l.filter fun x => decide (x ∉ keys ∧ x ≠ new)) ∧
    (new ∈ updInstances new keys l ↔ new ∈ l ∨ ∃ k, keys.head? = some k ∧ k ∈ l) := by
  have hfil : ∀ l : List α, (l.filter fun x => decide (x ∉ keys ∧ x ≠ new)) =
      l.filter fun x => decide (x ≠ new) && decide (x ∉ keys) := by
    intro l
    apply List.filter_congr
    intro x _
    by_cases h1 : x ∈ keys <;> by_cases h2 : x = new <;> simp [h1, h2]
  rw [hfil]
  unfold updInstances
  by_cases hany : (l.any fun x => keys.contains x) = true
  · rw [if_pos hany]
    by_cases hl : new ∈ l
    · obtain ⟨h1, h2, h3⟩ := fold_present hn hk hl
      refine ⟨h1, fun k hk' h => ((h2 k).mp h).2 hk', h3, ?_⟩
      rw [h2]
      exact ⟨fun _ => Or.inl hl, fun _ => ⟨hl, hk⟩⟩
    · cases keys with
      | nil => simp at hany
      | cons k keys =>
        rw [List.mem_cons, not_or] at hk
        simp only [List.foldl_cons]
        have hstep : stepInst new (true, l) k = (false, listReplace l k new) := by
          unfold stepInst
          rw [if_pos ⟨rfl, hl⟩]
        rw [hstep]
        obtain ⟨h1, h2, h3⟩ := fold_remove (new := new) stepInst_false (nodup_listReplace (old := k) hn hl) hk.2
        refine ⟨h1, ?_, ?_, ?_⟩
        · intro x hx h
          obtain ⟨g1, g2⟩ := (h2 x).mp h
          rcases List.mem_cons.mp hx with rfl | hx
          · rw [mem_listReplace] at g1
            rcases g1 with g1 | g1
            · exact g1.2 rfl
            · exact hk.1 g1.1.symm
          · exact g2 hx
        · rw [h3]
          have e1 : ∀ l : List α, (l.filter fun x => decide (x ≠ new) && decide (x ∉ k :: keys)) =
              (l.filter fun x => decide (x ≠ new) && decide (x ∉ keys)).filter fun x => decide (x ≠ k) := by
            intro l
            rw [List.filter_filter]
            apply List.filter_congr
            intro x _
            by_cases g1 : x = k <;> by_cases g2 : x ∈ keys <;> simp [g1, g2]
          have e2 := filter_listReplace (l := l) (old := k) (new := new)
            (fun x => decide (x ∉ k :: keys)) (by simp)
          rw [← e2]
          apply List.filter_congr
          intro x hx
          by_cases g : x = k
          · subst g
            rcases mem_listReplace.mp hx with g | g
            · exact absurd rfl g.2
            · simp [g.1]
          · simp [g]
        · rw [h2, mem_listReplace]
          simp only [hl, List.head?_cons, Option.some.injEq, exists_eq_left', false_or, false_and, true_and]
          exact ⟨fun h => h.1, fun h => ⟨h, hk.2⟩⟩
  · rw [if_neg hany]
    have hnone : ∀ x ∈ l, x ∉ keys := by
      intro x hx hxk
      exact hany (List.any_eq_true.mpr ⟨x, hx, by simpa using hxk⟩)
    refine ⟨hn, fun k hk' h => hnone k h hk', ?_, ?_⟩
    · apply List.filter_congr
      intro x hx
      simp [hnone x hx]
    · constructor
      · exact Or.inl
      · rintro (h | ⟨k, h1, h2⟩)
        · exact h
        · exact absurd (List.mem_of_mem_head? h1) (hnone k h2)

/-- **C48, lists of instances (partial).**  For a list without repetition, after the update no merged instance is
left, the new instance is there at most once, and the others keep their order.  Missing: a list that
mentioned a merged instance need not mention the new one, see `C48_violated_lost`. -/
theorem C48_instances_partial {new : α} {keys l : List α} (hn : l.Nodup) (hk : new ∉ keys) :
    MergedAtMost new keys l (updInstances new keys l) := by
  obtain ⟨h1, h2, h3, _⟩ := updInstances_spec hn hk
  exact ⟨h2, h3, List.nodup_iff_count_le_one.mp h1 new⟩

theorem count_of_nodup {l : List α} (h : l.Nodup) (a : α) : l.count a = if a ∈ l then 1 else 0 := by
  split
  · rename_i hm; exact List.count_eq_one_of_mem h hm
  · rename_i hm; exact List.count_eq_zero_of_not_mem hm

/-- **C48, lists of instances.**  If the first merged instance is in the list, or none is, the list is exactly as it
should be: the new instance is there once if a merged one was. -/
theorem C48_instances_first {new : α} {keys l : List α} (hn : l.Nodup) (hk : new ∉ keys) (hl : new ∉ l)
    (hfirst : (∃ x ∈ l, x ∈ keys) → ∃ k, keys.head? = some k ∧ k ∈ l) :
    Merged new keys l (updInstances new keys l) := by
  obtain ⟨h1, h2, h3, h4⟩ := updInstances_spec hn hk
  refine ⟨h2, ?_, ?_⟩
  · rw [h3]
    apply List.filter_congr
    intro x hx
    have : x ≠ new := fun h => hl (h ▸ hx)
    simp [this]
  · rw [count_of_nodup h1]
    have : new ∈ updInstances new keys l ↔ ∃ x ∈ l, x ∈ keys := by
      rw [h4]
      constructor
      · rintro (h | ⟨k, g1, g2⟩)
        · exact absurd h hl
        · exact ⟨k, g2, List.mem_of_mem_head? g1⟩
      · intro h; exact Or.inr (hfirst h)
    by_cases h : ∃ x ∈ l, x ∈ keys
    · rw [if_pos (this.mpr h), if_pos h]
    · rw [if_neg (fun g => h (this.mp g)), if_neg h]

/-- **C48, pairs.**  Each pair (of one or two instances) is exactly as it should be. -/
theorem C48_pair {new : α} {keys pair : List α} (hlen : pair.length = 1 ∨ pair.length = 2)
    (hk : new ∉ keys) (hp : new ∉ pair) : Merged new keys pair (updPair new keys pair) := by
  match pair, hlen with
  | [a], _ =>
    have ha : a ≠ new := fun h => hp (by simp [h])
    unfold updPair
    by_cases h : a ∈ keys
    · simp only [h, if_true]
      refine ⟨?_, by simp [h], by simp [h]⟩
      intro k hk' he
      simp only [List.mem_singleton] at he
      subst he; exact hk hk'
    · simp only [h, if_false]
      refine ⟨?_, by simp [h, ha], by simp [h, ha]⟩
      intro k hk' he
      simp only [List.mem_singleton] at he
      subst he; exact h hk'
  | [a, b], _ =>
    have ha : a ≠ new := fun h => hp (by simp [h])
    have hb : b ≠ new := fun h => hp (by simp [h])
    unfold updPair
    by_cases h : a ∈ keys <;> by_cases h' : b ∈ keys
    · simp only [h, h', and_self, if_true]
      refine ⟨?_, by simp [h, h'], by simp [h]⟩
      intro k hk' he
      simp only [List.mem_singleton] at he
      subst he; exact hk hk'
    · simp only [h, h', and_false, if_false, if_true]
      refine ⟨?_, by simp [h, h', hb], by simp [h, hb]⟩
      intro k hk' he
      simp only [List.mem_cons, List.not_mem_nil, or_false] at he
      rcases he with rfl | rfl
      · exact hk hk'
      · exact h' hk'
    · simp only [h, h', false_and, if_false, if_true]
      refine ⟨?_, by simp [h, h', ha], by simp [h', ha]⟩
      intro k hk' he
      simp only [List.mem_cons, List.not_mem_nil, or_false] at he
      rcases he with rfl | rfl
      · exact h hk'
      · exact hk hk'
    · simp only [h, h', false_and, if_false]
      refine ⟨?_, by simp [h, h', ha, hb], by simp [h, h', ha, hb]⟩
      intro k hk' he
      simp only [List.mem_cons, List.not_mem_nil, or_false] at he
      rcases he with rfl | rfl
      · exact h hk'
      · exact h' hk'

/-- Rows of regions follow the rule for instances when the new instance is not there yet. -/
theorem updRow_eq {new : α} {keys l : List α} (hl : new ∉ l) (hk : new ∉ keys) :
    updRow new keys l = updInstances new keys l := by
  unfold updRow updInstances
  split
  · cases keys with
    | nil => rfl
    | cons k keys =>
      simp only [List.foldl_cons]
      have e1 : stepRow new (true, l) k = (false, listReplace l k new) := rfl
      have e2 : stepInst new (true, l) k = (false, listReplace l k new) := by
        unfold stepInst
        rw [if_pos ⟨rfl, hl⟩]
      rw [e1, e2]
      have : ∀ (ks : List α) (m : List α), (ks.foldl (stepRow new) (false, m)) = ks.foldl (stepInst new) (false, m) := by
        intro ks
        induction ks with
        | nil => intro m; rfl
        | cons a ks ih =>
          intro m
          rw [List.foldl_cons, List.foldl_cons, stepRow_false, stepInst_false]
          split <;> exact ih _
      rw [this]
  · rfl

/-- **C48, regions (partial).**  As for lists of instances. -/
theorem C48_regions_partial {new : α} {keys l : List α} (hn : l.Nodup) (hk : new ∉ keys) (hl : new ∉ l) :
    MergedAtMost new keys l (updRow new keys l) := by
  rw [updRow_eq hl hk]; exact C48_instances_partial hn hk

/-! ## Pins -/

/-- The new name of a pin. -/
def newPin (new : α) (keys : List α) (port : α → String → Option String) (p q : Pin α) : Prop :=
  (∃ i n, p.1 = some i ∧ i ∈ keys ∧ port i p.2 = some n ∧ q = (some new, n)) ∨
  ((∀ i, p.1 = some i → i ∉ keys) ∧ q = p)

theorem replacements_spec {new : α} {keys : List α} {port : α → String → Option String} {pins : List (Pin α)}
    {acc kvs : List (Pin α × Pin α)} (h : pins.foldlM (fun acc (p : Pin α) =>
    match p.1 with
    | none => some acc
    | some i =>
      if i ∈ keys then (port i p.2).map fun q => acc ++ [(p, ((some new, q) : Pin α))] else some acc) acc = some kvs) :
    (∀ kv ∈ kvs, kv ∈ acc ∨ (kv.1 ∈ pins ∧ ∃ i n, kv.1.1 = some i ∧ i ∈ keys ∧ port i kv.1.2 = some n ∧ kv.2 = (some new, n))) ∧
    (∀ kv ∈ acc, kv ∈ kvs) ∧ ∀ p ∈ pins, ∀ i, p.1 = some i → i ∈ keys → ∃ q, (p, q) ∈ kvs := by
  induction pins generalizing acc with
  | nil =>
    simp only [List.foldlM_nil, Option.pure_def, Option.some.injEq] at h
    subst h
    exact ⟨fun kv h => Or.inl h, fun kv h => h, by simp⟩
  | cons p pins ih =>
    rw [List.foldlM_cons, Option.bind_eq_bind, Option.bind_eq_some_iff] at h
    obtain ⟨acc', h1, h2⟩ := h
    obtain ⟨g1, g2, g3⟩ := ih h2
    cases hp : p.1 with
    | none =>
      rw [hp] at h1
      simp only [Option.some.injEq] at h1
      subst h1
      refine ⟨fun kv hkv => ?_, g2, ?_⟩
      · rcases g1 kv hkv with g | ⟨g, g'⟩
        · exact Or.inl g
        · exact Or.inr ⟨List.mem_cons_of_mem _ g, g'⟩
      · intro x hx i hi hik
        rcases List.mem_cons.mp hx with rfl | hx
        · rw [hp] at hi; cases hi
        · exact g3 x hx i hi hik
    | some i =>
      rw [hp] at h1
      simp only at h1
      split at h1
      · rename_i hik
        rw [Option.map_eq_some_iff] at h1
        obtain ⟨n, hn, rfl⟩ := h1
        refine ⟨fun kv hkv => ?_, fun kv hkv => g2 kv (List.mem_append_left _ hkv), ?_⟩
        · rcases g1 kv hkv with g | ⟨g, g'⟩
          · rcases List.mem_append.mp g with g | g
            · exact Or.inl g
            · simp only [List.mem_singleton] at g
              subst g
              exact Or.inr ⟨List.mem_cons_self, i, n, hp, hik, hn, rfl⟩
          · exact Or.inr ⟨List.mem_cons_of_mem _ g, g'⟩
        · intro x hx j hj hjk
          rcases List.mem_cons.mp hx with rfl | hx
          · exact ⟨_, g2 _ (List.mem_append_right _ List.mem_cons_self)⟩
          · exact g3 x hx j hj hjk
      · rename_i hik
        simp only [Option.some.injEq] at h1
        subst h1
        refine ⟨fun kv hkv => ?_, g2, ?_⟩
        · rcases g1 kv hkv with g | ⟨g, g'⟩
          · exact Or.inl g
          · exact Or.inr ⟨List.mem_cons_of_mem _ g, g'⟩
        · intro x hx j hj hjk
          rcases List.mem_cons.mp hx with rfl | hx
          · rw [hp] at hj; cases hj; exact absurd hjk hik
          · exact g3 x hx j hj hjk

/-- All replacements applied to one pin. -/
def applyAll (kvs : List (Pin α × Pin α)) (p : Pin α) : Pin α :=
  kvs.foldl (fun p kv => if kv.1 = p then kv.2 else p) p

theorem fold_replace {kvs : List (Pin α × Pin α)} {a b r s : List (Pin α)} (hlen : a.length = b.length)
    (h : kvs.foldlM replacePins (a, b) = some (r, s)) : r = a.map (applyAll kvs) ∧ s = b.map (applyAll kvs) := by
  induction kvs generalizing a b with
  | nil =>
    simp only [List.foldlM_nil, Option.pure_def, Option.some.injEq, Prod.mk.injEq] at h
    have e : (applyAll ([] : List (Pin α × Pin α))) = id := rfl
    simp [e, h.1, h.2]
  | cons kv kvs ih =>
    rw [List.foldlM_cons] at h
    unfold replacePins at h
    rw [if_pos (by simp [hlen])] at h
    simp only [Option.bind_eq_bind, Option.bind_some] at h
    rw [hlen, List.take_length, List.drop_length, List.append_nil] at h
    obtain ⟨h1, h2⟩ := ih (by simp [hlen]) h
    rw [h1, h2, List.map_map, List.map_map]
    exact ⟨rfl, rfl⟩

theorem applyAll_new {new : α} {keys : List α} {port : α → String → Option String} {kvs : List (Pin α × Pin α)}
    (hk : new ∉ keys)
    (hkvs : ∀ kv ∈ kvs, ∃ i n, kv.1.1 = some i ∧ i ∈ keys ∧ port i kv.1.2 = some n ∧ kv.2 = (some new, n)) (p : Pin α) :
    (p ∉ kvs.map Prod.fst → applyAll kvs p = p) ∧ (p ∈ kvs.map Prod.fst → newPin new keys port p (applyAll kvs p)) := by
  induction kvs with
  | nil => simp [applyAll]
  | cons kv kvs ih =>
    have ih := ih fun x hx => hkvs x (List.mem_cons_of_mem _ hx)
    have e : applyAll (kv :: kvs) p = applyAll kvs (if kv.1 = p then kv.2 else p) := rfl
    rw [e]
    obtain ⟨i, n, h1, h2, h3, h4⟩ := hkvs kv List.mem_cons_self
    have hnew : ∀ m, applyAll kvs ((some new, m) : Pin α) = (some new, m) := by
      intro m
      have : ∀ (l : List (Pin α × Pin α)), (∀ x ∈ l, ∃ i n, x.1.1 = some i ∧ i ∈ keys ∧ port i x.1.2 = some n ∧
          x.2 = (some new, n)) → applyAll l ((some new, m) : Pin α) = (some new, m) := by
        intro l
        induction l with
        | nil => intro _; rfl
        | cons x l ihl =>
          intro hx
          have e : applyAll (x :: l) ((some new, m) : Pin α) =
            applyAll l (if x.1 = (some new, m) then x.2 else (some new, m)) := rfl
          rw [e, if_neg]
          · exact ihl fun y hy => hx y (List.mem_cons_of_mem _ hy)
          · intro he
            obtain ⟨j, _, g1, g2, _⟩ := hx x List.mem_cons_self
            rw [he] at g1
            simp only [Option.some.injEq] at g1
            exact hk (g1 ▸ g2)
      exact this kvs fun x hx => hkvs x (List.mem_cons_of_mem _ hx)
    constructor
    · intro hp
      rw [List.map_cons, List.mem_cons, not_or] at hp
      rw [if_neg (fun h => hp.1 h.symm)]
      exact ih.1 hp.2
    · intro hp
      by_cases heq : kv.1 = p
      · rw [if_pos heq, h4, hnew]
        subst heq
        exact Or.inl ⟨i, n, h1, h2, h3, rfl⟩
      · rw [if_neg heq]
        rw [List.map_cons, List.mem_cons] at hp
        rcases hp with h | h
        · exact absurd h.symm heq
        · exact ih.2 h

/-- **C48, pins.**  For two lists of pins of the same length, every pin of a merged instance becomes the pin of the
new instance given by the child, and every other pin stays. -/
theorem C48_pins {new : α} {keys : List α} {port : α → String → Option String} {p1 p2 q1 q2 : List (Pin α)}
    (hk : new ∉ keys) (hlen : p1.length = p2.length) (h : updPins new keys port p1 p2 = some (q1, q2)) :
    List.Forall₂ (newPin new keys port) p1 q1 ∧ List.Forall₂ (newPin new keys port) p2 q2 := by
  unfold updPins at h
  rw [Option.bind_eq_some_iff] at h
  obtain ⟨kvs, h1, h2⟩ := h
  obtain ⟨g1, _, g3⟩ := replacements_spec h1
  have hkvs : ∀ kv ∈ kvs, ∃ i n, kv.1.1 = some i ∧ i ∈ keys ∧ port i kv.1.2 = some n ∧ kv.2 = (some new, n) := by
    intro kv hkv
    rcases g1 kv hkv with g | g
    · simp at g
    · exact g.2
  obtain ⟨rfl, rfl⟩ := fold_replace hlen h2
  have key : ∀ p ∈ p1 ++ p2, newPin new keys port p (applyAll kvs p) := by
    intro p hp
    obtain ⟨a1, a2⟩ := applyAll_new hk hkvs p
    by_cases hm : p ∈ kvs.map Prod.fst
    · exact a2 hm
    · rw [a1 hm]
      refine Or.inr ⟨?_, rfl⟩
      intro i hi hik
      obtain ⟨q, hq⟩ := g3 p hp i hi hik
      exact hm (List.mem_map.mpr ⟨_, hq, rfl⟩)
  have : ∀ l : List (Pin α), (∀ p ∈ l, p ∈ p1 ++ p2) → List.Forall₂ (newPin new keys port) l (l.map (applyAll kvs)) := by
    intro l hl
    induction l with
    | nil => exact .nil
    | cons a l ih => exact .cons (key a (hl a List.mem_cons_self)) (ih fun p hp => hl p (List.mem_cons_of_mem _ hp))
  exact ⟨this p1 fun p hp => List.mem_append_left _ hp, this p2 fun p hp => List.mem_append_right _ hp⟩

/-! ### Non-trivial cases and violations -/

example : updInstances "X" ["M1", "M3", "M5"] ["M2", "M1", "M4", "M3"] = ["M2", "X", "M4"] := by decide
example : Merged "X" ["M1", "M3", "M5"] ["M2", "M1", "M4", "M3"] ["M2", "X", "M4"] :=
  C48_instances_first (by decide) (by decide) (by decide) (fun _ => ⟨"M1", rfl, by decide⟩)
example : updPins "X" ["M1", "M2"] (fun i p => if i = "M1" ∧ p = "D" then some "DA" else if i = "M2" then some p else none)
    [(some "M1", "D"), (none, "n")] [(some "M2", "D"), (some "M3", "D")] =
    some ([(some "X", "DA"), (none, "n")], [(some "X", "D"), (some "M3", "D")]) := by decide

/-- **C48 is violated when the first merged instance is not in the list**: the flag is consumed by it, the others are
removed, and the new instance is not mentioned at all. -/
theorem C48_violated_lost :
    updInstances "X" ["M1", "M3"] ["M2", "M3"] = ["M2"] ∧ ¬Merged "X" ["M1", "M3"] ["M2", "M3"] ["M2"] := by
  refine ⟨by decide, fun h => ?_⟩
  have := h.once
  revert this
  decide

/-- The same for regions. -/
theorem C48_violated_regions : updRow "X" ["M1", "M3"] ["M2", "M3"] = ["M2"] := by decide

/-- **C48 is violated by lists with repetitions**: only one occurrence of a merged instance is removed. -/
theorem C48_violated_repetition : updInstances "X" ["M1", "M3"] ["M1", "M3", "M3"] = ["X", "M3"] := by decide

end Verif.Schema.Tr

import Mathlib.Data.List.Basic
import Mathlib.Tactic.Ring
import Verif.Schema.Translator

/-!
# C67: charge flow constraints after instances were merged

Model of the `pin_current` branch of `ConstraintTranslator._update_const`
(`align/schema/translator.py`, 139-161).

Simplifications: pins are pairs of an instance and a port (names already in upper case), currents are
integers.  A dictionary is a list of entries in insertion order.
-/

namespace Verif.Schema.Tr

variable {α : Type} [DecidableEq α]

abbrev Flow (α : Type) := List (Pin α × List Int)

/-- `for id, cur in enumerate(a): a[id] = cur + b[id]` (154-155); an index past the end is an error. -/
def addCurrents : List Int → List Int → Option (List Int)
  | [], _ => some []
  | _ :: _, [] => none
  | x :: a, y :: b => (addCurrents a b).map ((x + y) :: ·)

/-- Lines 153-157: add to the entry of the pin, or make one. -/
def addFlow (acc : Flow α) (q : Pin α) (c : List Int) : Option (Flow α) :=
  match acc with
  | [] => some [(q, c)]
  | e :: acc =>
    if e.1 = q then (addCurrents e.2 c).map fun d => (q, d) :: acc
    else (addFlow acc q c).map (e :: ·)

/-- A pin of a merged instance (143). -/
def isMerged (keys : List α) (p : Pin α) : Bool := p.1.any fun i => decide (i ∈ keys)

/-- The new pin of a pin of a merged instance (145-152). -/
def target (new : α) (port : α → String → Option String) (p : Pin α) : Option (Pin α) :=
  p.1.bind fun i => (port i p.2).map fun n => (some new, n)

/-- Lines 142-157. -/
def newFlows (new : α) (keys : List α) (port : α → String → Option String) (f : Flow α) : Option (Flow α) :=
  f.foldlM (fun acc e =>
    if isMerged keys e.1 then (target new port e.1).bind fun q => addFlow acc q e.2 else some acc) []

/-- `d[k] = v` (161). -/
def setFlow (f : Flow α) (e : Pin α × List Int) : Flow α :=
  if f.any fun x => x.1 = e.1 then f.map fun x => if x.1 = e.1 then e else x else f ++ [e]

/-- Lines 139-161. -/
def updFlow (new : α) (keys : List α) (port : α → String → Option String) (f : Flow α) : Option (Flow α) :=
  (newFlows new keys port f).map fun u => u.foldl setFlow (f.filter fun e => !isMerged keys e.1)

/-! ## Specification -/

/-- The current at time `t` into the pins that `g` sends to `q`. -/
def total (f : Flow α) (g : Pin α → Pin α) (q : Pin α) (t : Nat) : Int :=
  (f.map fun e => if g e.1 = q then e.2.getD t 0 else 0).sum

/-! ## Proofs -/

theorem addCurrents_spec {a b c : List Int} (hl : a.length = b.length) (h : addCurrents a b = some c) :
    c.length = a.length ∧ ∀ t, c.getD t 0 = a.getD t 0 + b.getD t 0 := by
  induction a generalizing b c with
  | nil =>
    cases b with
    | nil => simp only [addCurrents, Option.some.injEq] at h; subst h; simp
    | cons => simp at hl
  | cons x a ih =>
    cases b with
    | nil => simp at hl
    | cons y b =>
      simp only [addCurrents, Option.map_eq_some_iff] at h
      obtain ⟨d, h1, rfl⟩ := h
      obtain ⟨g1, g2⟩ := ih (by simpa using hl) h1
      refine ⟨by simp [g1], ?_⟩
      intro t
      cases t with
      | zero => simp
      | succ t => simpa using g2 t

theorem addCurrents_isSome {a b : List Int} (hl : a.length = b.length) : (addCurrents a b).isSome := by
  induction a generalizing b with
  | nil => rfl
  | cons x a ih =>
    cases b with
    | nil => simp at hl
    | cons y b => simpa [addCurrents] using ih (by simpa using hl)

theorem total_cons (e : Pin α × List Int) (f : Flow α) (g : Pin α → Pin α) (q : Pin α) (t : Nat) :
    total (e :: f) g q t = (if g e.1 = q then e.2.getD t 0 else 0) + total f g q t := rfl

theorem total_append (f f' : Flow α) (g : Pin α → Pin α) (q : Pin α) (t : Nat) :
    total (f ++ f') g q t = total f g q t + total f' g q t := by
  unfold total
  rw [List.map_append, List.sum_append]

theorem addFlow_spec {acc acc' : Flow α} {q : Pin α} {c : List Int} {n : Nat}
    (hacc : ∀ e ∈ acc, e.2.length = n) (hc : c.length = n) (h : addFlow acc q c = some acc') :
    (∀ e ∈ acc', e.2.length = n) ∧ (∀ p t, total acc' id p t = total acc id p t + if q = p then c.getD t 0 else 0) ∧
      (∀ p, p ∈ acc'.map Prod.fst ↔ p ∈ acc.map Prod.fst ∨ p = q) ∧
      ((acc.map Prod.fst).Nodup → (acc'.map Prod.fst).Nodup) := by
  induction acc generalizing acc' with
  | nil =>
    simp only [addFlow, Option.some.injEq] at h
    subst h
    refine ⟨by simp [hc], ?_, by simp, by simp⟩
    intro p t
    simp [total]
  | cons e acc ih =>
    unfold addFlow at h
    split at h
    · rename_i he
      rw [Option.map_eq_some_iff] at h
      obtain ⟨d, h1, rfl⟩ := h
      have hl : e.2.length = n := hacc e List.mem_cons_self
      obtain ⟨g1, g2⟩ := addCurrents_spec (by rw [hl, hc]) h1
      refine ⟨?_, ?_, ?_, ?_⟩
      · intro x hx
        rcases List.mem_cons.mp hx with rfl | hx
        · simp only; rw [g1, hl]
        · exact hacc x (List.mem_cons_of_mem _ hx)
      · intro p t
        rw [total_cons, total_cons]
        simp only [id]
        rw [he]
        by_cases hp : q = p
        · simp only [hp, if_true]; rw [g2]; ring
        · simp [hp]
      · intro p
        simp only [List.map_cons, List.mem_cons, he]
        tauto
      · intro hn
        simpa [he] using hn
    · rename_i he
      rw [Option.map_eq_some_iff] at h
      obtain ⟨d, h1, rfl⟩ := h
      obtain ⟨g1, g2, g3, g4⟩ := ih (fun x hx => hacc x (List.mem_cons_of_mem _ hx)) h1
      refine ⟨?_, ?_, ?_, ?_⟩
      · intro x hx
        rcases List.mem_cons.mp hx with rfl | hx
        · exact hacc x List.mem_cons_self
        · exact g1 x hx
      · intro p t
        rw [total_cons, total_cons, g2]
        ring
      · intro p
        simp only [List.map_cons, List.mem_cons, g3]
        tauto
      · intro hn
        rw [List.map_cons, List.nodup_cons] at hn ⊢
        refine ⟨?_, g4 hn.2⟩
        rw [g3]
        rintro (h | h)
        · exact hn.1 h
        · exact he h

theorem newFlows_spec {new : α} {keys : List α} {port : α → String → Option String} {n : Nat} {g : Pin α → Pin α}
    {f : Flow α} (hf : ∀ e ∈ f, e.2.length = n)
    (hg : ∀ e ∈ f, isMerged keys e.1 = true → target new port e.1 = some (g e.1)) {acc u : Flow α}
    (hacc : ∀ e ∈ acc, e.2.length = n)
    (h : f.foldlM (fun acc e =>
    if isMerged keys e.1 then (target new port e.1).bind fun q => addFlow acc q e.2 else some acc) acc = some u) :
    (∀ e ∈ u, e.2.length = n) ∧
    (∀ p t, total u id p t = total acc id p t + total (f.filter fun e => isMerged keys e.1) g p t) ∧
      (∀ p ∈ u.map Prod.fst, p ∈ acc.map Prod.fst ∨ p.1 = some new) ∧
      ((acc.map Prod.fst).Nodup → (u.map Prod.fst).Nodup) := by
  induction f generalizing acc with
  | nil =>
    simp only [List.foldlM_nil, Option.pure_def, Option.some.injEq] at h
    subst h
    exact ⟨hacc, by simp [total], fun p hp => Or.inl hp, id⟩
  | cons e f ih =>
    rw [List.foldlM_cons, Option.bind_eq_bind, Option.bind_eq_some_iff] at h
    obtain ⟨acc', h1, h2⟩ := h
    have hf' : ∀ x ∈ f, x.2.length = n := fun x hx => hf x (List.mem_cons_of_mem _ hx)
    have hg' : ∀ x ∈ f, isMerged keys x.1 = true → target new port x.1 = some (g x.1) :=
      fun x hx => hg x (List.mem_cons_of_mem _ hx)
    by_cases hm : isMerged keys e.1 = true
    · rw [if_pos hm, hg e List.mem_cons_self hm, Option.bind_some] at h1
      obtain ⟨a1, a2, a3, a4⟩ := addFlow_spec hacc (hf e List.mem_cons_self) h1
      obtain ⟨b1, b2, b3, b4⟩ := ih hf' hg' a1 h2
      refine ⟨b1, ?_, ?_, fun hn => b4 (a4 hn)⟩
      · intro p t
        rw [b2, a2, List.filter_cons_of_pos (by simpa using hm), total_cons]
        ring
      · intro p hp
        rcases b3 p hp with h | h
        · rcases (a3 p).mp h with h | h
          · exact Or.inl h
          · right
            have := hg e List.mem_cons_self hm
            unfold target at this
            rw [Option.bind_eq_some_iff] at this
            obtain ⟨i, _, this⟩ := this
            rw [Option.map_eq_some_iff] at this
            obtain ⟨_, _, this⟩ := this
            rw [h, ← this]
        · exact Or.inr h
    · rw [if_neg hm] at h1
      simp only [Option.some.injEq] at h1
      subst h1
      obtain ⟨b1, b2, b3, b4⟩ := ih hf' hg' hacc h2
      refine ⟨b1, ?_, b3, b4⟩
      intro p t
      rw [b2, List.filter_cons_of_neg (by simpa using hm)]

theorem setFlow_all {u r : Flow α} (hu : (u.map Prod.fst).Nodup)
    (hd : ∀ p ∈ u.map Prod.fst, p ∉ r.map Prod.fst) : u.foldl setFlow r = r ++ u := by
  induction u generalizing r with
  | nil => simp
  | cons e u ih =>
    rw [List.map_cons, List.nodup_cons] at hu
    rw [List.foldl_cons]
    have : setFlow r e = r ++ [e] := by
      unfold setFlow
      rw [if_neg]
      intro h
      rw [List.any_eq_true] at h
      obtain ⟨x, hx, he⟩ := h
      exact hd e.1 (by simp) (List.mem_map.mpr ⟨x, hx, by simpa using he⟩)
    rw [this, ih hu.2, List.append_assoc, List.singleton_append]
    intro p hp
    rw [List.map_append, List.mem_append, not_or]
    refine ⟨hd p (by simp only [List.map_cons, List.mem_cons]; exact Or.inr hp), ?_⟩
    simp only [List.map_cons, List.map_nil, List.mem_singleton]
    rintro rfl
    exact hu.1 hp

/-- Where a pin is after the merge: pins of merged instances go to the pin of the new instance the child gives, other
pins stay. -/
def Moves (new : α) (keys : List α) (port : α → String → Option String) (f : Flow α) (g : Pin α → Pin α) : Prop :=
  ∀ e ∈ f, (∀ i, e.1.1 = some i → i ∈ keys → ∃ n, port i e.1.2 = some n ∧ g e.1 = (some new, n)) ∧
    ((∀ i, e.1.1 = some i → i ∉ keys) → g e.1 = e.1)

/-- **C67.**  If all currents have the same number of time steps and the new instance has no current yet, the update
keeps the total current of every pin at every time, has one entry per pin, and no entry of a merged instance. -/
theorem C67_total_current {new : α} {keys : List α} {port : α → String → Option String} {n : Nat} {f r : Flow α}
    {g : Pin α → Pin α} (hk : new ∉ keys) (hf : ∀ e ∈ f, e.2.length = n) (hnd : (f.map Prod.fst).Nodup)
    (hnew : ∀ e ∈ f, e.1.1 ≠ some new) (hg : Moves new keys port f g) (h : updFlow new keys port f = some r) :
    (∀ p t, total r id p t = total f g p t) ∧ (r.map Prod.fst).Nodup ∧
      (∀ e ∈ r, ∀ i, e.1.1 = some i → i ∉ keys) ∧ ∀ e ∈ r, e.2.length = n := by
  unfold updFlow at h
  rw [Option.map_eq_some_iff] at h
  obtain ⟨u, h1, rfl⟩ := h
  have hg1 : ∀ e ∈ f, isMerged keys e.1 = true → target new port e.1 = some (g e.1) := by
    intro e he hm
    unfold isMerged at hm
    cases hp : e.1.1 with
    | none => rw [hp] at hm; simp at hm
    | some i =>
      rw [hp] at hm
      simp only [Option.any_some, decide_eq_true_eq] at hm
      obtain ⟨m, g1, g2⟩ := (hg e he).1 i hp hm
      unfold target
      rw [hp, Option.bind_some, g1, g2]
      rfl
  have hnm : ∀ e : Pin α × List Int, ¬isMerged keys e.1 = true ↔ ∀ i, e.1.1 = some i → i ∉ keys := by
    intro e
    unfold isMerged
    cases hp : e.1.1 with
    | none => simp
    | some i => simp
  obtain ⟨a1, a2, a3, a4⟩ := newFlows_spec hf hg1 (acc := []) (by simp) h1
  have hu := a4 (by simp)
  have a3' : ∀ p ∈ u.map Prod.fst, p.1 = some new := by
    intro p hp
    rcases a3 p hp with h | h
    · simp at h
    · exact h
  have hdis : ∀ p ∈ u.map Prod.fst, p ∉ (f.filter fun e => !isMerged keys e.1).map Prod.fst := by
    intro p hp hm
    rw [List.mem_map] at hm
    obtain ⟨e, he, rfl⟩ := hm
    exact hnew e (List.mem_filter.mp he).1 (a3' _ hp)
  rw [setFlow_all hu hdis]
  refine ⟨?_, ?_, ?_, ?_⟩
  · intro p t
    rw [total_append, a2]
    have hz : total ([] : Flow α) id p t = 0 := rfl
    rw [hz]
    clear h1 a1 a2 a3 a4 hu a3' hdis hnd hf hg1
    induction f with
    | nil => rfl
    | cons e f ih =>
      have ih := ih (fun x hx => hnew x (List.mem_cons_of_mem _ hx)) (fun x hx => hg x (List.mem_cons_of_mem _ hx))
      rw [total_cons, ← ih]
      by_cases hm : isMerged keys e.1 = true
      · rw [List.filter_cons_of_neg (by simp [hm]), List.filter_cons_of_pos (by simp [hm]), total_cons]
        ring
      · rw [List.filter_cons_of_pos (by simp [hm]), List.filter_cons_of_neg (by simp [hm]), total_cons,
          (hg e List.mem_cons_self).2 ((hnm e).mp hm)]
        simp only [id]
        ring
  · rw [List.map_append, List.nodup_append]
    refine ⟨hnd.sublist (List.filter_sublist.map _), hu, ?_⟩
    rintro a ha b hb rfl
    exact hdis a hb ha
  · intro e he i hi
    rcases List.mem_append.mp he with h | h
    · have := (List.mem_filter.mp h).2
      exact (hnm e).mp (by simpa using this) i hi
    · have := a3' e.1 (List.mem_map.mpr ⟨e, h, rfl⟩)
      rw [hi] at this
      cases this
      exact hk
  · intro e he
    rcases List.mem_append.mp he with h | h
    · exact hf e (List.mem_filter.mp h).1
    · exact a1 e h

/-- The update succeeds when every pin of a merged instance has a net in the child. -/
theorem C67_exists {new : α} {keys : List α} {port : α → String → Option String} {n : Nat} {f : Flow α}
    (hf : ∀ e ∈ f, e.2.length = n) (hp : ∀ e ∈ f, ∀ i, e.1.1 = some i → i ∈ keys → (port i e.1.2).isSome) :
    (updFlow new keys port f).isSome := by
  unfold updFlow newFlows
  rw [Option.isSome_map]
  have add : ∀ (acc : Flow α) (q : Pin α) (c : List Int), (∀ e ∈ acc, e.2.length = n) → c.length = n →
      (addFlow acc q c).isSome := by
    intro acc q c hacc hc
    induction acc with
    | nil => rfl
    | cons e acc ih =>
      unfold addFlow
      split
      · rw [Option.isSome_map]
        exact addCurrents_isSome (by rw [hacc e List.mem_cons_self, hc])
      · rw [Option.isSome_map]
        exact ih fun x hx => hacc x (List.mem_cons_of_mem _ hx)
  have : ∀ (f : Flow α), (∀ e ∈ f, e.2.length = n) →
      (∀ e ∈ f, ∀ i, e.1.1 = some i → i ∈ keys → (port i e.1.2).isSome) → ∀ acc : Flow α,
      (∀ e ∈ acc, e.2.length = n) → (f.foldlM (fun acc e =>
    if isMerged keys e.1 then (target new port e.1).bind fun q => addFlow acc q e.2 else some acc) acc).isSome := by
    intro f
    induction f with
    | nil => intros; rfl
    | cons e f ih =>
      intro hf hp acc hacc
      have ih := ih (fun x hx => hf x (List.mem_cons_of_mem _ hx)) (fun x hx => hp x (List.mem_cons_of_mem _ hx))
      rw [List.foldlM_cons]
      by_cases hm : isMerged keys e.1 = true
      · rw [if_pos hm]
        have hm' := hm
        unfold isMerged at hm'
        cases hi : e.1.1 with
        | none => rw [hi] at hm'; simp at hm'
        | some i =>
          rw [hi] at hm'
          simp only [Option.any_some, decide_eq_true_eq] at hm'
          obtain ⟨q, hq⟩ := Option.isSome_iff_exists.mp (hp e List.mem_cons_self i hi hm')
          unfold target
          rw [hi, Option.bind_some, hq, Option.map_some, Option.bind_some]
          obtain ⟨acc', ha⟩ := Option.isSome_iff_exists.mp (add acc (some new, q) e.2 hacc (hf e List.mem_cons_self))
          rw [ha, Option.bind_eq_bind, Option.bind_some]
          exact ih acc' (addFlow_spec hacc (hf e List.mem_cons_self) ha).1
      · rw [if_neg hm, Option.bind_eq_bind, Option.bind_some]
        exact ih acc hacc
  exact this f hf hp [] (by simp)

example : updFlow "X" ["M1", "M2"] (fun i p => if p = "S" then some "T" else some (i ++ p))
    [((some "M1", "S"), [1, 2]), ((some "M3", "D"), [5, 5]), ((some "M2", "S"), [10, 20])] =
    some [((some "M3", "D"), [5, 5]), ((some "X", "T"), [11, 22])] := by decide +kernel

/-- A list of currents with more time steps than the first one loses the last ones: equal length is needed. -/
theorem C67_needs_equal_length : updFlow "X" ["M1", "M2"] (fun _ _ => some "T")
    [((some "M1", "S"), [1]), ((some "M2", "S"), [10, 20])] = some [((some "X", "T"), [11])] := by decide +kernel

end Verif.Schema.Tr

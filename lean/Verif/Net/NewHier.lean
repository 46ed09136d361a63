import Verif.Net.Flatten

/-!
# C47: grouping instances into a new hierarchy

Model of `create_new_hiearchy` (`align/compiler/create_array_hierarchy.py`, 282-337) without `pins_map`, which no caller
gives.

Simplifications: the graph is the list of elements (see `Verif.Net.Flatten`); the transfer of constraints (311-323) is left
out.  An assertion or an error is `none`.
-/

namespace Verif.Net

/-- `get_element` (`align/schema/subcircuit.py`, 31-32). -/
def getElement (l : List Inst) (name : String) : Option Inst := l.find? fun e => e.name = name

/-- `G.neighbors` of an element: its nets. -/
def netsOf (e : Inst) : List String := e.pins.map Prod.snd

/-- `G.neighbors` of a net: the elements on it. -/
def usersOf (l : List Inst) (n : String) : List String := (l.filter fun e => (netsOf e).contains n).map Inst.name

/-- Lines 287-298: the pins of the new subcircuit. -/
def childPins (ports : List String) (l : List Inst) (els : List String) : List String :=
  (((els.filterMap (getElement l)).flatMap netsOf).eraseDups).filter fun n =>
    ports.contains n || (usersOf l n).any fun u => !els.contains u

/-- `list.remove`. -/
def removeOne (l : List Inst) (e : Inst) : Option (List Inst) := if e ∈ l then some (l.erase e) else none

/-- Lines 282-337: the new subcircuit and the new elements of the parent. -/
def createHier (D : Lib) (ports : List String) (l : List Inst) (child : String) (els : List String) :
    Option (Sub × List Inst) :=
  let pins := childPins ports l els
  let pes := els.filterMap (getElement l)
  if pins = [] then none
  else if (D child).isSome then none
  else (pes.foldlM removeOne l).map fun rest =>
    (⟨pes⟩, rest ++ [⟨"X_" ++ child, child, pins.map fun n => (n, n)⟩])

/-- The library with the new subcircuit. -/
def addSub (D : Lib) (child : String) (s : Sub) : Lib := fun m => if m = child then some s else D m

/-! ## Specification -/

/-- The path of an occurrence after grouping: below the new instance if it was moved. -/
def move (child : String) (els : List String) (p : List String) : List String :=
  match p with
  | [] => []
  | a :: p => if a ∈ els then ("X_" ++ child) :: a :: p else a :: p

/-! ## Proofs -/

theorem getElement_some {l : List Inst} {n : String} {e : Inst} (h : getElement l n = some e) : e ∈ l ∧ e.name = n := by
  unfold getElement at h
  refine ⟨List.mem_of_find?_eq_some h, ?_⟩
  simpa using List.find?_some h

theorem getElement_of_mem {l : List Inst} (hn : (l.map Inst.name).Nodup) {e : Inst} (he : e ∈ l) :
    getElement l e.name = some e := by
  unfold getElement
  cases h : l.find? fun x => decide (x.name = e.name) with
  | none => exact absurd (List.find?_eq_none.mp h e he) (by simp)
  | some x =>
    have h1 := List.mem_of_find?_eq_some h
    have h2 := List.find?_some h
    rw [nodup_name hn h1 he (by simpa using h2)]

theorem mem_moved {l : List Inst} (hn : (l.map Inst.name).Nodup) {els : List String} {e : Inst} :
    e ∈ els.filterMap (getElement l) ↔ e ∈ l ∧ e.name ∈ els := by
  rw [List.mem_filterMap]
  constructor
  · rintro ⟨n, h1, h2⟩
    obtain ⟨h3, rfl⟩ := getElement_some h2
    exact ⟨h3, h1⟩
  · rintro ⟨h1, h2⟩
    exact ⟨e.name, h2, getElement_of_mem hn h1⟩

theorem mem_childPins {ports : List String} {l : List Inst} (hn : (l.map Inst.name).Nodup) {els : List String}
    {n : String} : n ∈ childPins ports l els ↔
      (∃ e ∈ l, e.name ∈ els ∧ n ∈ netsOf e) ∧ (n ∈ ports ∨ ∃ e ∈ l, e.name ∉ els ∧ n ∈ netsOf e) := by
  unfold childPins
  rw [List.mem_filter, List.mem_eraseDups, List.mem_flatMap]
  simp only [mem_moved hn, Bool.or_eq_true, List.any_eq_true, List.contains_iff_mem, usersOf, List.mem_map, List.mem_filter,
    Bool.not_eq_true']
  constructor
  · rintro ⟨⟨e, ⟨h1, h2⟩, h3⟩, h4⟩
    refine ⟨⟨e, h1, h2, h3⟩, ?_⟩
    rcases h4 with h | ⟨_, ⟨e', ⟨g1, g2⟩, rfl⟩, g3⟩
    · exact Or.inl h
    · exact Or.inr ⟨e', g1, by simpa using g3, g2⟩
  · rintro ⟨⟨e, h1, h2, h3⟩, h4⟩
    refine ⟨⟨e, ⟨h1, h2⟩, h3⟩, ?_⟩
    rcases h4 with h | ⟨e', g1, g2, g3⟩
    · exact Or.inl h
    · exact Or.inr ⟨_, ⟨e', ⟨g1, g3⟩, rfl⟩, by simpa using g2⟩

theorem foldlM_remove {xs l r : List Inst} (hl : l.Nodup) (h : xs.foldlM removeOne l = some r) :
    r = l.filter (fun e => decide (e ∉ xs)) := by
  induction xs generalizing l with
  | nil =>
    simp only [List.foldlM_nil, Option.pure_def, Option.some.injEq] at h
    simp [← h]
  | cons x xs ih =>
    rw [List.foldlM_cons, Option.bind_eq_bind, Option.bind_eq_some_iff] at h
    obtain ⟨l', h1, h2⟩ := h
    unfold removeOne at h1
    split at h1
    · simp only [Option.some.injEq] at h1
      subst h1
      rw [ih (hl.erase x) h2, hl.erase_eq_filter, List.filter_filter]
      apply List.filter_congr
      intro e _
      by_cases g1 : e = x <;> by_cases g2 : e ∈ xs <;> simp [g1, g2]
    · cases h1

theorem foldlM_remove_isSome {xs l : List Inst} (hl : l.Nodup) (hx : xs.Nodup) (hm : ∀ x ∈ xs, x ∈ l) :
    (xs.foldlM removeOne l).isSome := by
  induction xs generalizing l with
  | nil => rfl
  | cons x xs ih =>
    rw [List.foldlM_cons]
    unfold removeOne
    rw [if_pos (hm x List.mem_cons_self), Option.bind_eq_bind, Option.bind_some]
    rw [List.nodup_cons] at hx
    apply ih (hl.erase x) hx.2
    intro y hy
    rw [hl.mem_erase_iff]
    exact ⟨fun h => hx.1 (h ▸ hy), hm y (List.mem_cons_of_mem _ hy)⟩

theorem filterMap_name {l : List Inst} (els : List String) :
    (els.filterMap (getElement l)).map Inst.name = els.filter fun n => (getElement l n).isSome := by
  induction els with
  | nil => rfl
  | cons a els ih =>
    rw [List.filterMap_cons, List.filter_cons]
    cases h : getElement l a with
    | none => simpa using ih
    | some e => simp [ih, (getElement_some h).2]

theorem nodup_eraseDups : ∀ (n : Nat) (l : List String), l.length ≤ n → l.eraseDups.Nodup := by
  intro n
  induction n with
  | zero => intro l h; have : l = [] := List.length_eq_zero_iff.mp (by omega); subst this; simp
  | succ n ih =>
    intro l h
    cases l with
    | nil => simp
    | cons a l =>
      rw [List.eraseDups_cons, List.nodup_cons]
      refine ⟨?_, ih _ (Nat.le_trans (List.length_filter_le _ _) (by simpa using h))⟩
      rw [List.mem_eraseDups]
      simp

section
variable {D : Lib} {ports : List String} {l r : List Inst} {child : String} {els : List String} {s : Sub}

/-- What the result looks like. -/
theorem createHier_eq (hn : (l.map Inst.name).Nodup) (h : createHier D ports l child els = some (s, r)) :
    s.elems = els.filterMap (getElement l) ∧
    r = (l.filter fun e => decide (e.name ∉ els)) ++
      [⟨"X_" ++ child, child, (childPins ports l els).map fun n => (n, n)⟩] ∧ D child = none := by
  unfold createHier at h
  simp only at h
  split at h
  · cases h
  · split at h
    · cases h
    · rename_i hD
      rw [Option.map_eq_some_iff] at h
      obtain ⟨rest, h1, h2⟩ := h
      obtain ⟨rfl, rfl⟩ := Prod.mk.inj h2
      refine ⟨rfl, ?_, by simpa using hD⟩
      rw [foldlM_remove (List.Nodup.of_map _ hn) h1]
      congr 1
      apply List.filter_congr
      intro e he
      simp [mem_moved hn, he]

/-- **C47, elements.**  Exactly the given elements are in the new subcircuit, the others stay in their order, and
one instance of the new subcircuit is added. -/
theorem C47_moves_exactly (hn : (l.map Inst.name).Nodup) (h : createHier D ports l child els = some (s, r)) :
    (∀ e, e ∈ s.elems ↔ e ∈ l ∧ e.name ∈ els) ∧
    ∃ x, x.model = child ∧ r = (l.filter fun e => decide (e.name ∉ els)) ++ [x] := by
  obtain ⟨h1, h2, _⟩ := createHier_eq hn h
  refine ⟨fun e => ?_, _, rfl, h2⟩
  rw [h1, mem_moved hn]

/-- **C47, pins.**  A net of a moved element is a pin of the new subcircuit exactly when it is a port of the parent or an
element that stays is on it, and the pin is connected to the net of the same name. -/
theorem C47_pins (hn : (l.map Inst.name).Nodup) (h : createHier D ports l child els = some (s, r)) :
    ∃ x ∈ r, x.model = child ∧ x.name = "X_" ++ child ∧ (∀ a b, (a, b) ∈ x.pins → a = b) ∧
      ∀ n, n ∈ x.pins.map Prod.fst ↔
        (∃ e ∈ l, e.name ∈ els ∧ n ∈ netsOf e) ∧ (n ∈ ports ∨ ∃ e ∈ l, e.name ∉ els ∧ n ∈ netsOf e) := by
  obtain ⟨_, h2, _⟩ := createHier_eq hn h
  subst h2
  refine ⟨_, List.mem_append_right _ List.mem_cons_self, rfl, rfl, ?_, ?_⟩
  · intro a b hab
    rw [List.mem_map] at hab
    obtain ⟨n, _, hab⟩ := hab
    obtain ⟨rfl, rfl⟩ := Prod.mk.inj hab
    rfl
  · intro n
    rw [List.map_map]
    have : (Prod.fst ∘ fun n : String => (n, n)) = id := rfl
    rw [this, List.map_id, mem_childPins hn]

/-- The new hierarchy is well formed. -/
theorem wellFormed_new (hw : WellFormed D l) (hels : els.Nodup) (hx : ∀ e ∈ l, e.name ≠ "X_" ++ child)
    (h : createHier D ports l child els = some (s, r)) : WellFormed (addSub D child s) r := by
  obtain ⟨h1, rfl, h3⟩ := createHier_eq hw.names h
  have hs : (s.elems.map Inst.name).Nodup := by
    rw [h1, filterMap_name]
    exact hels.filter _
  have hsp : ∀ e ∈ s.elems, (e.pins.map Prod.fst).Nodup := by
    intro e he
    rw [h1, mem_moved hw.names] at he
    exact hw.topPins e he.1
  constructor
  · rw [List.map_append, List.nodup_append]
    refine ⟨hw.names.sublist (List.filter_sublist.map _), by simp, ?_⟩
    intro a ha b hb hab
    simp only [List.map_cons, List.map_nil, List.mem_singleton] at hb
    rw [List.mem_map] at ha
    obtain ⟨e, he, rfl⟩ := ha
    exact hx e (List.mem_filter.mp he).1 (hab.trans hb)
  · intro m s' hm
    unfold addSub at hm
    split at hm
    · simp only [Option.some.injEq] at hm; subst hm; exact hs
    · exact hw.sub m s' hm
  · intro e he
    rcases List.mem_append.mp he with he | he
    · exact hw.topPins e (List.mem_filter.mp he).1
    · simp only [List.mem_singleton] at he
      subst he
      simp only [List.map_map]
      have : (Prod.fst ∘ fun n : String => (n, n)) = id := rfl
      rw [this, List.map_id]
      unfold childPins
      exact List.Nodup.filter _ (nodup_eraseDups _ _ (Nat.le_refl _))
  · intro m s' hm
    unfold addSub at hm
    split at hm
    · simp only [Option.some.injEq] at hm; subst hm; exact hsp
    · exact hw.subPins m s' hm

/-! ### Connectivity -/

theorem move_cons (a : String) (p : List String) :
    move child els (a :: p) = if a ∈ els then ("X_" ++ child) :: a :: p else a :: p := rfl

theorem move_append (p : List String) (hp : p ≠ []) (a : String) : move child els (p ++ [a]) = move child els p ++ [a] := by
  cases p with
  | nil => exact absurd rfl hp
  | cons b p =>
    simp only [List.cons_append, move_cons]
    split <;> simp

theorem move_ne_nil {p : List String} (hp : p ≠ []) : move child els p ≠ [] := by
  cases p with
  | nil => exact absurd rfl hp
  | cons b p => rw [move_cons]; split <;> simp

/-- The first name of the path of an occurrence is the name of an element. -/
theorem At.head {p : List String} {e : Inst} (h : At D l p e) : ∃ a q, p = a :: q ∧ ∃ x ∈ l, x.name = a := by
  induction h with
  | top he => exact ⟨_, [], rfl, _, he, rfl⟩
  | step _ _ _ ih =>
    obtain ⟨a, q, rfl, h⟩ := ih
    exact ⟨a, q ++ [_], rfl, h⟩

theorem move_inj (hx : ∀ e ∈ l, e.name ≠ "X_" ++ child) {p q : List String} {e e' : Inst} (hp : At D l p e)
    (hq : At D l q e') (h : move child els p = move child els q) : p = q := by
  obtain ⟨a, p', rfl, x, hx1, rfl⟩ := hp.head
  obtain ⟨b, q', rfl, y, hy1, rfl⟩ := hq.head
  simp only [move_cons] at h
  split at h <;> split at h
  · simpa using h
  · exact absurd (List.cons.inj h).1.symm (hx y hy1)
  · exact absurd (List.cons.inj h).1 (hx x hx1)
  · exact h

/-- **C47, occurrences.**  Every instance at every depth is still there, below the new instance if it was moved, and
nothing else but the new instance is. -/
theorem C47_occurrences (hw : WellFormed D l) (hx : ∀ e ∈ l, e.name ≠ "X_" ++ child)
    (hfresh : ∀ p e, At D l p e → e.model ≠ child) (h : createHier D ports l child els = some (s, r))
    (p' : List String) (e : Inst) :
    At (addSub D child s) r p' e ↔ (∃ p, At D l p e ∧ p' = move child els p) ∨
      (p' = ["X_" ++ child] ∧ e = ⟨"X_" ++ child, child, (childPins ports l els).map fun n => (n, n)⟩) := by
  obtain ⟨h1, h2, h3⟩ := createHier_eq hw.names h
  constructor
  · intro ha
    induction ha with
    | top he =>
      rename_i e
      rw [h2] at he
      rcases List.mem_append.mp he with he | he
      · left
        obtain ⟨g1, g2⟩ := List.mem_filter.mp he
        refine ⟨[e.name], .top g1, ?_⟩
        rw [move_cons]
        rw [if_neg (by simpa using g2)]
      · simp only [List.mem_singleton] at he
        subst he
        exact Or.inr ⟨rfl, rfl⟩
    | step ha hD he ih =>
      rename_i p i e s'
      left
      rcases ih with ⟨q, hq, rfl⟩ | ⟨rfl, rfl⟩
      · have : D i.model = some s' := by
          unfold addSub at hD
          rw [if_neg (hfresh q i hq)] at hD
          exact hD
        exact ⟨q ++ [e.name], .step hq this he, (move_append q hq.ne_nil _).symm⟩
      · unfold addSub at hD
        simp only [if_true, Option.some.injEq] at hD
        subst hD
        rw [h1, mem_moved hw.names] at he
        refine ⟨[e.name], .top he.1, ?_⟩
        rw [move_cons]
        rw [if_pos he.2]
        rfl
  · have hX : At (addSub D child s) r ["X_" ++ child]
        ⟨"X_" ++ child, child, (childPins ports l els).map fun n => (n, n)⟩ := by
      have : (⟨"X_" ++ child, child, (childPins ports l els).map fun n => (n, n)⟩ : Inst) ∈ r := by
        rw [h2]; exact List.mem_append_right _ List.mem_cons_self
      exact .top this
    rintro (⟨p, ha, rfl⟩ | ⟨rfl, rfl⟩)
    · induction ha with
      | top he =>
        rename_i e
        rw [move_cons]
        by_cases hm : e.name ∈ els
        · rw [if_pos hm]
          exact .step (p := ["X_" ++ child]) hX (s := s) (by simp [addSub]) (by rw [h1, mem_moved hw.names]; exact ⟨he, hm⟩)
        · rw [if_neg hm]
          apply At.top
          rw [h2]
          exact List.mem_append_left _ (List.mem_filter.mpr ⟨he, by simpa using hm⟩)
      | step ha hD he ih =>
        rename_i p i e s'
        rw [move_append p ha.ne_nil]
        refine .step ih (s := s') ?_ he
        unfold addSub
        rw [if_neg (hfresh p i ha)]
        exact hD
    · exact hX

/-- The net of the old hierarchy in the new one. -/
def moveNet (ports : List String) (l : List Inst) (child : String) (els : List String) (x : Node) : Node :=
  if x.1 = [] then
    if x.2 ∉ childPins ports l els ∧ ∃ e ∈ l, e.name ∈ els ∧ x.2 ∈ netsOf e then (["X_" ++ child], x.2) else x
  else (move child els x.1, x.2)

/-- The net is in the top circuit or in an instance. -/
def Valid (D : Lib) (l : List Inst) (x : Node) : Prop := x.1 = [] ∨ ∃ e, At D l x.1 e

theorem Port.valid {x y : Node} (h : Port D l x y) : Valid D l x ∧ Valid D l y := by
  obtain ⟨h1, h2, h3⟩ := h
  rename_i q i s' f n
  refine ⟨Or.inr ⟨_, h1⟩, ?_⟩
  simp only [Valid]
  generalize hp : q ++ [i.name] = p at h1
  cases h1 with
  | top =>
    left
    have := congrArg List.length hp
    simp only [List.length_append, List.length_cons, List.length_nil] at this
    exact List.length_eq_zero_iff.mp (by omega)
  | step g1 =>
    right
    obtain ⟨rfl, _⟩ := List.append_inj' hp rfl
    exact ⟨_, g1⟩

theorem exists_root_of (x : Node) (hv : Valid D l x) : ∃ y, Connected D l x y ∧ Root D l y ∧ Valid D l y := by
  have : ∀ k, ∀ x : Node, x.1.length = k → Valid D l x → ∃ y, Connected D l x y ∧ Root D l y ∧ Valid D l y := by
    intro k
    induction k with
    | zero =>
      intro x hk hv
      refine ⟨x, Relation.EqvGen.refl _, ?_, hv⟩
      intro z hz
      have := hz.length
      omega
    | succ k ih =>
      intro x hk hv
      by_cases hr : Root D l x
      · exact ⟨x, Relation.EqvGen.refl _, hr, hv⟩
      · unfold Root at hr
        push Not at hr
        obtain ⟨z, hz⟩ := hr
        have hl := hz.length
        obtain ⟨y, h1, h2, h3⟩ := ih z (by omega) hz.valid.2
        exact ⟨y, (Relation.EqvGen.rel _ _ hz).trans _ _ _ h1, h2, h3⟩
  exact this _ x rfl hv

/-- A pin of the new instance is connected to the net outside. -/
theorem port_new (hw : WellFormed D l) (h : createHier D ports l child els = some (s, r)) {n : String}
    (hn : n ∈ childPins ports l els) : Port (addSub D child s) r (["X_" ++ child], n) ([], n) := by
  obtain ⟨_, h2, _⟩ := createHier_eq hw.names h
  have : (⟨"X_" ++ child, child, (childPins ports l els).map fun n => (n, n)⟩ : Inst) ∈ r := by
    rw [h2]; exact List.mem_append_right _ List.mem_cons_self
  exact .mk (q := []) (.top this) (s := s) (by simp [addSub]) (List.mem_map.mpr ⟨n, hn, rfl⟩)

/-- Where the net of a terminal is after grouping. -/
theorem terminal_net (hw : WellFormed D l) (h : createHier D ports l child els = some (s, r)) {q q' : List String}
    {e : Inst} {pin n : String} (he : At D l (q ++ [e.name]) e) (hn : (pin, n) ∈ e.pins)
    (hq : move child els (q ++ [e.name]) = q' ++ [e.name]) :
    Connected (addSub D child s) r (q', n) (moveNet ports l child els (q, n)) := by
  unfold moveNet
  by_cases hqn : q = []
  · subst hqn
    simp only [if_true]
    simp only [List.nil_append] at he hq
    have hel : e ∈ l := by
      generalize hp : [e.name] = p at he
      cases he with
      | top he => exact he
      | step g1 =>
        exfalso
        have := congrArg List.length hp
        simp only [List.length_append, List.length_cons, List.length_nil] at this
        exact g1.ne_nil (List.length_eq_zero_iff.mp (by omega))
    have hnet : n ∈ netsOf e := List.mem_map.mpr ⟨_, hn, rfl⟩
    simp only [move_cons] at hq
    by_cases hm : e.name ∈ els
    · rw [if_pos hm] at hq
      have hq' : q' = ["X_" ++ child] := by
        have : ["X_" ++ child] ++ [e.name] = q' ++ [e.name] := hq
        exact (List.append_inj' this rfl).1.symm
      subst hq'
      by_cases hc : n ∈ childPins ports l els
      · rw [if_neg (fun h => h.1 hc)]
        exact Relation.EqvGen.rel _ _ (port_new hw h hc)
      · rw [if_pos ⟨hc, e, hel, hm, hnet⟩]
        exact Relation.EqvGen.refl _
    · rw [if_neg hm] at hq
      have hq' : q' = [] := by
        have : [] ++ [e.name] = q' ++ [e.name] := hq
        exact (List.append_inj' this rfl).1.symm
      subst hq'
      rw [if_neg]
      · exact Relation.EqvGen.refl _
      · rintro ⟨g1, g2⟩
        exact g1 ((mem_childPins hw.names).mpr ⟨g2, Or.inr ⟨e, hel, hm, hnet⟩⟩)
  · simp only [hqn, if_false]
    rw [move_append q hqn] at hq
    rw [(List.append_inj' hq rfl).1]
    exact Relation.EqvGen.refl _

theorem moveNet_port (hw : WellFormed D l) (hx : ∀ e ∈ l, e.name ≠ "X_" ++ child)
    (hfresh : ∀ p e, At D l p e → e.model ≠ child) (h : createHier D ports l child els = some (s, r))
    {x y : Node} (hp : Port D l x y) :
    Connected (addSub D child s) r (moveNet ports l child els x) (moveNet ports l child els y) := by
  obtain ⟨h1, h2, h3⟩ := hp
  rename_i q i s' f n
  have hocc := (C47_occurrences hw hx hfresh h (move child els (q ++ [i.name])) i).mpr (Or.inl ⟨_, h1, rfl⟩)
  obtain ⟨q', hq'⟩ := hocc.last
  have hD : addSub D child s i.model = some s' := by
    unfold addSub
    rw [if_neg (hfresh _ i h1)]
    exact h2
  have e1 : moveNet ports l child els (q ++ [i.name], f) = (q' ++ [i.name], f) := by
    unfold moveNet
    rw [if_neg (by simp)]
    rw [hq']
  rw [e1]
  have hport : Port (addSub D child s) r (q' ++ [i.name], f) (q', n) := .mk (hq' ▸ hocc) hD h3
  exact (Relation.EqvGen.rel _ _ hport).trans _ _ _ (terminal_net hw h h1 h3 hq')

theorem moveNet_connected (hw : WellFormed D l) (hx : ∀ e ∈ l, e.name ≠ "X_" ++ child)
    (hfresh : ∀ p e, At D l p e → e.model ≠ child) (h : createHier D ports l child els = some (s, r))
    {x y : Node} (hc : Connected D l x y) :
    Connected (addSub D child s) r (moveNet ports l child els x) (moveNet ports l child els y) := by
  unfold Connected at hc
  induction hc with
  | rel _ _ hp => exact moveNet_port hw hx hfresh h hp
  | refl => exact Relation.EqvGen.refl _
  | symm _ _ _ ih => exact Relation.EqvGen.symm _ _ ih
  | trans _ _ _ _ _ ih1 ih2 => exact ih1.trans _ _ _ ih2

theorem moveNet_inj (hx : ∀ e ∈ l, e.name ≠ "X_" ++ child) {x y : Node} (hvx : Valid D l x) (hvy : Valid D l y)
    (h : moveNet ports l child els x = moveNet ports l child els y) : x = y := by
  -- the path of a net in an instance is not that of a net of the top
  have hne : ∀ {p : List String} {e : Inst}, At D l p e → move child els p ≠ [] ∧ move child els p ≠ ["X_" ++ child] := by
    intro p e hp
    refine ⟨move_ne_nil hp.ne_nil, ?_⟩
    obtain ⟨a, q, rfl, z, hz, rfl⟩ := hp.head
    rw [move_cons]
    split
    · simp
    · intro he
      exact hx z hz (List.cons.inj he).1
  obtain ⟨xp, xn⟩ := x
  obtain ⟨yp, yn⟩ := y
  unfold moveNet at h
  simp only at h
  have h2 : xn = yn := by
    have := congrArg Prod.snd h
    split at this <;> split at this <;> (try split at this) <;> (try split at this) <;> exact this
  subst h2
  rcases hvx with hvx | ⟨e, hvx⟩ <;> rcases hvy with hvy | ⟨e', hvy⟩
  · simp only at hvx hvy; rw [hvx, hvy]
  · exfalso
    simp only at hvx hvy
    subst hvx
    rw [if_pos rfl, if_neg hvy.ne_nil] at h
    split at h
    · exact (hne hvy).2 (Prod.mk.inj h).1.symm
    · exact (hne hvy).1 (Prod.mk.inj h).1.symm
  · exfalso
    simp only at hvx hvy
    subst hvy
    rw [if_pos rfl, if_neg hvx.ne_nil] at h
    split at h
    · exact (hne hvx).2 (Prod.mk.inj h).1
    · exact (hne hvx).1 (Prod.mk.inj h).1
  · simp only at hvx hvy
    rw [if_neg hvx.ne_nil, if_neg hvy.ne_nil] at h
    rw [move_inj hx hvx hvy (Prod.mk.inj h).1]

theorem moveNet_root (hw : WellFormed D l) (hels : els.Nodup) (hx : ∀ e ∈ l, e.name ≠ "X_" ++ child)
    (hfresh : ∀ p e, At D l p e → e.model ≠ child) (h : createHier D ports l child els = some (s, r))
    {x : Node} (hv : Valid D l x) (hr : Root D l x) : Root (addSub D child s) r (moveNet ports l child els x) := by
  obtain ⟨xp, n⟩ := x
  intro y hy
  generalize hz : moveNet ports l child els (xp, n) = z at hy
  obtain ⟨g1, g2, g3⟩ := hy
  rename_i q i s' f m
  rcases (C47_occurrences hw hx hfresh h _ i).mp g1 with ⟨p, hp, hpe⟩ | ⟨hpe, rfl⟩
  · -- an old instance
    have hne : move child els p ≠ ["X_" ++ child] := by
      obtain ⟨a, q, rfl, z, hz, rfl⟩ := hp.head
      rw [move_cons]
      split
      · simp
      · intro he
        exact hx z hz (List.cons.inj he).1
    unfold moveNet at hz
    simp only at hz
    rcases hv with hv | ⟨e, hv⟩
    · simp only at hv
      subst hv
      rw [if_pos rfl] at hz
      split at hz
      · exact hne (by rw [← hpe, ← (Prod.mk.inj hz).1])
      · have := (Prod.mk.inj hz).1
        simp at this
    · simp only at hv
      rw [if_neg hv.ne_nil] at hz
      obtain ⟨a1, a2⟩ := Prod.mk.inj hz
      rw [hpe] at a1
      have := move_inj hx hv hp a1
      subst this a2
      have hi := At.unique hw hv hp
      subst hi
      obtain ⟨q0, hq0⟩ := hv.last
      have hD : D e.model = some s' := by
        unfold addSub at g2
        rw [if_neg (hfresh _ _ hv)] at g2
        exact g2
      apply hr (q0, m)
      rw [hq0]
      exact .mk (hq0 ▸ hv) hD g3
  · -- the new instance
    simp only [List.mem_map] at g3
    obtain ⟨k, hk, hkk⟩ := g3
    obtain ⟨rfl, rfl⟩ := Prod.mk.inj hkk
    unfold moveNet at hz
    simp only at hz
    rcases hv with hv | ⟨e, hv⟩
    · simp only at hv
      subst hv
      rw [if_pos rfl] at hz
      split at hz
      · rename_i hc
        exact hc.1 ((Prod.mk.inj hz).2 ▸ hk)
      · have := (Prod.mk.inj hz).1
        simp at this
    · simp only at hv
      rw [if_neg hv.ne_nil] at hz
      have a1 := (Prod.mk.inj hz).1
      rw [hpe] at a1
      obtain ⟨a, q, rfl, z, hz', rfl⟩ := hv.head
      simp only [move_cons] at a1
      split at a1
      · simp at a1
      · exact hx z hz' (List.cons.inj a1).1

theorem moveNet_iff (hw : WellFormed D l) (hels : els.Nodup) (hx : ∀ e ∈ l, e.name ≠ "X_" ++ child)
    (hfresh : ∀ p e, At D l p e → e.model ≠ child) (h : createHier D ports l child els = some (s, r))
    {x y : Node} (hvx : Valid D l x) (hvy : Valid D l y) :
    Connected (addSub D child s) r (moveNet ports l child els x) (moveNet ports l child els y) ↔ Connected D l x y := by
  refine ⟨fun hc => ?_, moveNet_connected hw hx hfresh h⟩
  obtain ⟨x', a1, a2, a3⟩ := exists_root_of x hvx
  obtain ⟨y', b1, b2, b3⟩ := exists_root_of y hvy
  have hc' : Connected (addSub D child s) r (moveNet ports l child els x') (moveNet ports l child els y') :=
    (Relation.EqvGen.symm _ _ (moveNet_connected hw hx hfresh h a1)).trans _ _ _
      (hc.trans _ _ _ (moveNet_connected hw hx hfresh h b1))
  have := root_unique (wellFormed_new hw hels hx h) (moveNet_root hw hels hx hfresh h a3 a2)
    (moveNet_root hw hels hx hfresh h b3 b2) hc'
  have := moveNet_inj hx a3 b3 this
  subst this
  exact a1.trans _ _ _ (Relation.EqvGen.symm _ _ b1)

/-- **C47, connectivity.**  Two terminals of instances anywhere in the hierarchy are connected after grouping exactly when
they were before, and a terminal is connected to a port of the parent exactly when it was. -/
theorem C47_connectivity (hw : WellFormed D l) (hels : els.Nodup) (hx : ∀ e ∈ l, e.name ≠ "X_" ++ child)
    (hfresh : ∀ p e, At D l p e → e.model ≠ child) (h : createHier D ports l child els = some (s, r))
    {q q' : List String} {e : Inst} {pin n : String} (he : At D l (q ++ [e.name]) e) (hn : (pin, n) ∈ e.pins)
    (hq : move child els (q ++ [e.name]) = q' ++ [e.name]) :
    (∀ {u u' : List String} {d : Inst} {pin' m : String}, At D l (u ++ [d.name]) d → (pin', m) ∈ d.pins →
      move child els (u ++ [d.name]) = u' ++ [d.name] →
      (Connected (addSub D child s) r (q', n) (u', m) ↔ Connected D l (q, n) (u, m))) ∧
    ∀ port ∈ ports, (Connected (addSub D child s) r (q', n) ([], port) ↔ Connected D l (q, n) ([], port)) := by
  have valid : ∀ {q : List String} {e : Inst}, At D l (q ++ [e.name]) e → ∀ n, Valid D l (q, n) := by
    intro q e he n
    simp only [Valid]
    generalize hp : q ++ [e.name] = p at he
    cases he with
    | top =>
      left
      have := congrArg List.length hp
      simp only [List.length_append, List.length_cons, List.length_nil] at this
      exact List.length_eq_zero_iff.mp (by omega)
    | step g1 =>
      right
      obtain ⟨rfl, _⟩ := List.append_inj' hp rfl
      exact ⟨_, g1⟩
  have t1 := terminal_net hw h he hn hq
  constructor
  · intro u u' d pin' m hd hm hu
    have t2 := terminal_net hw h hd hm hu
    rw [← moveNet_iff hw hels hx hfresh h (valid he n) (valid hd m)]
    constructor
    · intro hc
      exact (Relation.EqvGen.symm _ _ t1).trans _ _ _ (hc.trans _ _ _ t2)
    · intro hc
      exact t1.trans _ _ _ (hc.trans _ _ _ (Relation.EqvGen.symm _ _ t2))
  · intro port hport
    rw [← moveNet_iff hw hels hx hfresh h (valid he n) (Or.inl rfl : Valid D l ([], port))]
    have e1 : moveNet ports l child els ([], port) = ([], port) := by
      unfold moveNet
      rw [if_pos rfl, if_neg]
      rintro ⟨g1, g2⟩
      exact g1 ((mem_childPins hw.names).mpr ⟨g2, Or.inl hport⟩)
    rw [e1]
    constructor
    · intro hc
      exact (Relation.EqvGen.symm _ _ t1).trans _ _ _ hc
    · intro hc
      exact t1.trans _ _ _ hc

/-- **C47, success.**  Grouping succeeds for distinct names if the name of the subcircuit is new and it has a pin. -/
theorem C47_exists (hw : WellFormed D l) (hels : els.Nodup) (hD : D child = none)
    (hpin : ∃ n, (∃ e ∈ l, e.name ∈ els ∧ n ∈ netsOf e) ∧ (n ∈ ports ∨ ∃ e ∈ l, e.name ∉ els ∧ n ∈ netsOf e)) :
    (createHier D ports l child els).isSome := by
  unfold createHier
  simp only
  obtain ⟨n, hn⟩ := hpin
  rw [if_neg, if_neg (by simp [hD]), Option.isSome_map]
  · apply foldlM_remove_isSome (List.Nodup.of_map _ hw.names)
    · apply List.Nodup.of_map Inst.name
      rw [filterMap_name]
      exact hels.filter _
    · intro x hx
      exact ((mem_moved hw.names).mp hx).1
  · intro he
    have := (mem_childPins hw.names).mpr hn
    rw [he] at this
    simp at this

end

/-! ### A non-trivial case -/

example : (createHier exLib ["VDD", "VSS"]
    [⟨"M0", "NMOS", [("D", "VDD"), ("S", "A")]⟩, ⟨"XI", "INNER", [("A", "A"), ("B", "C")]⟩,
     ⟨"M2", "NMOS", [("D", "C"), ("S", "E")]⟩, ⟨"M3", "NMOS", [("D", "E"), ("S", "VSS")]⟩] "G" ["XI", "M2"]).map
      (fun x => (x.1.elems.map Inst.name, x.2)) =
    some (["XI", "M2"], [⟨"M0", "NMOS", [("D", "VDD"), ("S", "A")]⟩, ⟨"M3", "NMOS", [("D", "E"), ("S", "VSS")]⟩,
      ⟨"X_G", "G", [("A", "A"), ("E", "E")]⟩]) := by decide +kernel

/-- A name given twice is moved twice, and the second removal fails: distinct names are needed. -/
theorem C47_needs_distinct : createHier (fun _ => none) [] [⟨"M0", "NMOS", [("D", "A")]⟩, ⟨"M1", "NMOS", [("D", "A")]⟩] "G"
    ["M0", "M0"] = none := by
  unfold createHier
  simp only
  have e1 : ["M0", "M0"].filterMap (getElement [⟨"M0", "NMOS", [("D", "A")]⟩, ⟨"M1", "NMOS", [("D", "A")]⟩]) =
    [⟨"M0", "NMOS", [("D", "A")]⟩, ⟨"M0", "NMOS", [("D", "A")]⟩] := by decide
  rw [e1]
  have e2 : [(⟨"M0", "NMOS", [("D", "A")]⟩ : Inst), ⟨"M0", "NMOS", [("D", "A")]⟩].foldlM removeOne
    [⟨"M0", "NMOS", [("D", "A")]⟩, ⟨"M1", "NMOS", [("D", "A")]⟩] = none := by decide
  rw [e2]
  simp

end Verif.Net

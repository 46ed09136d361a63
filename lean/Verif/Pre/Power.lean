import Mathlib.Data.List.Basic
import Mathlib.Logic.Relation
import Mathlib.Tactic.Tauto

/-!
# C55: power ports

Model of `CreateDatabase._get_pgc` and `_propagate_power_ports` (`align/compiler/create_database.py`, 230-290) for one of the
three kinds of constraints (`PowerPorts`, `GroundPorts`, `ClockPorts`): the three are treated alike and independently.

Constraints are objects on a heap, as a copy of a subcircuit made by `resolve_parameters` (121-127) has the constraint
objects of its original.  Simplifications: a subcircuit is the list of its instances, each with its model and its pins, in
the order of the dictionary; `fuel` bounds the depth of the hierarchy; the order of the elements of a set is a parameter
`ord`; the test of `ConstraintDB.append` for a constraint with the same text is left out, as a subcircuit without ports of
this kind has no such constraint.
-/

namespace Verif.Pre.Power

/-- A constraint of the kind (`align/schema/constraint.py`, 770-815). -/
structure Con where
  ports : List String
  prop : Bool
  deriving DecidableEq

structure Inst where
  model : String
  pins : List (String × String)
  deriving DecidableEq

abbrev Lib := List (String × List Inst)

/-- The heap of constraints, and the constraints of every subcircuit. -/
structure St where
  heap : List Con
  ids : String → List Nat

/-- `_get_pgc` (230-241). -/
def ports (st : St) (n : String) : List String := (st.ids n).flatMap fun i => (st.heap[i]?).elim [] Con.ports

/-- `list(set(pwr).difference(pwr_child))` (250). -/
def diff (ord : List String → List String) (pwr own : List String) : List String :=
  ord (pwr.filter fun p => !own.contains p)

/-- The ports used for the instances (244-251). -/
def child (ord : List String → List String) (st : St) (n : String) (pwr : List String) : List String :=
  if (ports st n).isEmpty && !pwr.isEmpty then pwr else ports st n ++ diff ord pwr (ports st n)

/-- The constraints after a subcircuit got ports from above (246-254). -/
def receive (ord : List String → List String) (st : St) (n : String) (pwr : List String) : St :=
  if (ports st n).isEmpty && !pwr.isEmpty then
    ⟨st.heap ++ [⟨pwr, true⟩], fun m => if m = n then st.ids n ++ [st.heap.length] else st.ids m⟩
  else if (ports st n).isEmpty then st
  else { st with heap := st.heap.mapIdx fun i c =>
    if (st.ids n).contains i && c.prop then { c with ports := c.ports ++ diff ord pwr (ports st n) } else c }

/-- The flag of the last constraint (276-283). -/
def lastProp (st : St) (n : String) : Bool :=
  (st.ids n).foldl (fun b i => (st.heap[i]?).elim b Con.prop) true

/-- Pins connected to these ports (287). -/
def pinsOf (i : Inst) (ch : List String) (b : Bool) : List String :=
  (i.pins.filter fun pc => ch.contains pc.2 && b).map Prod.fst

/-- The loop over the instances (284-290). -/
def loop (L : Lib) (rec : St → String → List String → Option St) (ch : List String) (b : Bool) (st : St) (l : List Inst) : Option St :=
  l.foldlM (fun st i => if (L.lookup i.model).isSome then rec st i.model (pinsOf i ch b) else some st) st

/-- `_propagate_power_ports` (243-290). -/
def visit (ord : List String → List String) (L : Lib) : Nat → St → String → List String → Option St
  | 0, _, _, _ => none
  | fuel + 1, st, n, pwr =>
    loop L (visit ord L fuel) (child ord st n pwr) (lastProp (receive ord st n pwr) n) (receive ord st n pwr) ((L.lookup n).getD [])

/-- The call for the top (38-39). -/
def start (ord : List String → List String) (L : Lib) (fuel : Nat) (st : St) (top : String) : Option St :=
  visit ord L fuel st top (ports st top)

/-! ## Specification -/

/-- The subcircuit `n` has the instance `i` of a subcircuit. -/
def Has (L : Lib) (n : String) (i : Inst) : Prop := i ∈ (L.lookup n).getD [] ∧ (L.lookup i.model).isSome

/-- `m` is used in `n`, directly or below. -/
def Below (L : Lib) : String → String → Prop := Relation.ReflTransGen fun n m => ∃ i, Has L n i ∧ i.model = m

/-- All constraints of `n` ask to be copied to subcircuits. -/
def Propagates (st : St) (n : String) : Prop := ∀ i ∈ st.ids n, ∀ c, st.heap[i]? = some c → c.prop = true

/-- The port `p` of `n` is a power port: it is declared, or an instance connects it to a power port or net of its parent
that propagates. -/
inductive Power (L : Lib) (st : St) (top : String) : String → String → Prop
  | own {n p : String} : Below L top n → p ∈ ports st n → Power L st top n p
  | step {n c p : String} {i : Inst} : Power L st top n c → Propagates st n → Has L n i → (p, c) ∈ i.pins →
      Power L st top i.model p

/-- The full statement. -/
def C55_statement (L : Lib) (st : St) (top : String) (st' : St) : Prop :=
  ∀ n, Below L top n → ∀ p, p ∈ ports st' n ↔ Power L st top n p

/-- No constraint is shared, constraints of a subcircuit have the same flag and ports. -/
structure Plain (st : St) : Prop where
  apart : ∀ n m i, i ∈ st.ids n → i ∈ st.ids m → n = m
  there : ∀ n, ∀ i ∈ st.ids n, ∃ c, st.heap[i]? = some c ∧ c.ports ≠ []
  same : ∀ n, ∀ i ∈ st.ids n, ∀ c, st.heap[i]? = some c → ∀ j ∈ st.ids n, ∀ d, st.heap[j]? = some d → c.prop = d.prop

/-! ## Lemmas -/

variable {ord : List String → List String} {L : Lib} {st st' : St} {n : String} {pwr : List String}

theorem mem_ports {p : String} : p ∈ ports st n ↔ ∃ i ∈ st.ids n, ∃ c, st.heap[i]? = some c ∧ p ∈ c.ports := by
  unfold ports
  rw [List.mem_flatMap]
  constructor
  · rintro ⟨i, hi, hp⟩
    cases hc : st.heap[i]? with
    | none => rw [hc] at hp; cases hp
    | some c => rw [hc] at hp; exact ⟨i, hi, c, hc, hp⟩
  · rintro ⟨i, hi, c, hc, hp⟩
    exact ⟨i, hi, by rw [hc]; exact hp⟩

theorem ports_empty (h : Plain st) (he : ports st n = []) : st.ids n = [] := by
  cases hi : st.ids n with
  | nil => rfl
  | cons i l =>
    exfalso
    obtain ⟨c, hc, hp⟩ := h.there n i (by rw [hi]; exact List.mem_cons_self)
    obtain ⟨p, ps, hpp⟩ := List.exists_cons_of_ne_nil hp
    have : p ∈ ports st n := mem_ports.mpr ⟨i, by rw [hi]; exact List.mem_cons_self, c, hc, by rw [hpp]; exact List.mem_cons_self⟩
    rw [he] at this
    cases this

theorem ids_lt (h : Plain st) {i : Nat} (hi : i ∈ st.ids n) : i < st.heap.length := by
  obtain ⟨c, hc, _⟩ := h.there n i hi
  by_contra hlt
  rw [List.getElem?_eq_none (by omega)] at hc
  cases hc

theorem mem_diff (hord : ∀ l x, x ∈ ord l ↔ x ∈ l) {own : List String} {p : String} :
    p ∈ diff ord pwr own ↔ p ∈ pwr ∧ p ∉ own := by
  unfold diff
  rw [hord, List.mem_filter]
  simp

/-- What a subcircuit has after it got ports from above. -/
theorem receive_spec (hord : ∀ l x, x ∈ ord l ↔ x ∈ l) (h : Plain st) :
    Plain (receive ord st n pwr) ∧
    (∀ m, Propagates (receive ord st n pwr) m ↔ Propagates st m) ∧
    (∀ m, m ≠ n → ports (receive ord st n pwr) m = ports st m) ∧
    (∀ p, p ∈ ports (receive ord st n pwr) n ↔ p ∈ ports st n ∨ (p ∈ pwr ∧ Propagates st n)) ∧
    (Propagates st n → ∀ p, p ∈ child ord st n pwr ↔ p ∈ ports (receive ord st n pwr) n) := by
  unfold receive child
  by_cases h1 : ((ports st n).isEmpty && !pwr.isEmpty) = true
  · rw [if_pos h1, if_pos h1]
    simp only [Bool.and_eq_true, List.isEmpty_iff, Bool.not_eq_true', List.isEmpty_eq_false_iff] at h1
    obtain ⟨he, hp⟩ := h1
    have hids := ports_empty h he
    have hlen : (st.heap ++ [(⟨pwr, true⟩ : Con)])[st.heap.length]? = some ⟨pwr, true⟩ := by simp
    have hold : ∀ m, ∀ i ∈ st.ids m, (st.heap ++ [(⟨pwr, true⟩ : Con)])[i]? = st.heap[i]? := by
      intro m i hi
      rw [List.getElem?_append_left (ids_lt h hi)]
    have hpr : Propagates st n := by intro i hi; rw [hids] at hi; cases hi
    have hn : ∀ p, p ∈ ports (⟨st.heap ++ [⟨pwr, true⟩], fun m => if m = n then st.ids n ++ [st.heap.length] else st.ids m⟩ : St) n ↔
        p ∈ pwr := by
      intro p
      rw [mem_ports]
      simp only [if_true, hids, List.nil_append, List.mem_singleton]
      constructor
      · rintro ⟨i, rfl, c, hc, hpc⟩
        rw [hlen] at hc
        simp only [Option.some.injEq] at hc
        subst hc
        exact hpc
      · intro hpc
        exact ⟨_, rfl, _, hlen, hpc⟩
    refine ⟨⟨?_, ?_, ?_⟩, ?_, ?_, ?_, ?_⟩
    · intro a b i ha hb
      simp only at ha hb
      by_cases hx : a = n
      · by_cases hy : b = n
        · rw [hx, hy]
        · rw [if_pos hx, hids] at ha
          rw [if_neg hy] at hb
          simp only [List.nil_append, List.mem_singleton] at ha
          have := ids_lt h hb
          omega
      · rw [if_neg hx] at ha
        by_cases hy : b = n
        · rw [if_pos hy, hids] at hb
          simp only [List.nil_append, List.mem_singleton] at hb
          have := ids_lt h ha
          omega
        · rw [if_neg hy] at hb
          exact h.apart a b i ha hb
    · intro m i hi
      simp only at hi ⊢
      by_cases hx : m = n
      · rw [if_pos hx, hids] at hi
        simp only [List.nil_append, List.mem_singleton] at hi
        subst hi
        exact ⟨_, hlen, hp⟩
      · rw [if_neg hx] at hi
        rw [hold m i hi]
        exact h.there m i hi
    · intro m i hi c hc j hj d hd
      simp only at hi hc hj hd
      by_cases hx : m = n
      · rw [if_pos hx, hids] at hi hj
        simp only [List.nil_append, List.mem_singleton] at hi hj
        subst hi
        subst hj
        rw [hc] at hd
        simp only [Option.some.injEq] at hd
        rw [hd]
      · rw [if_neg hx] at hi hj
        rw [hold m i hi] at hc
        rw [hold m j hj] at hd
        exact h.same m i hi c hc j hj d hd
    · intro m
      unfold Propagates
      simp only
      by_cases hx : m = n
      · subst hx
        rw [if_pos rfl, hids]
        simp only [List.nil_append, List.mem_singleton, forall_eq, hlen, Option.some.injEq]
        constructor
        · intro _ i hi; cases hi
        · rintro _ c rfl; rfl
      · rw [if_neg hx]
        constructor
        · intro g i hi c hc; exact g i hi c (by rw [hold m i hi]; exact hc)
        · intro g i hi c hc; exact g i hi c (by rw [← hold m i hi]; exact hc)
    · intro m hx
      unfold ports
      simp only
      rw [if_neg hx]
      apply List.flatMap_congr
      intro i hi
      rw [hold m i hi]
    · intro p
      rw [hn, he]
      simp only [List.not_mem_nil, false_or, hpr, and_true]
    · intro _ p
      rw [hn]
  · rw [if_neg h1, if_neg h1]
    by_cases he : (ports st n).isEmpty = true
    · rw [if_pos he]
      rw [he] at h1
      simp only [Bool.true_and, Bool.not_eq_true', Bool.not_eq_false, List.isEmpty_iff] at h1
      subst h1
      have hd : diff ord [] (ports st n) = [] := by
        apply List.eq_nil_iff_forall_not_mem.mpr
        intro x hx
        rw [mem_diff hord] at hx
        cases hx.1
      refine ⟨h, fun _ => Iff.rfl, fun _ _ => rfl, fun p => ?_, fun _ p => ?_⟩
      · simp
      · rw [hd, List.append_nil]
    · rw [if_neg he]
      generalize hD : diff ord pwr (ports st n) = D
      have hmD : ∀ p, p ∈ D ↔ p ∈ pwr ∧ p ∉ ports st n := fun p => by rw [← hD, mem_diff hord]
      -- entries of the heap
      have hget : ∀ i, (st.heap.mapIdx fun i c => if (st.ids n).contains i && c.prop then { c with ports := c.ports ++ D } else c)[i]? =
          (st.heap[i]?).map fun c => if (st.ids n).contains i && c.prop then { c with ports := c.ports ++ D } else c := by
        intro i; rw [List.getElem?_mapIdx]
      have hprop : ∀ (i : Nat) (c' : Con), (st.heap.mapIdx fun i c => if (st.ids n).contains i && c.prop then { c with ports := c.ports ++ D } else c)[i]? = some c' →
          ∃ c : Con, st.heap[i]? = some c ∧ c'.prop = c.prop ∧ (c'.ports = c.ports ∨ c'.ports = c.ports ++ D) := by
        intro i c' hc
        rw [hget, Option.map_eq_some_iff] at hc
        obtain ⟨c, hc, rfl⟩ := hc
        refine ⟨c, hc, ?_⟩
        split
        · exact ⟨rfl, Or.inr rfl⟩
        · exact ⟨rfl, Or.inl rfl⟩
      have hpropback : ∀ (i : Nat) (c : Con), st.heap[i]? = some c →
          ∃ c' : Con, (st.heap.mapIdx fun i c => if (st.ids n).contains i && c.prop then { c with ports := c.ports ++ D } else c)[i]? = some c' ∧
            c'.prop = c.prop := by
        intro i c hc
        refine ⟨_, by rw [hget, hc]; rfl, ?_⟩
        dsimp only
        split <;> rfl
      have hmem : ∀ p, p ∈ ports { st with heap := st.heap.mapIdx fun i c => if (st.ids n).contains i && c.prop then { c with ports := c.ports ++ D } else c } n ↔
          p ∈ ports st n ∨ (p ∈ pwr ∧ Propagates st n) := by
        intro p
        rw [mem_ports]
        constructor
        · rintro ⟨i, hi, c', hc', hp⟩
          simp only at hi hc'
          rw [hget, Option.map_eq_some_iff] at hc'
          obtain ⟨c, hc, rfl⟩ := hc'
          split at hp
          · rename_i hcond
            simp only [Bool.and_eq_true] at hcond
            rcases List.mem_append.mp hp with hp | hp
            · exact Or.inl (mem_ports.mpr ⟨i, hi, c, hc, hp⟩)
            · refine Or.inr ⟨((hmD p).mp hp).1, ?_⟩
              intro j hj d hd
              rw [← h.same n i hi c hc j hj d hd]
              exact hcond.2
          · exact Or.inl (mem_ports.mpr ⟨i, hi, c, hc, hp⟩)
        · intro hp
          by_cases hin : p ∈ ports st n
          · obtain ⟨i, hi, c, hc, hpc⟩ := mem_ports.mp hin
            refine ⟨i, hi, _, by simp only; rw [hget, hc]; rfl, ?_⟩
            dsimp only
            split
            · exact List.mem_append_left _ hpc
            · exact hpc
          · obtain ⟨hp1, hp2⟩ := hp.resolve_left hin
            have hne : ports st n ≠ [] := by simpa using he
            obtain ⟨q, hq⟩ := List.exists_mem_of_ne_nil _ hne
            obtain ⟨i, hi, c, hc, _⟩ := mem_ports.mp hq
            refine ⟨i, hi, _, by simp only; rw [hget, hc]; rfl, ?_⟩
            dsimp only
            rw [if_pos (by simp only [Bool.and_eq_true, List.contains_iff_mem]; exact ⟨hi, hp2 i hi c hc⟩)]
            exact List.mem_append_right _ ((hmD p).mpr ⟨hp1, hin⟩)
      refine ⟨⟨h.apart, ?_, ?_⟩, ?_, ?_, hmem, ?_⟩
      · intro m i hi
        obtain ⟨c, hc, hp⟩ := h.there m i hi
        refine ⟨_, by simp only; rw [hget, hc]; rfl, ?_⟩
        dsimp only
        split
        · simp [hp]
        · exact hp
      · intro m i hi c hc j hj d hd
        obtain ⟨c0, a1, a2, _⟩ := hprop i c hc
        obtain ⟨d0, b1, b2, _⟩ := hprop j d hd
        rw [a2, b2]
        exact h.same m i hi c0 a1 j hj d0 b1
      · intro m
        constructor
        · intro g i hi c hc
          obtain ⟨c', hc', he⟩ := hpropback i c hc
          rw [← he]
          exact g i hi c' hc'
        · intro g i hi c' hc'
          obtain ⟨c, hc, he, _⟩ := hprop i c' hc'
          rw [he]
          exact g i hi c hc
      · intro m hx
        unfold ports
        apply List.flatMap_congr
        intro i hi
        simp only
        rw [hget]
        have : (st.ids n).contains i = false := by
          rw [← Bool.not_eq_true, List.contains_iff_mem]
          intro hi'
          exact hx (h.apart m n i hi hi')
        simp only [this, Bool.false_and, Bool.false_eq_true, if_false, Option.map_id']
      · intro hpr p
        rw [hmem, List.mem_append, hmD]
        tauto

theorem lastProp_true (h : Propagates st n) : lastProp st n = true := by
  unfold lastProp
  unfold Propagates at h
  generalize st.ids n = l at h
  induction l with
  | nil => rfl
  | cons i l ih =>
    rw [List.foldl_cons]
    have : (st.heap[i]?).elim true Con.prop = true := by
      cases hc : st.heap[i]? with
      | none => rfl
      | some c => exact h i List.mem_cons_self c hc
    rw [this]
    exact ih fun j hj => h j (List.mem_cons_of_mem _ hj)

theorem lastProp_false (hp : Plain st) (h : ¬ Propagates st n) : lastProp st n = false := by
  unfold Propagates at h
  push Not at h
  obtain ⟨i, hi, c, hc, hf⟩ := h
  have hall : ∀ j ∈ st.ids n, ∃ d, st.heap[j]? = some d ∧ d.prop = false := by
    intro j hj
    obtain ⟨d, hd, _⟩ := hp.there n j hj
    refine ⟨d, hd, ?_⟩
    rw [← hp.same n i hi c hc j hj d hd]
    simpa using hf
  unfold lastProp
  generalize st.ids n = l at hi hall
  clear hp
  obtain ⟨l', j, rfl⟩ := List.eq_nil_or_concat l |>.resolve_left (List.ne_nil_of_mem hi)
  rw [List.concat_eq_append, List.foldl_append]
  obtain ⟨d, hd, hd2⟩ := hall j (by simp)
  simp [hd, hd2]

/-- Connections of `m` are respected: power ports reach its instances whose own constraints propagate. -/
def Closed (L : Lib) (f : String → Prop) (st : St) (m : String) : Prop :=
  f m → ∀ i, Has L m i → f i.model → ∀ p c, (p, c) ∈ i.pins → c ∈ ports st m → p ∈ ports st i.model

/-- What a visit does. -/
structure Visited (L : Lib) (f : String → Prop) (st st' : St) (n : String) (pwr : List String) : Prop where
  plain : Plain st'
  flags : ∀ m, Propagates st' m ↔ Propagates st m
  frame : ∀ m, ¬ Below L n m → ports st' m = ports st m
  mono : ∀ m p, p ∈ ports st m → p ∈ ports st' m
  got : f n → ∀ p ∈ pwr, p ∈ ports st' n
  closed : ∀ m, Closed L f st m ∨ Below L n m → Closed L f st' m
  sound : ∀ Q : String → String → Prop, (∀ m, Below L n m → ∀ i, Has L m i → f m → f i.model → ∀ p c, (p, c) ∈ i.pins → Q m c → Q i.model p) →
    (∀ m p, Below L n m → p ∈ ports st m → Q m p) → (f n → ∀ p ∈ pwr, Q n p) → ∀ m p, Below L n m → p ∈ ports st' m → Q m p

theorem mem_pinsOf {i : Inst} {ch : List String} {b : Bool} {p : String} :
    p ∈ pinsOf i ch b ↔ b = true ∧ ∃ c, (p, c) ∈ i.pins ∧ c ∈ ch := by
  unfold pinsOf
  simp only [List.mem_map, List.mem_filter, Bool.and_eq_true, List.contains_iff_mem, Prod.exists, exists_and_right, exists_eq_right]
  constructor
  · rintro ⟨c, h1, h2, h3⟩; exact ⟨h3, c, h1, h2⟩
  · rintro ⟨h3, c, h1, h2⟩; exact ⟨c, h1, h2, h3⟩

/-- What the loop over instances does. -/
theorem loop_spec {f : String → Prop} {rec : St → String → List String → Option St} {ch : List String} {b : Bool}
    (hrec : ∀ st st' k pw, Plain st → (∀ m, Propagates st m ↔ f m) → rec st k pw = some st' → Visited L f st st' k pw)
    {l : List Inst} (h : Plain st) (hf : ∀ m, Propagates st m ↔ f m) (hr : loop L rec ch b st l = some st') :
    Plain st' ∧ (∀ m, Propagates st' m ↔ f m) ∧
    (∀ m, (∀ i ∈ l, (L.lookup i.model).isSome → ¬ Below L i.model m) → ports st' m = ports st m) ∧
    (∀ m p, p ∈ ports st m → p ∈ ports st' m) ∧
    (∀ i ∈ l, (L.lookup i.model).isSome → f i.model → ∀ p ∈ pinsOf i ch b, p ∈ ports st' i.model) ∧
    (∀ m, (Closed L f st m ∨ ∃ i ∈ l, (L.lookup i.model).isSome ∧ Below L i.model m) → Closed L f st' m) ∧
    (∀ Q : String → String → Prop,
      (∀ m, (∃ i ∈ l, (L.lookup i.model).isSome ∧ Below L i.model m) → ∀ i, Has L m i → f m → f i.model → ∀ p c, (p, c) ∈ i.pins → Q m c → Q i.model p) →
      (∀ m p, (∃ i ∈ l, (L.lookup i.model).isSome ∧ Below L i.model m) → p ∈ ports st m → Q m p) →
      (∀ i ∈ l, (L.lookup i.model).isSome → f i.model → ∀ p ∈ pinsOf i ch b, Q i.model p) →
      ∀ m p, (∃ i ∈ l, (L.lookup i.model).isSome ∧ Below L i.model m) → p ∈ ports st' m → Q m p) := by
  unfold loop at hr
  induction l generalizing st with
  | nil =>
    simp only [List.foldlM_nil, Option.pure_def, Option.some.injEq] at hr
    subst hr
    refine ⟨h, hf, fun _ _ => rfl, fun _ _ h => h, fun i hi => by simp at hi, ?_, ?_⟩
    · rintro m (h | ⟨i, hi, _⟩)
      · exact h
      · cases hi
    · rintro Q _ _ _ m p ⟨i, hi, _⟩; cases hi
  | cons i l ih =>
    rw [List.foldlM_cons] at hr
    simp only [Option.bind_eq_bind, Option.bind_eq_some_iff] at hr
    obtain ⟨st1, h1, h2⟩ := hr
    by_cases hs : (L.lookup i.model).isSome = true
    · rw [if_pos hs] at h1
      have v := hrec st st1 _ _ h hf h1
      have hf1 : ∀ m, Propagates st1 m ↔ f m := fun m => (v.flags m).trans (hf m)
      obtain ⟨a1, a2, a3, a4, a5, a6, a7⟩ := ih v.plain hf1 h2
      refine ⟨a1, a2, ?_, fun m p hp => a4 m p (v.mono m p hp), ?_, ?_, ?_⟩
      · intro m hm
        rw [a3 m fun j hj => hm j (List.mem_cons_of_mem _ hj), v.frame m (hm i List.mem_cons_self hs)]
      · intro j hj hjs hfj p hp
        rcases List.mem_cons.mp hj with rfl | hj
        · exact a4 _ _ (v.got hfj p hp)
        · exact a5 j hj hjs hfj p hp
      · rintro m (hm | ⟨j, hj, hjs, hb⟩)
        · exact a6 m (Or.inl (v.closed m (Or.inl hm)))
        · rcases List.mem_cons.mp hj with rfl | hj
          · exact a6 m (Or.inl (v.closed m (Or.inr hb)))
          · exact a6 m (Or.inr ⟨j, hj, hjs, hb⟩)
      · intro Q q1 q2 q3
        have s1 : ∀ m p, (∃ j ∈ i :: l, (L.lookup j.model).isSome ∧ Below L j.model m) → p ∈ ports st1 m → Q m p := by
          intro m p hm hp
          by_cases hb : Below L i.model m
          · exact v.sound Q (fun m hm => q1 m ⟨i, List.mem_cons_self, hs, hm⟩) (fun m p hm => q2 m p ⟨i, List.mem_cons_self, hs, hm⟩)
              (q3 i List.mem_cons_self hs) m p hb hp
          · rw [v.frame m hb] at hp
            exact q2 m p hm hp
        intro m p hm hp
        by_cases hb : ∃ j ∈ l, (L.lookup j.model).isSome ∧ Below L j.model m
        · refine a7 Q (fun m ⟨j, hj, hr⟩ => q1 m ⟨j, List.mem_cons_of_mem _ hj, hr⟩)
            (fun m p ⟨j, hj, hr⟩ => s1 m p ⟨j, List.mem_cons_of_mem _ hj, hr⟩)
            (fun j hj => q3 j (List.mem_cons_of_mem _ hj)) m p hb hp
        · rw [a3 m fun j hj hjs hjb => hb ⟨j, hj, hjs, hjb⟩] at hp
          exact s1 m p hm hp
    · rw [if_neg hs] at h1
      simp only [Option.some.injEq] at h1
      subst h1
      obtain ⟨a1, a2, a3, a4, a5, a6, a7⟩ := ih h hf h2
      have hcons : ∀ m, (∃ j ∈ i :: l, (L.lookup j.model).isSome ∧ Below L j.model m) ↔ ∃ j ∈ l, (L.lookup j.model).isSome ∧ Below L j.model m := by
        intro m
        constructor
        · rintro ⟨j, hj, hjs, hb⟩
          rcases List.mem_cons.mp hj with rfl | hj
          · exact absurd hjs hs
          · exact ⟨j, hj, hjs, hb⟩
        · rintro ⟨j, hj, hr⟩; exact ⟨j, List.mem_cons_of_mem _ hj, hr⟩
      refine ⟨a1, a2, fun m hm => a3 m fun j hj => hm j (List.mem_cons_of_mem _ hj), a4, ?_, ?_, ?_⟩
      · intro j hj hjs
        rcases List.mem_cons.mp hj with rfl | hj
        · exact absurd hjs hs
        · exact a5 j hj hjs
      · intro m hm
        rw [hcons] at hm
        exact a6 m hm
      · intro Q q1 q2 q3 m p hm hp
        refine a7 Q (fun m hm => q1 m ((hcons m).mpr hm)) (fun m p hm => q2 m p ((hcons m).mpr hm))
          (fun j hj => q3 j (List.mem_cons_of_mem _ hj)) m p ((hcons m).mp hm) hp

theorem below_cases {m : String} (h : Below L n m) : m = n ∨ ∃ i, Has L n i ∧ Below L i.model m := by
  rcases Relation.ReflTransGen.cases_head h with h | ⟨k, ⟨i, hi, rfl⟩, h⟩
  · exact Or.inl h.symm
  · exact Or.inr ⟨i, hi, h⟩

theorem below_rank {rank : String → Nat} (hr : ∀ n i, Has L n i → rank i.model < rank n) {m : String} (h : Below L n m) :
    rank m ≤ rank n := by
  induction h with
  | refl => exact Nat.le_refl _
  | tail _ h ih =>
    obtain ⟨i, hi, rfl⟩ := h
    have := hr _ _ hi
    omega

theorem visit_spec (hord : ∀ l x, x ∈ ord l ↔ x ∈ l) {rank : String → Nat} (hrank : ∀ n i, Has L n i → rank i.model < rank n)
    {f : String → Prop} (fuel : Nat) : ∀ st st' n pwr, Plain st → (∀ m, Propagates st m ↔ f m) →
    visit ord L fuel st n pwr = some st' → Visited L f st st' n pwr := by
  induction fuel with
  | zero => intro st st' n pwr _ _ h; simp [visit] at h
  | succ fuel ih =>
    intro st st' n pwr hp hf hvis
    unfold visit at hvis
    obtain ⟨r1, r2, r3, r4, r5⟩ := receive_spec (n := n) (pwr := pwr) hord hp
    generalize receive ord st n pwr = st1 at r1 r2 r3 r4 r5 hvis
    have hf1 : ∀ m, Propagates st1 m ↔ f m := fun m => (r2 m).trans (hf m)
    obtain ⟨a1, a2, a3, a4, a5, a6, a7⟩ := loop_spec ih r1 hf1 hvis
    clear hvis
    have hnb : ∀ i, Has L n i → ¬ Below L i.model n := by
      intro i hi hb
      have := hrank n i hi
      have := below_rank hrank hb
      omega
    have hself : ports st' n = ports st1 n := a3 n fun i hi hs => hnb i ⟨hi, hs⟩
    have hmono1 : ∀ m p, p ∈ ports st m → p ∈ ports st1 m := by
      intro m p h
      by_cases hx : m = n
      · subst hx; exact (r4 p).mpr (Or.inl h)
      · rw [r3 m hx]; exact h
    have hchild : ∀ i, Has L n i → ∀ m, Below L i.model m → ∃ j ∈ (L.lookup n).getD [], (L.lookup j.model).isSome ∧ Below L j.model m :=
      fun i hi m hb => ⟨i, hi.1, hi.2, hb⟩
    refine ⟨a1, fun m => (a2 m).trans (hf m).symm, ?_, fun m p h => a4 m p (hmono1 m p h), ?_, ?_, ?_⟩
    · intro m hm
      have hx : m ≠ n := fun hx => hm (hx ▸ Relation.ReflTransGen.refl)
      rw [a3 m fun i hi hs hb => hm (Relation.ReflTransGen.head ⟨i, ⟨hi, hs⟩, rfl⟩ hb), r3 m hx]
    · intro hfn p hpp
      rw [hself]
      exact (r4 p).mpr (Or.inr ⟨hpp, (hf n).mpr hfn⟩)
    · intro m hm
      by_cases hx : m = n
      · subst hx
        intro hfm i hi hfi p c hpc hc
        rw [hself] at hc
        apply a5 i hi.1 hi.2 hfi p
        rw [mem_pinsOf]
        refine ⟨lastProp_true ((hf1 m).mpr hfm), c, hpc, ?_⟩
        rw [r5 ((hf m).mpr hfm)]
        exact hc
      · by_cases hb : Below L n m
        · rcases below_cases hb with rfl | ⟨i, hi, hb⟩
          · exact absurd rfl hx
          · exact a6 m (Or.inr (hchild i hi m hb))
        · apply a6 m
          left
          have hc := hm.resolve_right hb
          intro hfm i hi hfi p c hpc hcm
          rw [r3 m hx] at hcm
          exact hmono1 _ _ (hc hfm i hi hfi p c hpc hcm)
    · intro Q q1 q2 q3
      have s1 : ∀ m p, Below L n m → p ∈ ports st1 m → Q m p := by
        intro m p hb h
        by_cases hx : m = n
        · subst hx
          rcases (r4 p).mp h with h | ⟨h, h'⟩
          · exact q2 m p hb h
          · exact q3 ((hf m).mp h') p h
        · rw [r3 m hx] at h
          exact q2 m p hb h
      have hin : ∀ m, (∃ i ∈ (L.lookup n).getD [], (L.lookup i.model).isSome ∧ Below L i.model m) → Below L n m := by
        rintro m ⟨i, hi, hs, hb⟩
        exact Relation.ReflTransGen.head ⟨i, ⟨hi, hs⟩, rfl⟩ hb
      intro m p hb h
      rcases below_cases hb with rfl | ⟨i, hi, hb'⟩
      · rw [hself] at h
        exact s1 m p hb h
      · refine a7 Q (fun m hm => q1 m (hin m hm)) (fun m p hm => s1 m p (hin m hm)) ?_ m p (hchild i hi m hb') h
        intro j hj hjs hfj p hp
        rw [mem_pinsOf] at hp
        obtain ⟨hl, c, hpc, hc⟩ := hp
        have hfn : Propagates st1 n := by
          by_contra hno
          rw [lastProp_false r1 hno] at hl
          cases hl
        have hfn' := (hf1 n).mp hfn
        rw [r5 ((hf n).mpr hfn')] at hc
        exact q1 n Relation.ReflTransGen.refl j ⟨hj, hjs⟩ hfn' hfj p c hpc (s1 n c Relation.ReflTransGen.refl hc)

/-! ## C55 -/

/-- **C55, partial.**  If no constraint object is shared, constraints of a subcircuit have the same flag, and those below the
top propagate, then the declared ports are exactly the power ports of the design, however often and in whatever order a
subcircuit is used; subcircuits that are not used are not changed.
Missing: see `C55_violated_own`, `C55_violated_mixed` and `C55_violated_shared`. -/
theorem C55_exact_partial (hord : ∀ l x, x ∈ ord l ↔ x ∈ l) {rank : String → Nat} (hrank : ∀ n i, Has L n i → rank i.model < rank n)
    {top : String} (hp : Plain st) (hbelow : ∀ n i, Below L top n → Has L n i → Propagates st i.model) {fuel : Nat}
    (h : start ord L fuel st top = some st') :
    C55_statement L st top st' ∧ ∀ n, ¬ Below L top n → ports st' n = ports st n := by
  have v := visit_spec hord hrank (f := Propagates st) fuel st st' top _ hp (fun _ => Iff.rfl) h
  refine ⟨?_, v.frame⟩
  intro n hn p
  constructor
  · intro hpn
    refine v.sound (fun n p => Below L top n → Power L st top n p) ?_ (fun m p hb hm _ => Power.own hb hm)
      (fun _ p hp hb => Power.own hb hp) n p hn hpn hn
    intro m hm i hi hfm _ p c hpc hq _
    exact Power.step (hq hm) hfm hi hpc
  · intro hpow
    suffices key : Below L top n ∧ p ∈ ports st' n from key.2
    clear hn
    induction hpow with
    | own hb hp => exact ⟨hb, v.mono _ _ hp⟩
    | @step n c p i _ hpn hi hpc ih =>
      exact ⟨ih.1.tail ⟨i, hi, rfl⟩, v.closed n (Or.inr ih.1) hpn i hi (hbelow n i ih.1 hi) p c hpc ih.2⟩

/-- The reading of ports ends for every hierarchy without cycles. -/
theorem C55_exists {rank : String → Nat} (hrank : ∀ n i, Has L n i → rank i.model < rank n) {fuel : Nat} {top : String}
    (hfuel : rank top < fuel) : ∃ st', start ord L fuel st top = some st' := by
  unfold start
  generalize ports st top = pw
  induction fuel generalizing st top pw with
  | zero => omega
  | succ fuel ih =>
    unfold visit loop
    generalize child ord st top pw = ch
    generalize lastProp (receive ord st top pw) top = b
    generalize receive ord st top pw = s
    have : ∀ l : List Inst, (∀ i ∈ l, i ∈ (L.lookup top).getD []) → ∀ s : St, ∃ s', l.foldlM (fun st i => if (L.lookup i.model).isSome then
        visit ord L fuel st i.model (pinsOf i ch b) else some st) s = some s' := by
      intro l
      induction l with
      | nil => intro _ s; exact ⟨s, rfl⟩
      | cons i l ihl =>
        intro hl s
        have : ∃ s1, (if (L.lookup i.model).isSome then visit ord L fuel s i.model (pinsOf i ch b) else some s) = some s1 := by
          split
          · rename_i hs
            have := hrank top i ⟨hl i List.mem_cons_self, hs⟩
            exact ih (by omega) _
          · exact ⟨s, rfl⟩
        obtain ⟨s1, h1⟩ := this
        rw [List.foldlM_cons, h1]
        exact ihl (fun j hj => hl j (List.mem_cons_of_mem _ hj)) s1
    exact this _ (fun _ h => h) s

/-! ### A non-trivial case -/

/-- `B` is used twice, by `A` and by the top; the top declares `VDD`, and `B` declares `Q`. -/
def exLib : Lib :=
  [("T", [⟨"A", [("P", "VDD"), ("S", "x")]⟩, ⟨"B", [("P", "x"), ("Q", "y"), ("R", "VDD")]⟩]),
   ("A", [⟨"B", [("P", "P"), ("Q", "S"), ("R", "n")]⟩, ⟨"N", [("D", "P")]⟩]),
   ("B", [⟨"C", [("U", "P"), ("V", "R")]⟩]), ("C", []), ("Z", [])]

def exSt : St := ⟨[⟨["VDD"], true⟩, ⟨["Q"], true⟩, ⟨["W"], false⟩], fun n => if n = "T" then [0] else if n = "B" then [1] else if n = "Z" then [2] else []⟩

example : (start id exLib 4 exSt "T").map (fun st => ["T", "A", "B", "C", "Z"].map (ports st)) =
    some [["VDD"], ["P"], ["Q", "P", "R"], ["U", "V"], ["W"]] := by decide +kernel

theorem ex_rank : ∀ n i, Has exLib n i →
    (fun n : String => if n = "T" then 3 else if n = "A" then 2 else if n = "B" then 1 else 0) i.model <
    (fun n : String => if n = "T" then 3 else if n = "A" then 2 else if n = "B" then 1 else 0) n := by
  intro n i ⟨h1, h2⟩
  have hn : n ∈ exLib.map Prod.fst := by
    by_contra hno
    have : exLib.lookup n = none := by
      rw [List.lookup_eq_none_iff]
      intro e he
      have : n ≠ e.1 := fun hx => hno (List.mem_map.mpr ⟨e, he, hx.symm⟩)
      simpa using this
    rw [this] at h1
    cases h1
  revert i
  revert n
  decide +kernel

theorem ex_plain : Plain exSt := by
  have hids : ∀ n, ∀ i ∈ exSt.ids n, (n = "T" ∧ i = 0) ∨ (n = "B" ∧ i = 1) ∨ (n = "Z" ∧ i = 2) := by
    intro n i hi
    unfold exSt at hi
    simp only at hi
    split at hi
    · left; simp_all
    · split at hi
      · right; left; simp_all
      · split at hi
        · right; right; simp_all
        · cases hi
  refine ⟨?_, ?_, ?_⟩
  · intro n m i hn hm
    rcases hids n i hn with ⟨rfl, rfl⟩ | ⟨rfl, rfl⟩ | ⟨rfl, rfl⟩ <;>
      rcases hids m _ hm with ⟨rfl, h⟩ | ⟨rfl, h⟩ | ⟨rfl, h⟩ <;> first | rfl | cases h
  · intro n i hn
    rcases hids n i hn with ⟨rfl, rfl⟩ | ⟨rfl, rfl⟩ | ⟨rfl, rfl⟩ <;> exact ⟨_, rfl, by decide⟩
  · intro n i hn c hc j hj d hd
    have : i = j := by
      rcases hids n i hn with ⟨rfl, rfl⟩ | ⟨rfl, rfl⟩ | ⟨rfl, rfl⟩ <;>
        rcases hids _ _ hj with ⟨h, rfl⟩ | ⟨h, rfl⟩ | ⟨h, rfl⟩ <;> first | rfl | (exact absurd h (by decide))
    subst this
    rw [hc] at hd
    simp only [Option.some.injEq] at hd
    rw [hd]

theorem ex_below : ∀ n i, Below exLib "T" n → Has exLib n i → Propagates exSt i.model := by
  intro n i _ ⟨h1, h2⟩
  have hn : n ∈ exLib.map Prod.fst := by
    by_contra hno
    have : exLib.lookup n = none := by
      rw [List.lookup_eq_none_iff]
      intro e he
      have : n ≠ e.1 := fun hx => hno (List.mem_map.mpr ⟨e, he, hx.symm⟩)
      simpa using this
    rw [this] at h1
    cases h1
  have key : ∀ n ∈ exLib.map Prod.fst, ∀ i ∈ (exLib.lookup n).getD [], ∀ j ∈ exSt.ids i.model, ((exSt.heap[j]?).map Con.prop) = some true := by
    decide +kernel
  intro j hj c hc
  have := key n hn i h1 j hj
  rw [hc] at this
  simpa using this

example : ∃ st', start id exLib 4 exSt "T" = some st' ∧ C55_statement exLib exSt "T" st' := by
  obtain ⟨st', h⟩ := C55_exists (ord := id) (L := exLib) (st := exSt) (fuel := 4) (top := "T")
    (rank := fun n : String => if n = "T" then 3 else if n = "A" then 2 else if n = "B" then 1 else 0) ex_rank (by decide)
  exact ⟨st', h, (C55_exact_partial (fun _ _ => Iff.rfl)
    (rank := fun n : String => if n = "T" then 3 else if n = "A" then 2 else if n = "B" then 1 else 0) ex_rank ex_plain ex_below h).1⟩

/-! ### Violations -/

/-- The ports of one subcircuit in the result. -/
def portsAfter (L : Lib) (st : St) (n : String) : Option (List String) := (start id L 4 st "T").map fun st => ports st n

theorem not_statement {L : Lib} {st : St} {n p : String} {ps : List String} (h : portsAfter L st n = some ps) (hb : Below L "T" n)
    (hno : p ∉ ps) (hp : Power L st "T" n p) : ∃ st', start id L 4 st "T" = some st' ∧ ¬ C55_statement L st "T" st' := by
  unfold portsAfter at h
  rw [Option.map_eq_some_iff] at h
  obtain ⟨st', h1, h2⟩ := h
  refine ⟨st', h1, fun hs => hno ?_⟩
  rw [← h2]
  exact (hs n hb p).mpr hp

/-- **C55 is violated.**  The top declares `VDD` and connects it to `P` of `A`; `A` declares `Q` and asks not to copy this to its
subcircuits.  `P` is not declared. -/
theorem C55_violated_own : ∃ (L : Lib) (st st' : St), start id L 4 st "T" = some st' ∧ ¬ C55_statement L st "T" st' := by
  have hb : Has [("T", [⟨"A", [("P", "VDD"), ("Q", "x")]⟩]), ("A", [])] "T" ⟨"A", [("P", "VDD"), ("Q", "x")]⟩ :=
    ⟨by decide +kernel, by decide +kernel⟩
  obtain ⟨st', h1, h2⟩ := not_statement (L := [("T", [⟨"A", [("P", "VDD"), ("Q", "x")]⟩]), ("A", [])])
    (st := ⟨[⟨["VDD"], true⟩, ⟨["Q"], false⟩], fun n => if n = "T" then [0] else if n = "A" then [1] else []⟩)
    (n := "A") (p := "P") (ps := ["Q"]) (by decide +kernel)
    (Relation.ReflTransGen.single ⟨_, hb, rfl⟩) (by decide)
    (Power.step (c := "VDD") (Power.own Relation.ReflTransGen.refl (by decide +kernel)) (by
      intro i hi c hc
      simp only [if_true, List.mem_singleton] at hi
      subst hi
      simp only [List.getElem?_cons_zero, Option.some.injEq] at hc
      subst hc
      rfl) hb (by simp))
  exact ⟨_, _, st', h1, h2⟩

/-- The full statement where only the constraint that declares the net has to propagate: a port is declared when an instance
connects it to a net of a propagating constraint of its parent. -/
def Passed (L : Lib) (st st' : St) (top : String) : Prop :=
  ∀ n i, Below L top n → Has L n i → ∀ j ∈ st.ids n, ∀ d, st.heap[j]? = some d → d.prop = true →
    ∀ p c, (p, c) ∈ i.pins → c ∈ d.ports → p ∈ ports st' i.model

/-- **C55 is violated.**  The top declares `VDD` with a constraint that propagates and `VCC` with one that does not.  The flag of
the last constraint is used for both, and `VDD` is not passed on. -/
theorem C55_violated_mixed : ∃ (L : Lib) (st st' : St), start id L 4 st "T" = some st' ∧ ¬ Passed L st st' "T" := by
  have h : portsAfter [("T", [⟨"A", [("P", "VDD"), ("Q", "VCC")]⟩]), ("A", [])]
      ⟨[⟨["VDD"], true⟩, ⟨["VCC"], false⟩], fun n => if n = "T" then [0, 1] else []⟩ "A" = some [] := by decide +kernel
  unfold portsAfter at h
  rw [Option.map_eq_some_iff] at h
  obtain ⟨st', h1, h2⟩ := h
  refine ⟨_, _, st', h1, fun hs => ?_⟩
  have := hs "T" ⟨"A", [("P", "VDD"), ("Q", "VCC")]⟩ Relation.ReflTransGen.refl ⟨by decide +kernel, by decide +kernel⟩ 0 (by simp)
    ⟨["VDD"], true⟩ (by simp) rfl "P" "VDD" (by simp) (by simp)
  rw [h2] at this
  cases this

theorem has_key {i : Inst} (h : Has L n i) : n ∈ L.map Prod.fst := by
  by_contra hno
  have : L.lookup n = none := by
    rw [List.lookup_eq_none_iff]
    intro e he
    have : n ≠ e.1 := fun hx => hno (List.mem_map.mpr ⟨e, he, hx.symm⟩)
    simpa using this
  have h1 := h.1
  rw [this] at h1
  cases h1

/-- `A` and its copy `A_1` have one constraint object. -/
def shLib : Lib := [("T", [⟨"A", [("P", "VDD"), ("Q", "x")]⟩, ⟨"A_1", [("P", "y"), ("Q", "x")]⟩]), ("A", []), ("A_1", [])]

def shSt : St :=
  ⟨[⟨["VDD"], true⟩, ⟨["Q"], true⟩], fun n => if n = "T" then [0] else if n = "A" then [1] else if n = "A_1" then [1] else []⟩

theorem sh_has {n : String} {i : Inst} (h : Has shLib n i) :
    n = "T" ∧ i ∈ ([⟨"A", [("P", "VDD"), ("Q", "x")]⟩, ⟨"A_1", [("P", "y"), ("Q", "x")]⟩] : List Inst) := by
  have hk := has_key h
  have h1 := h.1
  clear h
  revert h1
  revert i
  revert n
  decide +kernel

theorem sh_power {n p : String} (h : Power shLib shSt "T" n p) :
    (n, p) ∈ [("T", "VDD"), ("A", "Q"), ("A", "P"), ("A_1", "Q")] := by
  induction h with
  | @own n p hb hp =>
    have hk : n = "T" ∨ n = "A" ∨ n = "A_1" := by
      rcases Relation.ReflTransGen.cases_tail hb with h | ⟨k, _, i, hi, rfl⟩
      · exact Or.inl h
      · have := (sh_has hi).2
        right
        have key : ∀ i ∈ ([⟨"A", [("P", "VDD"), ("Q", "x")]⟩, ⟨"A_1", [("P", "y"), ("Q", "x")]⟩] : List Inst),
            i.model = "A" ∨ i.model = "A_1" := by decide
        exact key i this
    rcases hk with rfl | rfl | rfl
    · rw [show ports shSt "T" = ["VDD"] from by decide +kernel, List.mem_singleton] at hp
      simp [hp]
    · rw [show ports shSt "A" = ["Q"] from by decide +kernel, List.mem_singleton] at hp
      simp [hp]
    · rw [show ports shSt "A_1" = ["Q"] from by decide +kernel, List.mem_singleton] at hp
      simp [hp]
  | @step n c p i _ _ hi hpc ih =>
    obtain ⟨rfl, hi'⟩ := sh_has hi
    have hc : c = "VDD" := by
      revert ih
      simp
    subst hc
    have key : ∀ i ∈ ([⟨"A", [("P", "VDD"), ("Q", "x")]⟩, ⟨"A_1", [("P", "y"), ("Q", "x")]⟩] : List Inst), ∀ pc ∈ i.pins, pc.2 = "VDD" →
        (i.model, pc.1) ∈ [("T", "VDD"), ("A", "Q"), ("A", "P"), ("A_1", "Q")] := by decide +kernel
    exact key i hi' _ hpc rfl

/-- **C55 is violated.**  `A` and its copy `A_1` have one constraint object, which declares `Q`.  The top connects `P` of `A` to
`VDD`, and `P` of `A_1` to a signal: `P` of `A_1` is declared as well. -/
theorem C55_violated_shared : ∃ (L : Lib) (st st' : St), start id L 4 st "T" = some st' ∧ ¬ C55_statement L st "T" st' := by
  have h : portsAfter shLib shSt "A_1" = some ["Q", "P"] := by decide +kernel
  unfold portsAfter at h
  rw [Option.map_eq_some_iff] at h
  obtain ⟨st', h1, h2⟩ := h
  refine ⟨_, _, st', h1, fun hs => ?_⟩
  have hb : Has shLib "T" ⟨"A_1", [("P", "y"), ("Q", "x")]⟩ := ⟨by decide +kernel, by decide +kernel⟩
  have hp := (hs "A_1" (Relation.ReflTransGen.single ⟨_, hb, rfl⟩) "P").mp (by rw [h2]; decide)
  exact absurd (sh_power hp) (by decide)

end Verif.Pre.Power

import Mathlib.Data.List.Basic
import Mathlib.Data.List.Nodup
import Verif.Util.Sort

/-!
# C84: the netlist given to place and route

Model of `WriteVerilog.gen_dict`, `gen_dict_fa` (`align/compiler/write_verilog_lef.py`, 23-43) and of the part of
`_ReadVerilogJson` (`align/pnr/build_pnr_model.py`, 17-104) that builds the modules.

Simplifications: dictionaries are association lists; the objects of the C++ library are structures; the constraints of a
module and the global signals, which are passed on, are left out; the type of a terminal (always `input`) and of a connection
(always `Block`) are left out.
-/

namespace Verif.PnrNet

/-- An instance in a subcircuit: its name, the name of its template and its pins with their nets. -/
structure Elem where
  name : String
  template : String
  pins : List (String × String)
  deriving DecidableEq

structure Ckt where
  name : String
  pins : List String
  elems : List Elem
  deriving DecidableEq

/-- An instance in the Verilog JSON; `template_name` and `abstract_template_name` may be there or not. -/
structure VInst where
  name : String
  concrete : Option String
  abstr : Option String
  fa : List (String × String)
  deriving DecidableEq

structure VMod where
  name : Option String
  abstr : Option String
  pars : List String
  insts : List VInst
  deriving DecidableEq

/-- `gen_dict_fa` (write_verilog_lef.py, 38-43): the pins ordered by name. -/
def faMap (ps : List (String × String)) : List (String × String) := pySort (fun a b => a.1 ≤ b.1) ps

/-- `gen_dict` (23-36). -/
def genDict (c : Ckt) : VMod :=
  { name := some c.name, abstr := none, pars := c.pins,
    insts := c.elems.map fun e => { name := e.name, concrete := none, abstr := some e.template, fa := faMap e.pins } }

structure Net where
  name : String
  connected : List (Nat × Nat)
  degree : Nat
  deriving DecidableEq

structure Block where
  master : String
  name : String
  pins : List (String × Nat)
  deriving DecidableEq

structure Node where
  name : String
  terminals : List String
  blocks : List Block
  nets : List Net
  blockMap : List (String × Nat)
  deriving DecidableEq

/-- The nets so far: `net_map`, the names in `Nets`, and `Connecteds` (32-38). -/
structure S where
  map : List (String × Nat)
  nets : List String
  conns : List (List (Nat × Nat))
  deriving DecidableEq

/-- `process_connection` (57-75) for pin `i` of block `k`. -/
def connect (s : S) (i k : Nat) (net : String) : S × Nat :=
  match s.map.lookup net with
  | some j => ({ s with conns := s.conns.set j (s.conns.getD j [] ++ [(i, k)]) }, j)
  | none => ({ map := s.map ++ [(net, s.nets.length)], nets := s.nets ++ [net], conns := s.conns ++ [[(i, k)]] }, s.nets.length)

/-- The loop over the pins of block `k` (78-83), from pin `i` on. -/
def pinLoop (k : Nat) : S → Nat → List (String × String) → S × List (String × Nat)
  | s, _, [] => (s, [])
  | s, i, fa :: r =>
    let c := connect s i k fa.2
    let q := pinLoop k c.1 (i + 1) r
    (q.1, (fa.1, c.2) :: q.2)

/-- The template of an instance (45-50). -/
def master (x : VInst) : Option String :=
  match x.concrete with
  | some t => some t
  | none => x.abstr

/-- The loop over the instances (41-87), from block `k` on. -/
def instLoop : S → Nat → List VInst → Option (S × List Block)
  | s, _, [] => some (s, [])
  | s, k, x :: r =>
    (master x).bind fun m =>
      let p := pinLoop k s 0 x.fa
      (instLoop p.1 (k + 1) r).map fun q => (q.1, { master := m, name := x.name, pins := p.2 } :: q.2)

/-- `Block_name_map[current_instance.name] = len(Blocks)` (53): an association list where the last entry counts. -/
def setKey (d : List (String × Nat)) (n : String) (k : Nat) : List (String × Nat) :=
  if (d.lookup n).isSome then d.map fun e => if e.1 = n then (n, k) else e else d ++ [(n, k)]

def nameMap : List (String × Nat) → Nat → List VInst → List (String × Nat)
  | d, _, [] => d
  | d, k, x :: r => nameMap (setKey d x.name k) (k + 1) r

/-- `module['name'] if 'name' in module else module['abstract_name']` (23). -/
def modName (m : VMod) : Option String :=
  match m.name with
  | some n => some n
  | none => m.abstr

/-- One module (20-97). -/
def node (m : VMod) : Option Node :=
  (modName m).bind fun n =>
  (instLoop { map := [], nets := [], conns := [] } 0 m.insts).map fun r =>
    { name := n, terminals := m.pars, blocks := r.2,
      nets := (r.1.nets.zip r.1.conns).map fun e => { name := e.1, connected := e.2, degree := e.2.length },
      blockMap := nameMap [] 0 m.insts }

/-- `_ReadVerilogJson` (17-97): all modules. -/
def readJson (ms : List VMod) : Option (List Node) := ms.mapM node

/-- The netlist of the compiler as it arrives at place and route. -/
def handOver (cs : List Ckt) : Option (List Node) := readJson (cs.map genDict)

/-! ## Specification -/

/-- Block `k` of the node has pin `f` on a net called `a`. -/
def PinOn (n : Node) (k : Nat) (f a : String) : Prop :=
  ∃ b : Block, n.blocks[k]? = some b ∧ ∃ (i j : Nat) (t : Net), b.pins[i]? = some (f, j) ∧ n.nets[j]? = some t ∧ t.name = a

/-- The node is the circuit: the same blocks in the same order, on the same nets; the nets list their pins. -/
structure Same (c : Ckt) (n : Node) : Prop where
  name : n.name = c.name
  terminals : n.terminals = c.pins
  blocks : List.Forall₂ (fun e b => b.name = e.name ∧ b.master = e.template ∧ (b.pins.map Prod.fst).Perm (e.pins.map Prod.fst)) c.elems n.blocks
  pins : ∀ (k : Nat) (e : Elem), c.elems[k]? = some e → ∀ f a, PinOn n k f a ↔ (f, a) ∈ e.pins
  distinct : (n.nets.map Net.name).Nodup
  used : ∀ a, a ∈ n.nets.map Net.name ↔ ∃ e ∈ c.elems, ∃ f, (f, a) ∈ e.pins
  listed : ∀ (j : Nat) (t : Net), n.nets[j]? = some t → ∀ i k, (i, k) ∈ t.connected ↔ ∃ b : Block, n.blocks[k]? = some b ∧ ∃ f, b.pins[i]? = some (f, j)
  once : ∀ t ∈ n.nets, t.connected.Nodup ∧ t.degree = t.connected.length
  byName : ∀ (a : String) (k : Nat), n.blockMap.lookup a = some k ↔
    (∃ e, c.elems[k]? = some e ∧ e.name = a) ∧ ∀ (k' : Nat) (e : Elem), c.elems[k']? = some e → e.name = a → k' ≤ k

/-! ## Proofs -/

/-- The pins that were connected so far, as (pin, block, net). -/
structure Inv (done : List (Nat × Nat × String)) (s : S) : Prop where
  len : s.conns.length = s.nets.length
  nodup : s.nets.Nodup
  map : ∀ (a : String) (j : Nat), s.map.lookup a = some j ↔ s.nets[j]? = some a
  conns : ∀ (j : Nat) (a : String), s.nets[j]? = some a → s.conns[j]? = some ((done.filter fun d => decide (d.2.2 = a)).map fun d => (d.1, d.2.1))
  used : ∀ a, a ∈ s.nets ↔ ∃ d ∈ done, d.2.2 = a

theorem lookup_snoc {l : List (String × Nat)} {a b : String} {k : Nat} :
    (l ++ [(a, k)]).lookup b = ((l.lookup b).or (if b = a then some k else none)) := by
  induction l with
  | nil =>
    by_cases h : b = a
    · simp [List.lookup, h]
    · have h' : (b == a) = false := by simp [h]
      simp [List.lookup, h, h']
  | cons e l ih =>
    by_cases h : b = e.1
    · simp [List.lookup, h]
    · have : (b == e.1) = false := by simp [h]
      simp only [List.cons_append, List.lookup, this, ih]

theorem connect_inv {done : List (Nat × Nat × String)} {s : S} (h : Inv done s) (i k : Nat) (a : String) :
    Inv (done ++ [(i, k, a)]) (connect s i k a).1 ∧ (connect s i k a).1.nets[(connect s i k a).2]? = some a ∧
      ∃ t, (connect s i k a).1.nets = s.nets ++ t := by
  unfold connect
  cases hl : s.map.lookup a with
  | some j =>
    have hj := (h.map a j).1 hl
    refine ⟨⟨by simpa using h.len, h.nodup, h.map, ?_, ?_⟩, hj, [], by simp⟩
    · intro j' a' ha'
      have hc := h.conns j' a' ha'
      by_cases hjj : j' = j
      · subst hjj
        have : a' = a := by
          have h1 : s.nets[j']? = some a' := ha'
          rw [hj] at h1; exact (Option.some.inj h1).symm
        subst this
        have hlt : j' < s.conns.length := by
          rcases List.getElem?_eq_some_iff.1 hc with ⟨hh, _⟩; exact hh
        simp only [List.getElem?_set_self hlt, List.filter_append, List.map_append]
        rw [List.getD_eq_getElem?_getD, hc]
        simp
      · have hne : a' ≠ a := by
          intro he
          subst he
          rcases List.getElem?_eq_some_iff.1 hj with ⟨h1, e1⟩
          rcases List.getElem?_eq_some_iff.1 (show s.nets[j']? = some a' from ha') with ⟨h2, e2⟩
          exact hjj ((h.nodup.getElem_inj_iff).1 (e2.trans e1.symm))
        have hne' : ¬ a = a' := fun e => hne e.symm
        simp only [List.getElem?_set_ne (fun e => hjj e.symm), hc, List.filter_append, List.map_append]
        simp [hne']
    · intro a'
      rw [h.used a']
      have hu := (h.used a).1 (List.mem_of_getElem? hj)
      constructor
      · rintro ⟨d, hd, e⟩; exact ⟨d, by simp [hd], e⟩
      · rintro ⟨d, hd, e⟩
        rcases List.mem_append.1 hd with hd | hd
        · exact ⟨d, hd, e⟩
        · rw [List.mem_singleton.1 hd] at e
          simp only at e
          subst e; exact hu
  | none =>
    have hn : a ∉ s.nets := by
      intro ha
      rcases List.mem_iff_getElem?.1 ha with ⟨j, hj⟩
      rw [(h.map a j).2 hj] at hl; simp at hl
    refine ⟨⟨by simpa using h.len, ?_, ?_, ?_, ?_⟩, by simp, [a], rfl⟩
    · simp only
      rw [List.nodup_append]
      refine ⟨h.nodup, by simp, ?_⟩
      intro x hx y hy e
      rw [List.mem_singleton.1 hy] at e; subst e; exact hn hx
    · intro a' j
      simp only [lookup_snoc]
      by_cases ha : a' = a
      · subst ha
        rw [hl]
        simp only [Option.none_or, if_true]
        constructor
        · intro e; rw [← Option.some.inj e]; simp
        · intro e
          by_cases hj : j < s.nets.length
          · rw [List.getElem?_append_left hj] at e
            exact absurd (List.mem_of_getElem? e) hn
          · rw [List.getElem?_append_right (by omega)] at e
            rcases List.getElem?_eq_some_iff.1 e with ⟨h1, _⟩
            simp at h1
            have : j = s.nets.length := by omega
            rw [this]
      · rw [if_neg ha, Option.or_none, h.map]
        by_cases hj : j < s.nets.length
        · rw [List.getElem?_append_left hj]
        · rw [List.getElem?_append_right (by omega)]
          constructor
          · intro e
            rcases List.getElem?_eq_some_iff.1 e with ⟨h1, _⟩; omega
          · intro e
            have := List.mem_of_getElem? e
            simp [ha] at this
    · intro j a' ha'
      simp only at ha' ⊢
      by_cases hj : j < s.nets.length
      · rw [List.getElem?_append_left hj] at ha'
        have hne : ¬ a = a' := by rintro rfl; exact hn (List.mem_of_getElem? ha')
        rw [List.getElem?_append_left (by rw [h.len]; exact hj), h.conns j a' ha', List.filter_append, List.map_append]
        simp [hne]
      · rw [List.getElem?_append_right (by omega)] at ha'
        rcases List.getElem?_eq_some_iff.1 ha' with ⟨h1, e1⟩
        simp only [List.length_cons, List.length_nil] at h1
        have hj' : j = s.nets.length := by omega
        have ha2 : a' = a := by
          have := List.mem_of_getElem? ha'
          simpa using this
        subst ha2
        have hno : done.filter (fun d => decide (d.2.2 = a')) = [] := by
          rw [List.filter_eq_nil_iff]
          intro d hd
          simp only [decide_eq_true_eq]
          intro e
          exact hn ((h.used a').2 ⟨d, hd, e⟩)
        rw [List.getElem?_append_right (by rw [h.len]; omega), List.filter_append, hno, h.len, hj']
        simp
    · intro a'
      simp only [List.mem_append, List.mem_singleton, h.used]
      constructor
      · rintro (⟨d, hd, e⟩ | rfl)
        · exact ⟨d, Or.inl hd, e⟩
        · exact ⟨(i, k, a'), Or.inr rfl, rfl⟩
      · rintro ⟨d, hd | hd, e⟩
        · exact Or.inl ⟨d, hd, e⟩
        · subst hd; exact Or.inr e.symm

/-- The pins of a block as (pin, block, net). -/
def pinsAt (k : Nat) : Nat → List (String × String) → List (Nat × Nat × String)
  | _, [] => []
  | i, fa :: r => (i, k, fa.2) :: pinsAt k (i + 1) r

theorem prefix_get {α : Type} {l t : List α} {j : Nat} {a : α} (h : l[j]? = some a) : (l ++ t)[j]? = some a := by
  rcases List.getElem?_eq_some_iff.1 h with ⟨h1, _⟩
  rw [List.getElem?_append_left h1]; exact h

theorem pinLoop_inv (k : Nat) : ∀ (fa : List (String × String)) {done : List (Nat × Nat × String)} {s : S} (i : Nat), Inv done s →
    Inv (done ++ pinsAt k i fa) (pinLoop k s i fa).1 ∧ (∃ t, (pinLoop k s i fa).1.nets = s.nets ++ t) ∧
      List.Forall₂ (fun p q => q.1 = p.1 ∧ (pinLoop k s i fa).1.nets[q.2]? = some p.2) fa (pinLoop k s i fa).2
  | [], _, _, _, h => ⟨by simpa [pinsAt, pinLoop] using h, ⟨[], by simp [pinLoop]⟩, List.Forall₂.nil⟩
  | p :: r, done, s, i, h => by
    obtain ⟨h1, h2, t, h3⟩ := connect_inv h i k p.2
    obtain ⟨g1, ⟨u, g2⟩, g3⟩ := pinLoop_inv k r (i + 1) h1
    refine ⟨?_, ⟨t ++ u, ?_⟩, ?_⟩
    · simpa [pinsAt, pinLoop] using g1
    · simp only [pinLoop]
      rw [g2, h3, List.append_assoc]
    · simp only [pinLoop]
      refine List.Forall₂.cons ⟨rfl, ?_⟩ g3
      rw [g2]; exact prefix_get h2

/-- All pins of the instances as (pin, block, net). -/
def allPins : Nat → List VInst → List (Nat × Nat × String)
  | _, [] => []
  | k, x :: r => pinsAt k 0 x.fa ++ allPins (k + 1) r

theorem instLoop_inv : ∀ (xs : List VInst) {done : List (Nat × Nat × String)} {s : S} (k : Nat) {r : S × List Block}, Inv done s →
    instLoop s k xs = some r → Inv (done ++ allPins k xs) r.1 ∧ (∃ t, r.1.nets = s.nets ++ t) ∧
      List.Forall₂ (fun x b => b.name = x.name ∧ master x = some b.master ∧
        List.Forall₂ (fun p q => q.1 = p.1 ∧ r.1.nets[q.2]? = some p.2) x.fa b.pins) xs r.2
  | [], _, _, _, r, h, he => by
    simp only [instLoop, Option.some.injEq] at he
    subst he
    exact ⟨by simpa [allPins] using h, ⟨[], by simp⟩, List.Forall₂.nil⟩
  | x :: xs, done, s, k, r, h, he => by
    simp only [instLoop, Option.bind_eq_some_iff, Option.map_eq_some_iff] at he
    obtain ⟨m, hm, q, hq, rfl⟩ := he
    obtain ⟨h1, ⟨t, h2⟩, h3⟩ := pinLoop_inv k x.fa 0 h
    obtain ⟨g1, ⟨u, g2⟩, g3⟩ := instLoop_inv xs (k + 1) h1 hq
    refine ⟨?_, ⟨t ++ u, ?_⟩, ?_⟩
    · simpa [allPins] using g1
    · simp only; rw [g2, h2, List.append_assoc]
    · refine List.Forall₂.cons ⟨rfl, hm, h3.imp ?_⟩ g3
      rintro p q ⟨e1, e2⟩
      exact ⟨e1, by rw [g2]; exact prefix_get e2⟩

theorem mem_pinsAt {k i' k' : Nat} {a : String} : ∀ {i : Nat} {fa : List (String × String)}, (i', k', a) ∈ pinsAt k i fa ↔
    k' = k ∧ ∃ d f, i' = i + d ∧ fa[d]? = some (f, a)
  | i, [] => by simp [pinsAt]
  | i, p :: r => by
    rw [pinsAt, List.mem_cons, mem_pinsAt]
    constructor
    · rintro (h | ⟨rfl, d, f, rfl, h⟩)
      · injection h with h1 h2; injection h2 with h2 h3
        exact ⟨h2, 0, p.1, by omega, by simp [h3]⟩
      · exact ⟨rfl, d + 1, f, by omega, by simpa using h⟩
    · rintro ⟨rfl, d, f, rfl, h⟩
      cases d with
      | zero => left; simp at h; simp [h]
      | succ d => right; exact ⟨rfl, d, f, by omega, by simpa using h⟩

theorem pinsAt_nodup {k : Nat} : ∀ {i : Nat} {fa : List (String × String)}, ((pinsAt k i fa).map fun d => (d.1, d.2.1)).Nodup
  | _, [] => by simp [pinsAt]
  | i, p :: r => by
    rw [pinsAt, List.map_cons, List.nodup_cons]
    refine ⟨?_, pinsAt_nodup⟩
    intro h
    rcases List.mem_map.1 h with ⟨⟨i', k', a⟩, hd, e⟩
    obtain ⟨_, d, f, rfl, _⟩ := mem_pinsAt.1 hd
    simp at e
    omega

theorem mem_allPins {i' k' : Nat} {a : String} : ∀ {k : Nat} {xs : List VInst}, (i', k', a) ∈ allPins k xs ↔
    ∃ d x f, k' = k + d ∧ xs[d]? = some x ∧ x.fa[i']? = some (f, a)
  | k, [] => by simp [allPins]
  | k, x :: r => by
    rw [allPins, List.mem_append, mem_allPins, mem_pinsAt]
    constructor
    · rintro (⟨rfl, d, f, rfl, h⟩ | ⟨d, y, f, rfl, h1, h2⟩)
      · exact ⟨0, x, f, rfl, rfl, by simpa using h⟩
      · exact ⟨d + 1, y, f, by omega, by simpa using h1, h2⟩
    · rintro ⟨d, y, f, rfl, h1, h2⟩
      cases d with
      | zero => left; simp at h1; subst h1; exact ⟨rfl, i', f, by simp, h2⟩
      | succ d => right; exact ⟨d, y, f, by omega, by simpa using h1, h2⟩

theorem allPins_nodup : ∀ {k : Nat} {xs : List VInst}, ((allPins k xs).map fun d => (d.1, d.2.1)).Nodup
  | _, [] => by simp [allPins]
  | k, x :: r => by
    rw [allPins, List.map_append, List.nodup_append]
    refine ⟨pinsAt_nodup, allPins_nodup, ?_⟩
    intro u hu v hv e
    subst e
    rcases List.mem_map.1 hu with ⟨⟨i1, k1, a1⟩, h1, e1⟩
    rcases List.mem_map.1 hv with ⟨⟨i2, k2, a2⟩, h2, e2⟩
    obtain ⟨rfl, _⟩ := mem_pinsAt.1 h1
    obtain ⟨d, _, _, rfl, _⟩ := mem_allPins.1 h2
    rw [← e1] at e2
    simp at e2
    omega

theorem lookup_setKey {d : List (String × Nat)} {n a : String} {k : Nat} :
    (setKey d n k).lookup a = if a = n then some k else d.lookup a := by
  unfold setKey
  split_ifs with h1 h2 h2
  · subst h2
    induction d with
    | nil => simp [List.lookup] at h1
    | cons e d ih =>
      by_cases he : e.1 = a
      · simp [List.lookup, he]
      · have : (a == e.1) = false := by simp; exact fun h => he h.symm
        simp only [List.lookup, this] at h1
        simp only [List.map_cons, if_neg he, List.lookup, this]
        exact ih h1
  · clear h1
    induction d with
    | nil => rfl
    | cons e d ih =>
      by_cases he : e.1 = n
      · have h3 : (a == n) = false := by simp [h2]
        have h4 : (a == e.1) = false := by rw [he]; exact h3
        simp only [List.map_cons, if_pos he, List.lookup, h3, h4, ih]
      · simp only [List.map_cons, if_neg he, List.lookup, ih]
  · subst h2
    rw [lookup_snoc]
    cases hh : d.lookup a with
    | some x => rw [hh] at h1; simp at h1
    | none => simp
  · rw [lookup_snoc, if_neg h2, Option.or_none]

theorem nameMap_lookup : ∀ {xs : List VInst} {d : List (String × Nat)} {k : Nat} {a : String} {j : Nat}, (nameMap d k xs).lookup a = some j ↔
    ((∃ i x, j = k + i ∧ xs[i]? = some x ∧ x.name = a ∧ ∀ i' x', xs[i']? = some x' → x'.name = a → i' ≤ i) ∨
      (d.lookup a = some j ∧ ∀ x ∈ xs, x.name ≠ a))
  | [], d, k, a, j => by simp [nameMap]
  | x :: r, d, k, a, j => by
    rw [nameMap, nameMap_lookup, lookup_setKey]
    constructor
    · rintro (⟨i, y, rfl, h1, h2, h3⟩ | ⟨h1, h2⟩)
      · refine Or.inl ⟨i + 1, y, by omega, by simpa using h1, h2, ?_⟩
        intro i' x' hx' hn
        cases i' with
        | zero => omega
        | succ i' => have := h3 i' x' (by simpa using hx') hn; omega
      · by_cases hx : a = x.name
        · rw [if_pos hx] at h1
          refine Or.inl ⟨0, x, by simpa using h1.symm, rfl, hx.symm, ?_⟩
          intro i' x' hx' hn
          cases i' with
          | zero => omega
          | succ i' =>
            have : x' ∈ r := List.mem_of_getElem? (by simpa using hx')
            exact absurd hn (h2 x' this)
        · rw [if_neg hx] at h1
          refine Or.inr ⟨h1, ?_⟩
          intro y hy
          rcases List.mem_cons.1 hy with rfl | hy
          · exact fun h => hx h.symm
          · exact h2 y hy
    · rintro (⟨i, y, rfl, h1, h2, h3⟩ | ⟨h1, h2⟩)
      · cases i with
        | zero =>
          simp at h1
          subst h1
          refine Or.inr ⟨by simp [h2], ?_⟩
          intro z hz hn
          rcases List.mem_iff_getElem?.1 hz with ⟨i', hi'⟩
          have := h3 (i' + 1) z (by simpa using hi') hn
          omega
        | succ i =>
          refine Or.inl ⟨i, y, by omega, by simpa using h1, h2, ?_⟩
          intro i' x' hx' hn
          have := h3 (i' + 1) x' (by simpa using hx') hn
          omega
      · refine Or.inr ⟨?_, fun y hy => h2 y (by simp [hy])⟩
        rw [if_neg (fun h => h2 x (by simp) h.symm)]
        exact h1

theorem forall₂_at {α β : Type} {R : α → β → Prop} : ∀ {l : List α} {l' : List β}, List.Forall₂ R l l' → ∀ {k : Nat},
    (∀ {a}, l[k]? = some a → ∃ b, l'[k]? = some b ∧ R a b) ∧ (∀ {b}, l'[k]? = some b → ∃ a, l[k]? = some a ∧ R a b)
  | _, _, .nil, k => by simp
  | _, _, .cons h t, k => by
    cases k with
    | zero => constructor <;> intro a ha <;> simp at ha <;> subst ha <;> simp [h]
    | succ k => simpa using @forall₂_at _ _ _ _ _ t k

theorem instLoop_some : ∀ (xs : List VInst) (s : S) (k : Nat), (∀ x ∈ xs, (master x).isSome) → ∃ r, instLoop s k xs = some r
  | [], s, k, _ => ⟨_, rfl⟩
  | x :: xs, s, k, h => by
    obtain ⟨m, hm⟩ := Option.isSome_iff_exists.1 (h x (by simp))
    obtain ⟨q, hq⟩ := instLoop_some xs (pinLoop k s 0 x.fa).1 (k + 1) (fun y hy => h y (by simp [hy]))
    exact ⟨(q.1, { master := m, name := x.name, pins := (pinLoop k s 0 x.fa).2 } :: q.2), by
      simp [instLoop, hm, hq]⟩

theorem nets_get {s : S} (h : s.conns.length = s.nets.length) {j : Nat} {t : Net} :
    ((s.nets.zip s.conns).map fun e => ({ name := e.1, connected := e.2, degree := e.2.length } : Net))[j]? = some t ↔
      s.nets[j]? = some t.name ∧ s.conns[j]? = some t.connected ∧ t.degree = t.connected.length := by
  simp only [List.getElem?_map, Option.map_eq_some_iff, List.getElem?_zip_eq_some]
  constructor
  · rintro ⟨⟨a, c⟩, ⟨h1, h2⟩, rfl⟩
    exact ⟨h1, h2, rfl⟩
  · rintro ⟨h1, h2, h3⟩
    refine ⟨(t.name, t.connected), ⟨h1, h2⟩, ?_⟩
    cases t; simp_all

theorem node_same (c : Ckt) : ∃ n, node (genDict c) = some n ∧ Same c n := by
  obtain ⟨r, hr⟩ := instLoop_some (genDict c).insts { map := [], nets := [], conns := [] } 0 (by
    intro x hx
    rcases List.mem_map.1 hx with ⟨e, _, rfl⟩
    rfl)
  have hinv0 : Inv [] { map := [], nets := [], conns := [] } := ⟨rfl, by simp, by simp, by simp, by simp⟩
  obtain ⟨hi, -, hb⟩ := instLoop_inv (genDict c).insts 0 hinv0 hr
  rw [List.nil_append] at hi
  have hinst : ∀ (k : Nat) (e : Elem), c.elems[k]? = some e → (genDict c).insts[k]? = some { name := e.name, concrete := none, abstr := some e.template, fa := faMap e.pins } := by
    intro k e he
    simp [genDict, he]
  have hinst' : ∀ (k : Nat) (x : VInst), (genDict c).insts[k]? = some x → ∃ e, c.elems[k]? = some e ∧
      x = { name := e.name, concrete := none, abstr := some e.template, fa := faMap e.pins } := by
    intro k x hx
    simp only [genDict, List.getElem?_map, Option.map_eq_some_iff] at hx
    obtain ⟨e, he, rfl⟩ := hx
    exact ⟨e, he, rfl⟩
  have hmf : ∀ ps : List (String × String), (faMap ps).Perm ps := fun ps => pySort_perm _
  refine ⟨{ name := c.name, terminals := c.pins, blocks := r.2,
            nets := (r.1.nets.zip r.1.conns).map fun e => { name := e.1, connected := e.2, degree := e.2.length },
            blockMap := nameMap [] 0 (genDict c).insts }, ?_, ?_⟩
  · unfold node
    rw [hr]; rfl
  have hnames : ((r.1.nets.zip r.1.conns).map fun e => ({ name := e.1, connected := e.2, degree := e.2.length } : Net)).map Net.name = r.1.nets := by
    rw [List.map_map]
    have : (Net.name ∘ fun e : String × List (Nat × Nat) => ({ name := e.1, connected := e.2, degree := e.2.length } : Net)) = Prod.fst := rfl
    rw [this, List.map_fst_zip (Nat.le_of_eq hi.len.symm)]
  refine ⟨rfl, rfl, ?_, ?_, ?_, ?_, ?_, ?_, ?_⟩
  · simp only
    have : (genDict c).insts = c.elems.map fun e => { name := e.name, concrete := none, abstr := some e.template, fa := faMap e.pins } := rfl
    rw [this, List.forall₂_map_left_iff] at hb
    refine hb.imp ?_
    rintro e b ⟨h1, h2, h3⟩
    refine ⟨h1, ?_, ?_⟩
    · simpa [master] using h2.symm
    · have : b.pins.map Prod.fst = (faMap e.pins).map Prod.fst := by
        clear hb h1 h2
        simp only at h3
        generalize faMap e.pins = l at h3
        generalize b.pins = l' at h3
        induction h3 with
        | nil => rfl
        | cons h _ ih => simp [h.1, ih]
      rw [this]
      exact (hmf _).map _
  · intro k e he f a
    obtain ⟨b, hbk, h1, h2, h3⟩ := (forall₂_at hb (k := k)).1 (hinst k e he)
    simp only [PinOn, hbk]
    constructor
    · rintro ⟨b', hb', i, j, t, h4, h5, h6⟩
      simp only [Option.some.injEq] at hb'
      subst hb'
      obtain ⟨p, hp, e1, e2⟩ := (forall₂_at h3 (k := i)).2 h4
      rw [nets_get hi.len] at h5
      simp only at e1 e2
      rw [h5.1] at e2
      have : (f, a) = p := by
        cases p; simp only at e1 e2; simp only [Option.some.injEq] at e2; rw [e1, ← h6, e2]
      rw [this]
      exact (hmf _).mem_iff.1 (List.mem_of_getElem? hp)
    · intro hm
      obtain ⟨i, hi'⟩ := List.mem_iff_getElem?.1 ((hmf e.pins).mem_iff.2 hm)
      obtain ⟨⟨f', j⟩, hq, e1, e2⟩ := (forall₂_at h3 (k := i)).1 hi'
      simp only at e1 e2
      subst e1
      have hcj := hi.conns j a e2
      refine ⟨b, rfl, i, j, ⟨a, _, List.length _⟩, hq, (nets_get hi.len).2 ⟨e2, hcj, rfl⟩, rfl⟩
  · simp only; rw [hnames]; exact hi.nodup
  · intro a
    simp only; rw [hnames, hi.used]
    constructor
    · rintro ⟨⟨i, k, a'⟩, hd, rfl⟩
      obtain ⟨d, x, f, -, h1, h2⟩ := mem_allPins.1 hd
      obtain ⟨e, he, rfl⟩ := hinst' d x h1
      exact ⟨e, List.mem_of_getElem? he, f, (hmf _).mem_iff.1 (List.mem_of_getElem? h2)⟩
    · rintro ⟨e, he, f, hf⟩
      obtain ⟨k, hk⟩ := List.mem_iff_getElem?.1 he
      obtain ⟨i, hi'⟩ := List.mem_iff_getElem?.1 ((hmf e.pins).mem_iff.2 hf)
      exact ⟨(i, k, a), mem_allPins.2 ⟨k, _, f, by omega, hinst k e hk, hi'⟩, rfl⟩
  · intro j t ht i k
    simp only at ht ⊢
    rw [nets_get hi.len] at ht
    obtain ⟨h1, h2, h3⟩ := ht
    rw [hi.conns j _ h1] at h2
    rw [← Option.some.inj h2]
    simp only [List.mem_map, List.mem_filter, decide_eq_true_eq, Prod.mk.injEq]
    constructor
    · rintro ⟨⟨i', k', a⟩, ⟨hd, hda⟩, rfl, rfl⟩
      simp only at hda
      obtain ⟨d, x, f, e0, g1, g2⟩ := mem_allPins.1 hd
      simp only at e0 ⊢
      rw [Nat.zero_add] at e0
      subst e0
      obtain ⟨b, hbk, q1, q2, q3⟩ := (forall₂_at hb (k := k')).1 g1
      refine ⟨b, hbk, ?_⟩
      obtain ⟨⟨f', j'⟩, hq, e1, e2⟩ := (forall₂_at q3 (k := i')).1 g2
      simp only at e1 e2
      rw [← hda] at h1
      have : j' = j := by
        rcases List.getElem?_eq_some_iff.1 h1 with ⟨l1, m1⟩
        rcases List.getElem?_eq_some_iff.1 e2 with ⟨l2, m2⟩
        exact (hi.nodup.getElem_inj_iff).1 (m2.trans m1.symm)
      subst this
      exact ⟨f', hq⟩
    · rintro ⟨b, hbk, f, hf⟩
      obtain ⟨x, hx, q1, q2, q3⟩ := (forall₂_at hb (k := k)).2 hbk
      obtain ⟨⟨f', a⟩, hp, e1, e2⟩ := (forall₂_at q3 (k := i)).2 hf
      simp only at e1 e2
      rw [h1] at e2
      refine ⟨(i, k, a), ⟨mem_allPins.2 ⟨k, x, f', by omega, hx, hp⟩, ?_⟩, rfl, rfl⟩
      exact (Option.some.inj e2).symm
  · intro t ht
    obtain ⟨j, hj⟩ := List.mem_iff_getElem?.1 ht
    simp only at hj
    rw [nets_get hi.len] at hj
    obtain ⟨h1, h2, h3⟩ := hj
    refine ⟨?_, h3⟩
    rw [hi.conns j _ h1] at h2
    rw [← Option.some.inj h2]
    exact (allPins_nodup (k := 0) (xs := (genDict c).insts)).sublist (List.filter_sublist.map _)
  · intro a k
    simp only
    rw [nameMap_lookup]
    have hno : ¬ (([] : List (String × Nat)).lookup a = some k ∧ ∀ x ∈ (genDict c).insts, x.name ≠ a) := by simp
    constructor
    · rintro (⟨i, x, e0, h1, h2, h3⟩ | h)
      · rw [Nat.zero_add] at e0
        subst e0
        obtain ⟨e, he, rfl⟩ := hinst' k x h1
        exact ⟨⟨e, he, h2⟩, fun k' e' he' hn => h3 k' _ (hinst k' e' he') hn⟩
      · exact absurd h hno
    · rintro ⟨⟨e, he, h2⟩, h3⟩
      refine Or.inl ⟨k, _, by omega, hinst k e he, h2, ?_⟩
      intro i' x' hx' hn
      obtain ⟨e', he', rfl⟩ := hinst' i' x' hx'
      exact h3 i' e' he' hn

/-- **C84**: the netlist arrives at place and route as it is, module by module. -/
theorem C84_same (cs : List Ckt) : ∃ ns, handOver cs = some ns ∧ List.Forall₂ Same cs ns := by
  unfold handOver readJson
  induction cs with
  | nil => exact ⟨[], rfl, List.Forall₂.nil⟩
  | cons c cs ih =>
    obtain ⟨n, hn, hs⟩ := node_same c
    obtain ⟨ns, h1, h2⟩ := ih
    exact ⟨n :: ns, by simp [hn, h1], List.Forall₂.cons hs h2⟩

/-- **C84**: two pins are on the same net there exactly when they are in the circuit. -/
theorem C84_nets (c : Ckt) (hp : ∀ e ∈ c.elems, (e.pins.map Prod.fst).Nodup) : ∃ n, handOver [c] = some [n] ∧
    ∀ (k : Nat) (e : Elem) (f a : String) (k' : Nat) (e' : Elem) (f' a' : String), c.elems[k]? = some e → (f, a) ∈ e.pins → c.elems[k']? = some e' → (f', a') ∈ e'.pins →
      (a = a' ↔ ∃ (j : Nat) (b b' : Block), n.blocks[k]? = some b ∧ n.blocks[k']? = some b' ∧ (f, j) ∈ b.pins ∧ (f', j) ∈ b'.pins) := by
  obtain ⟨ns, h1, h2⟩ := C84_same [c]
  cases h2 with
  | cons h t =>
    cases t
    rename_i n
    refine ⟨n, h1, ?_⟩
    intro k e f a k' e' f' a' he hf he' hf'
    have key : ∀ {k : Nat} {e : Elem} {f a : String}, c.elems[k]? = some e → (f, a) ∈ e.pins → ∀ {b : Block} {j : Nat}, n.blocks[k]? = some b →
        (f, j) ∈ b.pins → ∃ t, n.nets[j]? = some t ∧ t.name = a := by
      intro k e f a he hf b j hb hm
      obtain ⟨e0, he0, q1, q2, q3⟩ := (forall₂_at h.blocks (k := k)).2 hb
      rw [he] at he0
      rw [← Option.some.inj he0] at q3
      obtain ⟨b', hb', i, j', t, g1, g2, g3⟩ := (h.pins k e he f a).2 hf
      rw [hb] at hb'
      rw [← Option.some.inj hb'] at g1
      have hnd : (b.pins.map Prod.fst).Nodup := (q3.nodup_iff).2 (hp e (List.mem_of_getElem? he))
      have : j = j' := by
        have := List.inj_on_of_nodup_map hnd hm (List.mem_of_getElem? g1) rfl
        exact congrArg Prod.snd this
      subst this
      exact ⟨t, g2, g3⟩
    constructor
    · rintro rfl
      obtain ⟨b, hb, i, j, t, g1, g2, g3⟩ := (h.pins k e he f a).2 hf
      obtain ⟨b', hb', i', j', t', g1', g2', g3'⟩ := (h.pins k' e' he' f' a).2 hf'
      have hj : j = j' := by
        have hget : ∀ {j : Nat} {t : Net}, n.nets[j]? = some t → (n.nets.map Net.name)[j]? = some t.name := by
          intro j t ht; simp [ht]
        have m1 := hget g2
        have m2 := hget g2'
        rw [g3] at m1
        rw [g3'] at m2
        rcases List.getElem?_eq_some_iff.1 m1 with ⟨l1, n1⟩
        rcases List.getElem?_eq_some_iff.1 m2 with ⟨l2, n2⟩
        exact (h.distinct.getElem_inj_iff).1 (n1.trans n2.symm)
      subst hj
      exact ⟨j, b, b', hb, hb', List.mem_of_getElem? g1, List.mem_of_getElem? g1'⟩
    · rintro ⟨j, b, b', hb, hb', m1, m2⟩
      obtain ⟨t, t1, t2⟩ := key he hf hb m1
      obtain ⟨t', t1', t2'⟩ := key he' hf' hb' m2
      rw [t1] at t1'
      rw [← t2, ← t2', Option.some.inj t1']

def ota : Ckt :=
  { name := "OTA", pins := ["A", "VSS"],
    elems := [{ name := "M0", template := "NMOS", pins := [("S", "VSS"), ("D", "X"), ("G", "A")] },
              { name := "M1", template := "NMOS", pins := [("S", "VSS"), ("D", "X"), ("G", "X")] }] }

example : (∀ e ∈ ota.elems, (e.pins.map Prod.fst).Nodup) ∧ handOver [ota] = some [
    { name := "OTA", terminals := ["A", "VSS"],
      blocks := [{ master := "NMOS", name := "M0", pins := [("D", 0), ("G", 1), ("S", 2)] },
                 { master := "NMOS", name := "M1", pins := [("D", 0), ("G", 0), ("S", 2)] }],
      nets := [{ name := "X", connected := [(0, 0), (0, 1), (1, 1)], degree := 3 }, { name := "A", connected := [(1, 0)], degree := 1 },
               { name := "VSS", connected := [(2, 0), (2, 1)], degree := 2 }],
      blockMap := [("M0", 0), ("M1", 1)] }] := by
  decide +kernel

end Verif.PnrNet

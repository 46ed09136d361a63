import Mathlib.Data.List.Basic
import Mathlib.Data.List.Nodup
import Mathlib.Data.List.Perm.Basic
import Mathlib.Logic.Relation
import Mathlib.Tactic.Tauto
import Verif.Util.Sort

/-!
# C44: merging series devices

Model of `add_series_devices` (`align/compiler/preprocess.py`, 308-369).

Simplifications: pins and parameters are association lists in one fixed order, so that equality of dictionaries is equality
of lists; the parameter `STACK` is a number kept apart (`stack`, none if the device does not have it); the graph built for
every net is the list of elements.  The order in which the set of nets is visited is a parameter.
An assertion or an error is `none`.  `remove_nodes` (320) is never changed by the code.
-/

namespace Verif.Pre.Series

structure Dev where
  name : String
  model : String
  pins : List (String × String)
  stack : Option Nat
  other : List (String × String)
  deriving DecidableEq

/-- `G.get_edge_data(d, net)["pin"]`: the pins of the device on the net. -/
def Dev.pinsOn (d : Dev) (net : String) : List String := (d.pins.filter fun p => p.2 = net).map Prod.fst

/-- `G.neighbors(net)`. -/
def users (l : List Dev) (net : String) : List Dev := l.filter fun d => d.pins.any fun p => p.2 = net

/-- The two pins can be stacked (358-361). -/
def stackable (p q : String) : Bool :=
  (p = "D" && q = "S") || (p = "S" && q = "D") || (p = "PLUS" && q = "MINUS") || (p = "MINUS" && q = "PLUS")

/-- The connections and parameters left after removing the two pins (345-353). -/
def Dev.without (d : Dev) (p q : String) : List (String × String) := d.pins.filter fun x => x.1 ≠ p && x.1 ≠ q

/-- Lines 363-366: the first device takes over the pin of the second one on the other side. -/
def merged (a b : Dev) (net : String) : Dev :=
  { a with
    stack := some (a.stack.getD 1 + b.stack.getD 1)
    pins := a.pins.map fun x => if x.2 = net then (x.1, (b.pins.lookup x.1).getD net) else x }

/-- Lines 325-367 for a net with two neighbours. -/
def mergeTwo (l : List Dev) (net : String) (a b : Dev) : Option (List Dev) :=
  if a.stack.isNone then some l
  else if a.model ≠ b.model then some l
  else
    match a.pinsOn net, b.pinsOn net with
    | [p], [q] =>
      if p = q then some l
      else if (a.pins.lookup q).isNone || (b.pins.lookup p).isNone then none
      else if a.without p q = b.without p q ∧ a.other = b.other ∧ stackable p q = true then
        some ((l.map fun d => if d = a then merged a b net else d).erase b)
      else some l
    | _, _ => some l

/-- Lines 321-367 for one net; a net that is not in the graph is an error. -/
def seriesNet (l : List Dev) (net : String) : Option (List Dev) :=
  match pySort (fun a b => decide (a.name ≤ b.name)) (users l net) with
  | [] => none
  | [a, b] => mergeTwo l net a b
  | _ => some l

/-- `add_series_devices`, the nets in the order given (318). -/
def addSeries (nets : List String) (l : List Dev) : Option (List Dev) := nets.foldlM seriesNet l

/-! ## Specification -/

/-- The pins of the device on the net. -/
def pinNames (d : Dev) (net : String) : List String := (d.pins.filter fun x => x.2 = net).map Prod.fst

/-- The two ends of a device between which others can be put in series. -/
def Ends (p q : String) : Prop := (p, q) ∈ [("D", "S"), ("S", "D"), ("PLUS", "MINUS"), ("MINUS", "PLUS")]

/-- The pins other than two, with their nets. -/
def others (d : Dev) (p q : String) : List (String × String) := d.pins.filter fun x => x.1 ≠ p && x.1 ≠ q

/-- One correct merge: `a` and `b`, of the same model and with the same other parameters and connections, are the only
devices on `net`, which is no port, each with one pin (the two ends of a stack); they become one device between the two
outer nets with the sum of the stacks, and everything else stays. -/
inductive Step (ports : List String) : List Dev → List Dev → Prop
  | mk {l l' rest : List Dev} {a b c : Dev} {net p q : String} :
      l.Perm (a :: b :: rest) → l'.Perm (c :: rest) → net ∉ ports →
      (∀ d ∈ rest, ∀ x ∈ d.pins, x.2 ≠ net) →
      pinNames a net = [p] → pinNames b net = [q] → Ends p q →
      a.model = b.model → a.other = b.other → others a p q = others b p q →
      c.name = a.name → c.model = a.model → c.other = a.other →
      c.stack = some (a.stack.getD 1 + b.stack.getD 1) →
      c.pins.map Prod.fst = a.pins.map Prod.fst →
      others c p q = others a p q → c.pins.lookup p = b.pins.lookup p → c.pins.lookup q = a.pins.lookup q →
      Step ports l l'

/-- Device pins are distinct. -/
def PinsOk (l : List Dev) : Prop := ∀ d ∈ l, (d.pins.map Prod.fst).Nodup

/-! ## Every merge is correct -/

theorem lookup_mem {l : List (String × String)} {k v : String} (h : l.lookup k = some v) : (k, v) ∈ l := by
  induction l with
  | nil => simp at h
  | cons a l ih =>
    obtain ⟨a1, a2⟩ := a
    rw [List.lookup_cons] at h
    by_cases hk : k = a1
    · subst hk
      simp only [beq_self_eq_true, Option.some.injEq] at h
      subst h
      exact List.mem_cons_self
    · have : (k == a1) = false := by simpa using hk
      simp only [this] at h
      exact List.mem_cons_of_mem _ (ih h)

theorem mem_lookup {l : List (String × String)} (hn : (l.map Prod.fst).Nodup) {k v : String} (h : (k, v) ∈ l) :
    l.lookup k = some v := by
  induction l with
  | nil => simp at h
  | cons a l ih =>
    obtain ⟨a1, a2⟩ := a
    rw [List.map_cons, List.nodup_cons] at hn
    rw [List.lookup_cons]
    rcases List.mem_cons.mp h with he | he
    · obtain ⟨rfl, rfl⟩ := Prod.mk.inj he
      simp
    · have hk : k ≠ a1 := fun h => hn.1 (h ▸ List.mem_map.mpr ⟨_, he, rfl⟩)
      have : (k == a1) = false := by simpa using hk
      simp only [this]
      exact ih hn.2 he

theorem mem_pinsOn {d : Dev} {net p : String} : p ∈ d.pinsOn net ↔ (p, net) ∈ d.pins := by
  unfold Dev.pinsOn
  simp only [List.mem_map, List.mem_filter, decide_eq_true_eq]
  constructor
  · rintro ⟨⟨x, y⟩, ⟨h1, rfl⟩, rfl⟩; exact h1
  · intro h; exact ⟨_, ⟨h, rfl⟩, rfl⟩

theorem ends_iff {p q : String} : Ends p q ↔ stackable p q = true := by
  unfold Ends stackable
  simp [or_assoc]

theorem stackable_ne {p q : String} (h : stackable p q = true) : p ≠ q := by
  unfold stackable at h
  simp only [Bool.or_eq_true, Bool.and_eq_true, decide_eq_true_eq] at h
  rcases h with ((h | h) | h) | h <;> (obtain ⟨rfl, rfl⟩ := h; decide)

theorem lookup_none_iff {l : List (String × String)} {k : String} : l.lookup k = none ↔ k ∉ l.map Prod.fst := by
  induction l with
  | nil => simp
  | cons a l ih =>
    obtain ⟨a1, a2⟩ := a
    rw [List.lookup_cons]
    by_cases hk : k = a1
    · subst hk; simp
    · have : (k == a1) = false := by simpa using hk
      simp only [this, ih, List.map_cons, List.mem_cons, not_or]
      tauto

/-- The pins of the merged device. -/
theorem merged_pins {a b : Dev} {net p q o : String} (ha : (a.pins.map Prod.fst).Nodup)
    (hp : a.pinsOn net = [p]) (hq : p ≠ q) (ho : b.pins.lookup p = some o) :
    (merged a b net).pins.map Prod.fst = a.pins.map Prod.fst ∧ (merged a b net).without p q = a.without p q ∧
    (merged a b net).pins.lookup p = some o ∧ (merged a b net).pins.lookup q = a.pins.lookup q := by
  have honly : ∀ x ∈ a.pins, x.2 = net → x.1 = p := by
    intro x hx hn
    have : x.1 ∈ a.pinsOn net := mem_pinsOn.mpr (by rw [← hn]; exact hx)
    rw [hp] at this
    simpa using this
  have hpm : (p, net) ∈ a.pins := mem_pinsOn.mp (by rw [hp]; simp)
  let f : String × String → String × String := fun x => if x.2 = net then (x.1, (b.pins.lookup x.1).getD net) else x
  have f1 : ∀ x, (f x).1 = x.1 := fun x => by simp only [f]; split <;> rfl
  have h1 : (merged a b net).pins.map Prod.fst = a.pins.map Prod.fst := by
    simp only [merged, List.map_map]
    apply List.map_congr_left
    intro x _
    exact f1 x
  have hmem : ∀ x ∈ a.pins, x.1 ≠ p → f x = x := by
    intro x hx hxp
    simp only [f]
    rw [if_neg]
    intro hn
    exact hxp (honly x hx hn)
  refine ⟨h1, ?_, ?_, ?_⟩
  · simp only [Dev.without, merged]
    have : ∀ (l : List (String × String)), (∀ x ∈ l, x ∈ a.pins) →
        (l.map f).filter (fun x => decide (x.1 ≠ p) && decide (x.1 ≠ q)) =
          l.filter fun x => decide (x.1 ≠ p) && decide (x.1 ≠ q) := by
      intro l hl
      induction l with
      | nil => rfl
      | cons x l ih =>
        have ih := ih fun y hy => hl y (List.mem_cons_of_mem _ hy)
        rw [List.map_cons]
        by_cases hx : x.1 = p
        · rw [List.filter_cons_of_neg (by simp [f1, hx]), List.filter_cons_of_neg (by simp [hx]), ih]
        · rw [hmem x (hl x List.mem_cons_self) hx, List.filter_cons, List.filter_cons, ih]
    exact this a.pins fun x hx => hx
  · apply mem_lookup (by rw [h1]; exact ha)
    simp only [merged, List.mem_map]
    refine ⟨(p, net), hpm, ?_⟩
    simp [ho]
  · have : ∀ (l : List (String × String)), (∀ x ∈ l, x ∈ a.pins) → (l.map f).lookup q = l.lookup q := by
      intro l hl
      induction l with
      | nil => rfl
      | cons x l ih =>
        have ih := ih fun y hy => hl y (List.mem_cons_of_mem _ hy)
        rw [List.map_cons]
        by_cases hx : x.1 = p
        · have e1 : (q == x.1) = false := by simp [hx, Ne.symm hq]
          have e2 : (q == (f x).1) = false := by simp [f1, hx, Ne.symm hq]
          have g1 : (x :: l).lookup q = l.lookup q := by
            obtain ⟨x1, x2⟩ := x; rw [List.lookup_cons]; simp only at e1; rw [e1]
          have g2 : (f x :: l.map f).lookup q = (l.map f).lookup q := by
            generalize f x = y at e2
            obtain ⟨y1, y2⟩ := y; rw [List.lookup_cons]; simp only at e2; rw [e2]
          rw [g1, g2, ih]
        · rw [hmem x (hl x List.mem_cons_self) hx]
          obtain ⟨x1, x2⟩ := x
          rw [List.lookup_cons, List.lookup_cons, ih]
    exact this a.pins fun x hx => hx

theorem perm_two {l : List Dev} (hn : l.Nodup) {a b : Dev} (ha : a ∈ l) (hb : b ∈ l) (hab : a ≠ b) :
    ∃ rest, l.Perm (a :: b :: rest) ∧ (∀ d, d ∈ rest ↔ d ∈ l ∧ d ≠ a ∧ d ≠ b) ∧
      ∀ c, ((l.map fun d => if d = a then c else d).erase b).Perm (c :: rest) ∨ b = c := by
  have h1 : l.Perm (a :: l.erase a) := List.perm_cons_erase ha
  have hb' : b ∈ l.erase a := hn.mem_erase_iff.mpr ⟨Ne.symm hab, hb⟩
  have h2 : (l.erase a).Perm (b :: (l.erase a).erase b) := List.perm_cons_erase hb'
  refine ⟨(l.erase a).erase b, h1.trans (h2.cons a), ?_, ?_⟩
  · intro d
    rw [(hn.erase a).mem_erase_iff, hn.mem_erase_iff]
    tauto
  · intro c
    by_cases hbc : b = c
    · exact Or.inr hbc
    left
    have hp : l.Perm (a :: b :: (l.erase a).erase b) := h1.trans (h2.cons a)
    have hm := hp.map fun d => if d = a then c else d
    rw [List.map_cons, List.map_cons, if_pos rfl, if_neg (Ne.symm hab)] at hm
    have hid : ((l.erase a).erase b).map (fun d => if d = a then c else d) = (l.erase a).erase b := by
      conv_rhs => rw [← List.map_id ((l.erase a).erase b)]
      apply List.map_congr_left
      intro d hd
      have : d ≠ a := by
        rw [(hn.erase a).mem_erase_iff, hn.mem_erase_iff] at hd
        exact hd.2.1
      simp [this]
    rw [hid] at hm
    have := hm.erase b
    rw [List.erase_cons_tail (by simpa using Ne.symm hbc), List.erase_cons_head] at this
    exact this

structure Inv (l : List Dev) : Prop where
  names : (l.map Dev.name).Nodup
  pins : PinsOk l

theorem name_inj {l : List Dev} (h : (l.map Dev.name).Nodup) {a b : Dev} (ha : a ∈ l) (hb : b ∈ l)
    (he : a.name = b.name) : a = b := List.inj_on_of_nodup_map h ha hb he

theorem Step.inv {ports : List String} {l l' : List Dev} (hi : Inv l) (h : Step ports l l') : Inv l' := by
  obtain ⟨h1, h2, g3, g4, g5, g6, g7, g8, g9, g10, h3, g12, g13, g14, h4, g16, g17, g18⟩ := h
  rename_i rest a b c net p q
  constructor
  · have e1 := h1.map Dev.name
    have e2 := h2.map Dev.name
    have n1 := (e1.nodup_iff).mp hi.names
    rw [e2.nodup_iff, List.map_cons, h3]
    exact n1.sublist (by
      simp only [List.map_cons]
      exact List.Sublist.cons_cons _ (List.sublist_cons_self _ _))
  · intro d hd
    rcases List.mem_cons.mp (h2.mem_iff.mp hd) with rfl | hd
    · rw [h4]; exact hi.pins a (h1.mem_iff.mpr List.mem_cons_self)
    · exact hi.pins d (h1.mem_iff.mpr (List.mem_cons_of_mem _ (List.mem_cons_of_mem _ hd)))

theorem seriesNet_step {ports : List String} {l r : List Dev} (hi : Inv l) {net : String} (hnet : net ∉ ports)
    (h : seriesNet l net = some r) : r = l ∨ Step ports l r := by
  unfold seriesNet at h
  split at h
  · cases h
  · rename_i a b hs
    have hperm := pySort_perm (le := fun a b : Dev => decide (a.name ≤ b.name)) (users l net)
    rw [hs] at hperm
    have hu : ∀ d, d ∈ users l net ↔ d = a ∨ d = b := by
      intro d; rw [← hperm.mem_iff]; simp
    have humem : ∀ d, d ∈ users l net ↔ d ∈ l ∧ ∃ x ∈ d.pins, x.2 = net := by
      intro d; unfold users; simp [List.mem_filter]
    have hln : l.Nodup := List.Nodup.of_map _ hi.names
    have hund : (users l net).Nodup := hln.filter _
    have hab : a ≠ b := by
      rintro rfl
      have := hperm.nodup_iff.mpr hund
      simp at this
    have ha : a ∈ l := ((humem a).mp ((hu a).mpr (Or.inl rfl))).1
    have hb : b ∈ l := ((humem b).mp ((hu b).mpr (Or.inr rfl))).1
    unfold mergeTwo at h
    split at h
    · exact Or.inl (by simpa using h.symm)
    · split at h
      · exact Or.inl (by simpa using h.symm)
      · rename_i hmodel
        split at h
        · rename_i p q hpa hqb
          split at h
          · exact Or.inl (by simpa using h.symm)
          · rename_i hpq
            split at h
            · cases h
            · rename_i hlook
              split at h
              · rename_i hcond
                right
                simp only [Option.some.injEq] at h
                subst h
                obtain ⟨o, ho⟩ : ∃ o, b.pins.lookup p = some o := by
                  cases hl : b.pins.lookup p with
                  | none => rw [hl] at hlook; simp at hlook
                  | some o => exact ⟨o, rfl⟩
                obtain ⟨m1, m2, m3, m4⟩ := merged_pins (hi.pins a ha) hpa hpq ho
                obtain ⟨rest, r1, r2, r3⟩ := perm_two hln ha hb hab
                have hbc : b ≠ merged a b net := by
                  intro he
                  have : b.name = a.name := by rw [he]; rfl
                  exact hab (name_inj hi.names hb ha this).symm
                have r3 := (r3 (merged a b net)).resolve_right hbc
                refine .mk (a := a) (b := b) (net := net) (p := p) (q := q) r1 r3 hnet ?_ hpa hqb (ends_iff.mpr hcond.2.2)
                  (by simpa using hmodel) hcond.2.1 hcond.1 rfl rfl rfl rfl m1 m2 (m3.trans ho.symm) m4
                intro d hd x hx hxn
                obtain ⟨d1, d2, d3⟩ := (r2 d).mp hd
                rcases (hu d).mp ((humem d).mpr ⟨d1, x, hx, hxn⟩) with h | h
                · exact d2 h
                · exact d3 h
              · exact Or.inl (by simpa using h.symm)
        · exact Or.inl (by simpa using h.symm)
  · exact Or.inl (by simpa using h.symm)

/-- **C44, merges.**  The result is reached by correct merges only, whatever the order of the nets. -/
theorem C44_only_series {ports nets : List String} {l r : List Dev} (hn : (l.map Dev.name).Nodup) (hp : PinsOk l)
    (hnets : ∀ n ∈ nets, n ∉ ports) (h : addSeries nets l = some r) : Relation.ReflTransGen (Step ports) l r := by
  have hi : Inv l := ⟨hn, hp⟩
  clear hn hp
  unfold addSeries at h
  induction nets generalizing l with
  | nil =>
    simp only [List.foldlM_nil, Option.pure_def, Option.some.injEq] at h
    subst h
    exact .refl
  | cons n nets ih =>
    rw [List.foldlM_cons, Option.bind_eq_bind, Option.bind_eq_some_iff] at h
    obtain ⟨m, h1, h2⟩ := h
    rcases seriesNet_step hi (hnets n List.mem_cons_self) h1 with rfl | hs
    · exact ih (fun k hk => hnets k (List.mem_cons_of_mem _ hk)) h2 hi
    · exact .head hs (ih (fun k hk => hnets k (List.mem_cons_of_mem _ hk)) h2 (hs.inv hi))

/-! ## What merges keep -/

/-- The ends of a stack. -/
def isEnd (k : String) : Bool := k = "D" || k = "S" || k = "PLUS" || k = "MINUS"

/-- What stacked devices agree on: model, other parameters and the connections that are not ends. -/
def Dev.cls (d : Dev) : String × List (String × String) × List (String × String) :=
  (d.model, d.other, d.pins.filter fun x => !isEnd x.1)

/-- The number of stacked units of a class. -/
def stackOf (l : List Dev) (c : String × List (String × String) × List (String × String)) : Nat :=
  ((l.filter fun d => d.cls = c).map fun d => d.stack.getD 1).sum

/-- The number of devices of a model whose pin `k` is on the net. -/
def ends (l : List Dev) (m k n : String) : Nat :=
  (l.filter fun d => d.model = m && decide (d.pins.lookup k = some n)).length

/-- No device has both kinds of ends. -/
def OneKind (l : List Dev) : Prop :=
  ∀ d ∈ l, (∀ k ∈ d.pins.map Prod.fst, k ≠ "PLUS" ∧ k ≠ "MINUS") ∨ ∀ k ∈ d.pins.map Prod.fst, k ≠ "D" ∧ k ≠ "S"

def netUsed (l : List Dev) (n : String) : Prop := ∃ d ∈ l, ∃ x ∈ d.pins, x.2 = n

theorem stackable_isEnd {p q : String} (h : stackable p q = true) : isEnd p = true ∧ isEnd q = true := by
  unfold stackable at h
  simp only [Bool.or_eq_true, Bool.and_eq_true, decide_eq_true_eq] at h
  rcases h with ((h | h) | h) | h <;> (obtain ⟨rfl, rfl⟩ := h; decide)

theorem ends_of_without {a b : Dev} {p q : String} (h : stackable p q = true) (hw : a.without p q = b.without p q) :
    (a.pins.filter fun x => !isEnd x.1) = b.pins.filter fun x => !isEnd x.1 := by
  obtain ⟨h1, h2⟩ := stackable_isEnd h
  have key : ∀ l : List (String × String), (l.filter fun x => !isEnd x.1) =
      (l.filter fun x => decide (x.1 ≠ p) && decide (x.1 ≠ q)).filter fun x => !isEnd x.1 := by
    intro l
    rw [List.filter_filter]
    apply List.filter_congr
    intro x _
    by_cases g1 : x.1 = p
    · simp [g1, h1]
    · by_cases g2 : x.1 = q
      · simp [g2, h2]
      · simp [g1, g2]
  rw [key a.pins, key b.pins]
  unfold Dev.without at hw
  rw [hw]

theorem sum_filter_perm {l l' : List Dev} (h : l.Perm l') (c : String × List (String × String) × List (String × String)) :
    stackOf l c = stackOf l' c := by
  unfold stackOf
  exact List.Perm.sum_nat ((h.filter _).map _)

theorem ends_perm {l l' : List Dev} (h : l.Perm l') (m k n : String) : ends l m k n = ends l' m k n := by
  unfold ends
  exact (h.filter _).length_eq

theorem stackOf_cons (d : Dev) (l : List Dev) (c : String × List (String × String) × List (String × String)) :
    stackOf (d :: l) c = (if d.cls = c then d.stack.getD 1 else 0) + stackOf l c := by
  unfold stackOf
  by_cases h : d.cls = c
  · rw [List.filter_cons_of_pos (by simpa using h), if_pos h]; simp
  · rw [List.filter_cons_of_neg (by simpa using h), if_neg h]; simp

theorem ends_cons (d : Dev) (l : List Dev) (m k n : String) :
    ends (d :: l) m k n = (if d.model = m ∧ d.pins.lookup k = some n then 1 else 0) + ends l m k n := by
  unfold ends
  by_cases h : d.model = m ∧ d.pins.lookup k = some n
  · rw [List.filter_cons_of_pos (by simpa using h), if_pos h, List.length_cons, Nat.add_comm]
  · rw [List.filter_cons_of_neg (by simpa using h), if_neg h, Nat.zero_add]

theorem pinsOn_lookup {d : Dev} (hd : (d.pins.map Prod.fst).Nodup) {net p : String} (h : d.pinsOn net = [p]) :
    d.pins.lookup p = some net := mem_lookup hd (mem_pinsOn.mp (by rw [h]; simp))

theorem mem_without {d : Dev} {p q : String} {x : String × String} :
    x ∈ d.without p q ↔ x ∈ d.pins ∧ x.1 ≠ p ∧ x.1 ≠ q := by
  unfold Dev.without; simp [List.mem_filter]

/-- One merge: the stacks, the ends on every net but the internal one, and the nets. -/
theorem Step.keeps {ports : List String} {l l' : List Dev} (hi : Inv l) (hk : OneKind l) (h : Step ports l l') :
    OneKind l' ∧ (∀ c, stackOf l' c = stackOf l c) ∧
    ∃ net, net ∉ ports ∧ ¬netUsed l' net ∧ (∀ n, netUsed l' n → netUsed l n) ∧
      (∀ m k n, isEnd k = true → n ≠ net → ends l' m k n = ends l m k n) ∧
      ∀ m k n, isEnd k = false → ((∃ d ∈ l', d.model = m ∧ (k, n) ∈ d.pins) ↔ ∃ d ∈ l, d.model = m ∧ (k, n) ∈ d.pins) := by
  obtain ⟨h1, h2, h3, h4, h5, h6, h7, h8, h9, h10, h11, h12, h13, h14, h15, h16, h17, h18⟩ := h
  rename_i rest a b c net p q
  have ha : a ∈ l := h1.mem_iff.mpr List.mem_cons_self
  have hb : b ∈ l := h1.mem_iff.mpr (List.mem_cons_of_mem _ List.mem_cons_self)
  have hr : ∀ d ∈ rest, d ∈ l := fun d hd => h1.mem_iff.mpr (List.mem_cons_of_mem _ (List.mem_cons_of_mem _ hd))
  rw [ends_iff] at h7
  have h5 : a.pinsOn net = [p] := h5
  have h6 : b.pinsOn net = [q] := h6
  have h10 : a.without p q = b.without p q := h10
  have h16 : c.without p q = a.without p q := h16
  have hla := pinsOn_lookup (hi.pins a ha) h5
  have hlb := pinsOn_lookup (hi.pins b hb) h6
  have hpq := stackable_ne h7
  have hcn : (c.pins.map Prod.fst).Nodup := by rw [h15]; exact hi.pins a ha
  obtain ⟨hep, heq⟩ := stackable_isEnd h7
  have hclsab : a.cls = b.cls := by
    unfold Dev.cls
    rw [h8, h9, ends_of_without h7 h10]
  have hclsc : c.cls = a.cls := by
    unfold Dev.cls
    rw [h12, h13, ends_of_without h7 h16]
  -- a pin of the merged device
  have hcp : ∀ x ∈ c.pins, x.2 ≠ net ∧ ((∃ y ∈ a.pins, y = x) ∨ (x.1 = p ∧ x ∈ b.pins)) := by
    intro x hx
    have hxl : c.pins.lookup x.1 = some x.2 := mem_lookup hcn hx
    by_cases g1 : x.1 = p
    · rw [g1, h17] at hxl
      have hxb : x ∈ b.pins := by rw [show x = (p, x.2) from by rw [← g1]]; exact lookup_mem hxl
      refine ⟨?_, Or.inr ⟨g1, hxb⟩⟩
      intro hn
      have : x.1 ∈ b.pinsOn net := mem_pinsOn.mpr (by rw [← hn]; exact hxb)
      rw [h6] at this
      simp only [List.mem_singleton] at this
      exact hpq (g1.symm.trans this)
    · by_cases g2 : x.1 = q
      · rw [g2, h18] at hxl
        have hxa : x ∈ a.pins := by rw [show x = (q, x.2) from by rw [← g2]]; exact lookup_mem hxl
        refine ⟨?_, Or.inl ⟨x, hxa, rfl⟩⟩
        intro hn
        have : x.1 ∈ a.pinsOn net := mem_pinsOn.mpr (by rw [← hn]; exact hxa)
        rw [h5] at this
        exact g1 (by simpa using this)
      · have hxa : x ∈ a.pins := by
          have : x ∈ c.without p q := mem_without.mpr ⟨hx, g1, g2⟩
          rw [h16] at this
          exact (mem_without.mp this).1
        refine ⟨?_, Or.inl ⟨x, hxa, rfl⟩⟩
        intro hn
        have : x.1 ∈ a.pinsOn net := mem_pinsOn.mpr (by rw [← hn]; exact hxa)
        rw [h5] at this
        exact g1 (by simpa using this)
  refine ⟨?_, ?_, net, h3, ?_, ?_, ?_, ?_⟩
  · intro d hd
    rcases List.mem_cons.mp (h2.mem_iff.mp hd) with rfl | hd
    · rw [h15]; exact hk a ha
    · exact hk d (hr d hd)
  · intro cl
    rw [sum_filter_perm h2, sum_filter_perm h1, stackOf_cons, stackOf_cons, stackOf_cons, hclsc, ← hclsab, h14]
    split
    · simp only [Option.getD_some]; omega
    · omega
  · rintro ⟨d, hd, x, hx, hxn⟩
    rcases List.mem_cons.mp (h2.mem_iff.mp hd) with rfl | hd
    · exact (hcp x hx).1 hxn
    · exact h4 d hd x hx hxn
  · rintro n ⟨d, hd, x, hx, hxn⟩
    rcases List.mem_cons.mp (h2.mem_iff.mp hd) with rfl | hd
    · rcases (hcp x hx).2 with ⟨y, hy, rfl⟩ | ⟨_, hxb⟩
      · exact ⟨a, ha, y, hy, hxn⟩
      · exact ⟨b, hb, x, hxb, hxn⟩
    · exact ⟨d, hr d hd, x, hx, hxn⟩
  · intro m k n hke hn
    rw [ends_perm h2, ends_perm h1, ends_cons, ends_cons, ends_cons, h12, ← h8]
    by_cases hm : a.model = m
    · simp only [hm, true_and]
      by_cases g1 : k = p
      · subst g1
        have : ¬some net = some n := by simpa using fun h => hn h.symm
        rw [h17, hla, if_neg this]
        omega
      · by_cases g2 : k = q
        · subst g2
          have : ¬some net = some n := by simpa using fun h => hn h.symm
          rw [h18, hlb, if_neg this]
          omega
        · -- another end: neither device has it
          have none_of : ∀ d ∈ l, p ∈ d.pins.map Prod.fst → d.pins.lookup k = none := by
            intro d hd hpd
            rw [lookup_none_iff]
            intro hkd
            unfold stackable at h7
            simp only [Bool.or_eq_true, Bool.and_eq_true, decide_eq_true_eq] at h7
            unfold isEnd at hke
            simp only [Bool.or_eq_true, decide_eq_true_eq] at hke
            rcases hk d hd with hh | hh
            · have e1 := hh p hpd
              have e2 := hh k hkd
              rcases h7 with ((h7 | h7) | h7) | h7 <;> (obtain ⟨rfl, rfl⟩ := h7; simp_all)
            · have e1 := hh p hpd
              have e2 := hh k hkd
              rcases h7 with ((h7 | h7) | h7) | h7 <;> (obtain ⟨rfl, rfl⟩ := h7; simp_all)
          have hpa : p ∈ a.pins.map Prod.fst := List.mem_map.mpr ⟨_, lookup_mem hla, rfl⟩
          have ea := none_of a ha hpa
          have ec : c.pins.lookup k = none := by
            rw [lookup_none_iff, h15, ← lookup_none_iff]; exact ea
          have eb : b.pins.lookup k = none := by
            -- `b` has the end `q`
            have hqb : q ∈ b.pins.map Prod.fst := List.mem_map.mpr ⟨_, lookup_mem hlb, rfl⟩
            rw [lookup_none_iff]
            intro hkd
            unfold stackable at h7
            simp only [Bool.or_eq_true, Bool.and_eq_true, decide_eq_true_eq] at h7
            unfold isEnd at hke
            simp only [Bool.or_eq_true, decide_eq_true_eq] at hke
            rcases hk b hb with hh | hh
            · have e1 := hh q hqb
              have e2 := hh k hkd
              rcases h7 with ((h7 | h7) | h7) | h7 <;> (obtain ⟨rfl, rfl⟩ := h7; simp_all)
            · have e1 := hh q hqb
              have e2 := hh k hkd
              rcases h7 with ((h7 | h7) | h7) | h7 <;> (obtain ⟨rfl, rfl⟩ := h7; simp_all)
          rw [ea, eb, ec]
          simp
    · simp [hm]
  · intro m k n hke
    have hkp : k ≠ p := fun h => by rw [h, hep] at hke; cases hke
    have hkq : k ≠ q := fun h => by rw [h, heq] at hke; cases hke
    have hiff : ∀ d d' : Dev, d.without p q = d'.without p q → (k, n) ∈ d.pins → (k, n) ∈ d'.pins := by
      intro d d' hw hd
      have : (k, n) ∈ d.without p q := mem_without.mpr ⟨hd, hkp, hkq⟩
      rw [hw] at this
      exact (mem_without.mp this).1
    constructor
    · rintro ⟨d, hd, hm, hp⟩
      rcases List.mem_cons.mp (h2.mem_iff.mp hd) with rfl | hd
      · exact ⟨a, ha, by rw [← h12]; exact hm, hiff _ _ h16 hp⟩
      · exact ⟨d, hr d hd, hm, hp⟩
    · rintro ⟨d, hd, hm, hp⟩
      have hc' : c ∈ l' := h2.mem_iff.mpr List.mem_cons_self
      rcases List.mem_cons.mp (h1.mem_iff.mp hd) with rfl | hd
      · exact ⟨c, hc', h12.trans hm, hiff _ _ h16.symm hp⟩
      · rcases List.mem_cons.mp hd with rfl | hd
        · exact ⟨c, hc', (h12.trans h8).trans hm, hiff _ _ (h10.symm.trans h16.symm) hp⟩
        · exact ⟨d, h2.mem_iff.mpr (List.mem_cons_of_mem _ hd), hm, hp⟩

/-- **C44, stacks and nets.**  Merging keeps the number of stacked units of every class of devices, and for every net
that is a port or still there, the ends on it (per model and pin) and which other pins are on it. -/
theorem C44_keeps {ports nets : List String} {l r : List Dev} (hn : (l.map Dev.name).Nodup) (hp : PinsOk l)
    (hk : OneKind l) (hnets : ∀ n ∈ nets, n ∉ ports) (h : addSeries nets l = some r) :
    (∀ c, stackOf r c = stackOf l c) ∧
    (∀ n, (n ∈ ports ∨ netUsed r n) → ∀ m k, isEnd k = true → ends r m k n = ends l m k n) ∧
    ∀ m k n, isEnd k = false → ((∃ d ∈ r, d.model = m ∧ (k, n) ∈ d.pins) ↔ ∃ d ∈ l, d.model = m ∧ (k, n) ∈ d.pins) := by
  have hi : Inv l := ⟨hn, hp⟩
  have hsteps := C44_only_series hn hp hnets h
  clear h hn hp
  have : Inv r ∧ OneKind r ∧ (∀ c, stackOf r c = stackOf l c) ∧ (∀ n, netUsed r n → netUsed l n) ∧
    (∀ n, (n ∈ ports ∨ netUsed r n) → ∀ m k, isEnd k = true → ends r m k n = ends l m k n) ∧
    ∀ m k n, isEnd k = false → ((∃ d ∈ r, d.model = m ∧ (k, n) ∈ d.pins) ↔ ∃ d ∈ l, d.model = m ∧ (k, n) ∈ d.pins) := by
    induction hsteps with
    | refl => exact ⟨hi, hk, fun _ => rfl, fun _ h => h, fun _ _ _ _ _ => rfl, fun _ _ _ _ => Iff.rfl⟩
    | tail _ hs ih =>
      obtain ⟨i1, i2, i3, i4, i5, i6⟩ := ih
      obtain ⟨k1, k2, net, k3, k4, k5, k6, k7⟩ := hs.keeps i1 i2
      refine ⟨hs.inv i1, k1, fun c => (k2 c).trans (i3 c), fun n h => i4 n (k5 n h), ?_, ?_⟩
      · intro n hn m k hke
        have hne : n ≠ net := by
          rintro rfl
          rcases hn with h | h
          · exact k3 h
          · exact k4 h
        rw [k6 m k n hke hne]
        apply i5 n _ m k hke
        rcases hn with h | h
        · exact Or.inl h
        · exact Or.inr (k5 n h)
      · intro m k n hke
        exact (k7 m k n hke).trans (i6 m k n hke)
  exact ⟨this.2.2.1, this.2.2.2.2.1, this.2.2.2.2.2⟩

/-! ## The pass succeeds -/

/-- Devices of one model have the same pins. -/
def SamePins (l : List Dev) : Prop :=
  ∀ a ∈ l, ∀ b ∈ l, a.model = b.model → ∀ k, (k ∈ a.pins.map Prod.fst ↔ k ∈ b.pins.map Prod.fst)

theorem Step.samePins {ports : List String} {l l' : List Dev} (hs : SamePins l) (h : Step ports l l') : SamePins l' := by
  obtain ⟨h1, h2, g3, g4, g5, g6, g7, g8, g9, g10, g11, h12, g13, g14, h15, g16, g17, g18⟩ := h
  rename_i rest a b c net p q
  have ha : a ∈ l := h1.mem_iff.mpr List.mem_cons_self
  have hr : ∀ d ∈ rest, d ∈ l := fun d hd => h1.mem_iff.mpr (List.mem_cons_of_mem _ (List.mem_cons_of_mem _ hd))
  -- every new device has the model and pin names of an old one
  have key : ∀ d ∈ l', ∃ e ∈ l, e.model = d.model ∧ e.pins.map Prod.fst = d.pins.map Prod.fst := by
    intro d hd
    rcases List.mem_cons.mp (h2.mem_iff.mp hd) with rfl | hd
    · exact ⟨a, ha, h12.symm, h15.symm⟩
    · exact ⟨d, hr d hd, rfl, rfl⟩
  intro x hx y hy hxy k
  obtain ⟨x', g1, g2, g3⟩ := key x hx
  obtain ⟨y', f1, f2, f3⟩ := key y hy
  rw [← g3, ← f3]
  exact hs x' g1 y' f1 (by rw [g2, f2, hxy]) k

theorem seriesNet_isSome {l : List Dev} (hs : SamePins l) {net : String} (hu : netUsed l net) :
    (seriesNet l net).isSome := by
  unfold seriesNet
  split
  · rename_i hsort
    exfalso
    obtain ⟨d, hd, x, hx, hxn⟩ := hu
    have : d ∈ users l net := by unfold users; simp only [List.mem_filter, List.any_eq_true]; exact ⟨hd, x, hx, by simpa using hxn⟩
    rw [← mem_pySort (le := fun a b : Dev => decide (a.name ≤ b.name)), hsort] at this
    simp at this
  · rename_i a b hsort
    have hmem : ∀ d, d = a ∨ d = b → d ∈ l := by
      intro d hd
      have : d ∈ users l net := by
        rw [← mem_pySort (le := fun a b : Dev => decide (a.name ≤ b.name)), hsort]
        simpa using hd
      exact (List.mem_filter.mp this).1
    unfold mergeTwo
    split
    · rfl
    · split
      · rfl
      · rename_i hmodel
        split
        · rename_i p q hpa hqb
          split
          · rfl
          · split
            · rename_i hlook
              exfalso
              have hmodel' : a.model = b.model := by simpa using hmodel
              have hpa' : p ∈ a.pins.map Prod.fst := List.mem_map.mpr ⟨_, mem_pinsOn.mp (by rw [hpa]; simp), rfl⟩
              have hqb' : q ∈ b.pins.map Prod.fst := List.mem_map.mpr ⟨_, mem_pinsOn.mp (by rw [hqb]; simp), rfl⟩
              have hiff := hs a (hmem a (Or.inl rfl)) b (hmem b (Or.inr rfl)) hmodel'
              simp only [Bool.or_eq_true, Option.isNone_iff_eq_none, lookup_none_iff] at hlook
              rcases hlook with h | h
              · exact h ((hiff q).mpr hqb')
              · exact h ((hiff p).mp hpa')
            · split <;> rfl
        · rfl
  · rfl

/-- A merge on a net removes no other net. -/
theorem seriesNet_used {l r : List Dev} (hi : Inv l) {net : String} (h : seriesNet l net = some r) {n : String}
    (hn : n ≠ net) (hu : netUsed l n) : netUsed r n := by
  unfold seriesNet at h
  split at h
  · cases h
  · rename_i a b hsort
    have hperm := pySort_perm (le := fun a b : Dev => decide (a.name ≤ b.name)) (users l net)
    rw [hsort] at hperm
    have hln : l.Nodup := List.Nodup.of_map _ hi.names
    have hund : (users l net).Nodup := hln.filter _
    have hab : a ≠ b := by
      rintro rfl
      have := hperm.nodup_iff.mpr hund
      simp at this
    have hmem : ∀ d, d = a ∨ d = b → d ∈ l := by
      intro d hd
      have : d ∈ users l net := by rw [← hperm.mem_iff]; simpa using hd
      exact (List.mem_filter.mp this).1
    have ha := hmem a (Or.inl rfl)
    have hb := hmem b (Or.inr rfl)
    unfold mergeTwo at h
    split at h
    · simp only [Option.some.injEq] at h; subst h; exact hu
    · split at h
      · simp only [Option.some.injEq] at h; subst h; exact hu
      · split at h
        · rename_i p q hpa hqb
          split at h
          · simp only [Option.some.injEq] at h; subst h; exact hu
          · rename_i hpq
            split at h
            · cases h
            · rename_i hlook
              split at h
              · rename_i hcond
                simp only [Option.some.injEq] at h
                subst h
                obtain ⟨o, ho⟩ : ∃ o, b.pins.lookup p = some o := by
                  cases hl : b.pins.lookup p with
                  | none => rw [hl] at hlook; simp at hlook
                  | some o => exact ⟨o, rfl⟩
                obtain ⟨m1, m2, m3, m4⟩ := merged_pins (hi.pins a ha) hpa hpq ho
                obtain ⟨rest, r1, r2, r3⟩ := perm_two hln ha hb hab
                have hbc : b ≠ merged a b net := by
                  intro he
                  have : b.name = a.name := by rw [he]; rfl
                  exact hab (name_inj hi.names hb ha this).symm
                have r3 := (r3 (merged a b net)).resolve_right hbc
                have hcm := r3.mem_iff.mpr (List.mem_cons_self : merged a b net ∈ merged a b net :: rest)
                obtain ⟨d, hd, x, hx, hxn⟩ := hu
                by_cases hda : d = a
                · subst hda
                  refine ⟨merged d b net, hcm, x, ?_, hxn⟩
                  simp only [merged, List.mem_map]
                  exact ⟨x, hx, by rw [if_neg (fun h => hn (hxn.symm.trans h))]⟩
                · by_cases hdb : d = b
                  · subst hdb
                    refine ⟨merged a d net, hcm, ?_⟩
                    by_cases g1 : x.1 = p
                    · have : d.pins.lookup p = some x.2 := mem_lookup (hi.pins d hb) (by rw [← g1]; exact hx)
                      rw [ho] at this
                      simp only [Option.some.injEq] at this
                      exact ⟨(p, o), lookup_mem m3, by rw [this, hxn]⟩
                    · have g2 : x.1 ≠ q := by
                        intro g2
                        have h1 := pinsOn_lookup (hi.pins d hb) hqb
                        have h2 : d.pins.lookup q = some x.2 := mem_lookup (hi.pins d hb) (by rw [← g2]; exact hx)
                        rw [h1] at h2
                        simp only [Option.some.injEq] at h2
                        exact hn (hxn.symm.trans h2.symm)
                      have : x ∈ d.without p q := mem_without.mpr ⟨hx, g1, g2⟩
                      rw [← hcond.1, ← m2] at this
                      exact ⟨x, (mem_without.mp this).1, hxn⟩
                  · exact ⟨d, r3.mem_iff.mpr (List.mem_cons_of_mem _ ((r2 d).mpr ⟨hd, hda, hdb⟩)), x, hx, hxn⟩
              · simp only [Option.some.injEq] at h; subst h; exact hu
        · simp only [Option.some.injEq] at h; subst h; exact hu
  · simp only [Option.some.injEq] at h; subst h; exact hu

/-- **C44, success.**  If the nets are distinct nets of the circuit and devices of one model have the same pins, the pass
succeeds: no net it still has to visit disappears. -/
theorem C44_exists {nets : List String} {l : List Dev} (hn : (l.map Dev.name).Nodup) (hp : PinsOk l) (hs : SamePins l)
    (hnd : nets.Nodup) (hnets : ∀ n ∈ nets, netUsed l n) : (addSeries nets l).isSome := by
  have hi : Inv l := ⟨hn, hp⟩
  clear hn hp
  unfold addSeries
  induction nets generalizing l with
  | nil => rfl
  | cons n nets ih =>
    rw [List.nodup_cons] at hnd
    rw [List.foldlM_cons]
    obtain ⟨m, hm⟩ := Option.isSome_iff_exists.mp (seriesNet_isSome hs (hnets n List.mem_cons_self))
    rw [hm, Option.bind_eq_bind, Option.bind_some]
    have hstep := seriesNet_step (ports := []) hi (by simp) hm
    apply ih
    · rcases hstep with rfl | h
      · exact hs
      · exact h.samePins hs
    · exact hnd.2
    · intro k hk
      exact seriesNet_used hi hm (fun h => hnd.1 (h ▸ hk)) (hnets k (List.mem_cons_of_mem _ hk))
    · rcases hstep with rfl | h
      · exact hi
      · exact h.inv hi

/-! ### A non-trivial case -/

/-- Three devices in series between `a` and `b`, and one from `b`. -/
def exSer : List Dev :=
  [⟨"M1", "N", [("D", "a"), ("G", "g"), ("S", "x")], some 1, [("W", "1")]⟩,
   ⟨"M3", "N", [("D", "y"), ("G", "g"), ("S", "b")], some 1, [("W", "1")]⟩,
   ⟨"M2", "N", [("D", "x"), ("G", "g"), ("S", "y")], some 2, [("W", "1")]⟩,
   ⟨"M4", "N", [("D", "b"), ("G", "h"), ("S", "c")], some 1, [("W", "1")]⟩]

example : addSeries ["y", "x", "b"] exSer =
    some [⟨"M1", "N", [("D", "a"), ("G", "g"), ("S", "b")], some 4, [("W", "1")]⟩,
      ⟨"M4", "N", [("D", "b"), ("G", "h"), ("S", "c")], some 1, [("W", "1")]⟩] := by decide +kernel

example : (exSer.map Dev.name).Nodup ∧ PinsOk exSer ∧ OneKind exSer := by
  unfold PinsOk OneKind; decide +kernel

example : SamePins exSer ∧ ∀ n ∈ ["y", "x", "b"], netUsed exSer n := by
  constructor
  · intro a ha b hb _ k
    simp only [exSer, List.mem_cons, List.not_mem_nil, or_false] at ha hb
    rcases ha with rfl | rfl | rfl | rfl <;> rcases hb with rfl | rfl | rfl | rfl <;> exact Iff.rfl
  · unfold netUsed; decide +kernel

end Verif.Pre.Series

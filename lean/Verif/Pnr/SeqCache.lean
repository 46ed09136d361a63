import Mathlib.Data.Nat.Factorial.Basic
import Mathlib.Data.List.Perm.Basic

/-!
# C116: the cache of sequence pairs

The annealing of the placer remembers the cost of sequence pairs it has seen (`placer/design.cpp` 2006-2100, `design.h` 205-208,
`SeqPair.h` 137-138). Sequences of at most twelve blocks are turned into numbers by the factorial number system, longer ones and the
choices of variants are numbered as they come.

Simplifications: the maps of the standard library are lists of pairs of which the first counts; costs are of any type, as they are only
stored and returned; logging is left out.
-/

namespace Verif.SeqCache
open Nat

/-! ## The code -/

/-- One more than the largest `size_t`. -/
def W : Nat := 2 ^ 64

/-- `ULONG_MAX`. -/
def none64 : Nat := W - 1

/-- `std::map::find`. -/
def get {κ β : Type} [DecidableEq κ] (k : κ) : List (κ × β) → Option β
  | [] => none
  | e :: l => if e.1 = k then some e.2 else get k l

/-- The members of `design` which make up the cache (`design.h` 205-208). -/
structure Cache (α : Type) where
  fact : List Nat
  seqs : List (List Int × Nat)
  sels : List (List Int × Nat)
  costs : List ((Nat × Nat × Nat) × α)

/-- The loop that makes `_factorial` longer (2009-2014, 2040-2045), `k` more rounds. -/
def grow : Nat → List Nat → List Nat
  | 0, f => f
  | k + 1, f => grow k (f ++ [match f.getLast? with | some b => f.length * b % W | none => 1])

/-- The loop over the sequence (2017-2022, 2048-2053). The last element is not visited; of an empty sequence the loop reads beyond the
end. -/
def code (fact : List Nat) : Nat → List Int → Option Nat
  | _, [] => none
  | ind, [_] => some ind
  | ind, a :: b :: l =>
    if ((b :: l).filter (fun c => decide (c < a))).length = 0 then code fact ind (b :: l)
    else match fact[(b :: l).length]? with
      | none => none
      | some f => code fact ((ind + f * ((b :: l).filter (fun c => decide (c < a))).length % W) % W) (b :: l)

/-- `getSeqIndex` (2006-2034). -/
def seqIndex {α : Type} (c : Cache α) (seq : List Int) : Option (Cache α × Nat) :=
  if seq.length ≤ 12 then
    (code (grow (seq.length - c.fact.length) c.fact) 0 seq).map (fun i => ({ c with fact := grow (seq.length - c.fact.length) c.fact }, i))
  else match get seq c.seqs with
    | some i => some (c, i)
    | none => some ({ c with seqs := c.seqs ++ [(seq, c.seqs.length)] }, c.seqs.length)

/-- `getSeqIndex` of a constant design (2036-2059), which makes `_factorial` longer all the same. -/
def seqIndexConst {α : Type} (c : Cache α) (seq : List Int) : Option (Cache α × Nat) :=
  if seq.length ≤ 12 then
    (code (grow (seq.length - c.fact.length) c.fact) 0 seq).map (fun i => ({ c with fact := grow (seq.length - c.fact.length) c.fact }, i))
  else some (c, (get seq c.seqs).getD none64)

/-- `getSelIndex` (2061-2072). -/
def selIndex {α : Type} (c : Cache α) (sel : List Int) : Cache α × Nat :=
  match get sel c.sels with
  | some i => (c, i)
  | none => ({ c with sels := c.sels ++ [(sel, c.sels.length)] }, c.sels.length)

/-- `getSelIndex` of a constant design (2074-2079). -/
def selIndexConst {α : Type} (c : Cache α) (sel : List Int) : Nat := (get sel c.sels).getD none64

/-- `cacheSeq` (2081-2088). -/
def cacheSeq {α : Type} (c : Cache α) (p n sel : List Int) (cost : α) : Option (Cache α) :=
  match seqIndex c p with
  | none => none
  | some (c₁, i) =>
    match seqIndex c₁ n with
    | none => none
    | some (c₂, j) =>
      let q := selIndex c₂ sel
      some { q.1 with costs := ((i, j, q.2), cost) :: q.1.costs }

/-- `isSeqInCache` (2090-2101): the cost, if the answer is yes. -/
def isSeqInCache {α : Type} (use : Bool) (c : Cache α) (p n sel : List Int) : Option (Cache α × Option α) :=
  if use = false then some (c, none)
  else match seqIndexConst c p with
    | none => none
    | some (c₁, i) =>
      match seqIndexConst c₁ n with
      | none => none
      | some (c₂, j) =>
        let k := selIndexConst c₂ sel
        if i ≠ none64 ∧ j ≠ none64 ∧ k ≠ none64 then some (c₂, get (i, j, k) c₂.costs) else some (c₂, none)

/-- A use of the cache. -/
inductive Op (α : Type) where
  | store (p n sel : List Int) (cost : α)
  | ask (p n sel : List Int)

/-- The cache after one use; `none` is a fault. -/
def step {α : Type} (use : Bool) (c : Cache α) : Op α → Option (Cache α)
  | .store p n sel cost => cacheSeq c p n sel cost
  | .ask p n sel => (isSeqInCache use c p n sel).map (fun q => q.1)

/-- The cache after uses, from that of a new design. -/
def after {α : Type} (use : Bool) (ops : List (Op α)) : Option (Cache α) := ops.foldlM (step use) ⟨[], [], [], []⟩

/-! ## What the property says -/

/-- The cost last stored for a pair and a choice of variants. -/
def lastStored {α : Type} (p n sel : List Int) : List (Op α) → Option α
  | [] => none
  | .store p' n' sel' cost :: ops =>
    match lastStored p n sel ops with
    | some v => some v
    | none => if p = p' ∧ n = n' ∧ sel = sel' then some cost else none
  | .ask _ _ _ :: ops => lastStored p n sel ops

/-- Uses with the blocks of one design: both sequences are orders of the same blocks. -/
def Fits {α : Type} (blocks : List Int) : Op α → Prop
  | .store p n _ _ => p.Perm blocks ∧ n.Perm blocks
  | .ask p n _ => p.Perm blocks ∧ n.Perm blocks

/-! ## Proofs -/

/-- The number of an order, by factorials. -/
def lehmer : List Int → Nat
  | [] => 0
  | a :: l => (l.filter (fun b => decide (b < a))).length * l.length ! + lehmer l

theorem lehmer_lt : ∀ l : List Int, lehmer l < l.length !
  | [] => by simp [lehmer]
  | a :: l => by
    have h := lehmer_lt l
    have h1 : (l.filter (fun b => decide (b < a))).length ≤ l.length := List.length_filter_le _ _
    have h2 := Nat.mul_le_mul_right (l.length !) h1
    simp only [lehmer, List.length_cons, Nat.factorial_succ, Nat.add_mul, Nat.one_mul]
    omega

theorem filter_lt {a b : Int} (h : a < b) : ∀ {m : List Int}, a ∈ m →
    (m.filter (fun c => decide (c < a))).length < (m.filter (fun c => decide (c < b))).length := by
  have le : ∀ m : List Int, (m.filter (fun c => decide (c < a))).length ≤ (m.filter (fun c => decide (c < b))).length := by
    intro m
    induction m with
    | nil => simp
    | cons x m ih =>
      by_cases h1 : x < a
      · simp [h1, (by omega : x < b)]; exact ih
      · by_cases h2 : x < b
        · simp [h1, h2]; omega
        · simp [h1, h2]; exact ih
  intro m
  induction m with
  | nil => intro hm; simp at hm
  | cons x m ih =>
    intro hm
    rcases List.mem_cons.1 hm with e | hm
    · subst e
      have := le m
      simp [h]; omega
    · have := ih hm
      by_cases h1 : x < a
      · simp [h1, (by omega : x < b)]; exact this
      · by_cases h2 : x < b
        · simp [h1, h2]; omega
        · simp [h1, h2]; exact this

theorem lehmer_inj : ∀ {l l' : List Int}, l.Nodup → l.Perm l' → lehmer l = lehmer l' → l = l'
  | [], l', _, hp, _ => by rw [List.nil_perm.1 hp]
  | a :: l, [], _, hp, _ => by simp at hp
  | a :: l, a' :: l', hn, hp, he => by
    have hlen : l.length = l'.length := by have := hp.length_eq; simpa using this
    simp only [lehmer] at he
    rw [← hlen] at he
    have h1 := lehmer_lt l
    have h2 := lehmer_lt l'
    rw [← hlen] at h2
    have hpos := Nat.factorial_pos l.length
    generalize hc : (l.filter (fun b => decide (b < a))).length = c at he
    generalize hc' : (l'.filter (fun b => decide (b < a'))).length = c' at he
    have hcc : c = c' := by
      have e1 : (c * l.length ! + lehmer l) / l.length ! = c := by
        rw [Nat.mul_comm, Nat.mul_add_div hpos, Nat.div_eq_of_lt h1, Nat.add_zero]
      have e2 : (c' * l.length ! + lehmer l') / l.length ! = c' := by
        rw [Nat.mul_comm, Nat.mul_add_div hpos, Nat.div_eq_of_lt h2, Nat.add_zero]
      rw [← e1, ← e2, he]
    have hr : lehmer l = lehmer l' := by rw [hcc] at he; omega
    have g1 : ((a' :: l').filter (fun b => decide (b < a))).length = c := by
      rw [← (hp.filter _).length_eq, ← hc]
      simp
    have g2 : ((a' :: l').filter (fun b => decide (b < a'))).length = c' := by
      rw [← hc']
      simp
    have ha : a = a' := by
      rcases Int.lt_trichotomy a a' with h | h | h
      · have := filter_lt h (hp.mem_iff.1 List.mem_cons_self)
        omega
      · exact h
      · have := filter_lt h (m := a' :: l') List.mem_cons_self
        omega
    subst ha
    have hp' := (List.perm_cons a).1 hp
    rw [lehmer_inj (List.nodup_cons.1 hn).2 hp' hr]

/-- The numbers in `_factorial` are right. -/
def Facts (f : List Nat) : Prop := f.length ≤ 12 ∧ ∀ i, i < f.length → f[i]? = some (i !)

theorem facts_grow : ∀ {k : Nat} {f : List Nat}, Facts f → f.length + k ≤ 12 → Facts (grow k f) ∧ (grow k f).length = f.length + k
  | 0, f, h, _ => ⟨h, rfl⟩
  | k + 1, f, h, hk => by
    unfold grow
    have h12 : (12 : Nat)! < W := by decide
    generalize hx : (match f.getLast? with | some b => f.length * b % W | none => 1) = x
    have hxe : x = f.length ! := by
      by_cases h0 : f.length = 0
      · have : f = [] := List.length_eq_zero_iff.1 h0
        rw [this] at hx ⊢
        simpa using hx.symm
      · have hl : f.getLast? = some ((f.length - 1)!) := by
          rw [List.getLast?_eq_getElem?]
          exact h.2 _ (by omega)
        rw [hl] at hx
        simp only at hx
        rw [← hx, Nat.mul_factorial_pred (by omega)]
        exact Nat.mod_eq_of_lt (Nat.lt_of_le_of_lt (Nat.factorial_le h.1) h12)
    have hf : Facts (f ++ [x]) := by
      refine ⟨by rw [List.length_append]; simp; omega, fun i hi => ?_⟩
      rw [List.length_append] at hi
      simp at hi
      by_cases e : i < f.length
      · rw [List.getElem?_append_left e]; exact h.2 i e
      · rw [show i = f.length by omega, List.getElem?_append_right (Nat.le_refl _), hxe]; simp
    obtain ⟨h1, h2⟩ := facts_grow (k := k) hf (by rw [List.length_append]; simp; omega)
    exact ⟨h1, by rw [h2, List.length_append]; simp; omega⟩

theorem code_eq {f : List Nat} (hf : Facts f) : ∀ {l : List Int} {ind : Nat}, l ≠ [] → l.length ≤ f.length → ind + lehmer l < W →
    code f ind l = some (ind + lehmer l)
  | [], _, h, _, _ => absurd rfl h
  | [a], ind, _, _, _ => by simp [code, lehmer]
  | a :: b :: l, ind, _, hl, hw => by
    have hl : (b :: l).length + 1 ≤ f.length := hl
    unfold code
    rw [lehmer] at hw ⊢
    generalize hc : ((b :: l).filter (fun c => decide (c < a))).length = c at hw ⊢
    by_cases h0 : c = 0
    · rw [if_pos h0]
      rw [h0, Nat.zero_mul, Nat.zero_add] at hw ⊢
      exact code_eq hf (by simp) (by omega) hw
    · rw [if_neg h0, hf.2 (b :: l).length (by omega)]
      simp only
      rw [Nat.mul_comm, Nat.mod_eq_of_lt (show c * (b :: l).length ! < W by omega),
        Nat.mod_eq_of_lt (show ind + c * (b :: l).length ! < W by omega), code_eq hf (by simp) (by omega) (by omega)]
      rw [Nat.add_assoc]

/-- A numbering: keys are numbered from zero, each once. -/
def Numbered (m : List (List Int × Nat)) : Prop := ∀ k i, get k m = some i ↔ m[i]? = some (k, i)

theorem get_append {κ β : Type} [DecidableEq κ] (k : κ) : ∀ (l l' : List (κ × β)), get k (l ++ l') = (get k l).or (get k l')
  | [], _ => rfl
  | e :: l, l' => by
    show (if e.1 = k then some e.2 else get k (l ++ l')) = (if e.1 = k then some e.2 else get k l).or (get k l')
    by_cases h : e.1 = k
    · rw [if_pos h, if_pos h]; rfl
    · rw [if_neg h, if_neg h, get_append k l l']

theorem numbered_nil : Numbered [] := fun k i => by simp [get]

theorem numbered_lt {m : List (List Int × Nat)} (h : Numbered m) {k : List Int} {i : Nat} (hk : get k m = some i) : i < m.length := by
  have := (h k i).1 hk
  exact (List.getElem?_eq_some_iff.1 this).1

theorem numbered_inj {m : List (List Int × Nat)} (h : Numbered m) {k k' : List Int} {i : Nat} (hk : get k m = some i) (hk' : get k' m = some i) :
    k = k' := by
  have e := ((h k i).1 hk).symm.trans ((h k' i).1 hk')
  exact (Prod.mk.inj (Option.some.inj e)).1

theorem numbered_add {m : List (List Int × Nat)} (h : Numbered m) {k : List Int} (hk : get k m = none) :
    Numbered (m ++ [(k, m.length)]) ∧ get k (m ++ [(k, m.length)]) = some m.length
      ∧ ∀ k' i, get k' m = some i → get k' (m ++ [(k, m.length)]) = some i := by
  have h3 : ∀ k' i, get k' m = some i → get k' (m ++ [(k, m.length)]) = some i := fun k' i e => by rw [get_append, e]; rfl
  have h2 : get k (m ++ [(k, m.length)]) = some m.length := by rw [get_append, hk]; simp [get]
  refine ⟨?_, h2, h3⟩
  intro k' i
  by_cases hi : i < m.length
  · rw [List.getElem?_append_left hi, ← h k' i]
    refine ⟨fun e => ?_, h3 k' i⟩
    rw [get_append] at e
    cases hg : get k' m with
    | some j => rw [hg] at e; simpa using e
    | none =>
      rw [hg] at e
      have e : get k' [(k, m.length)] = some i := by simpa using e
      unfold get at e
      by_cases hkk : k = k'
      · rw [if_pos hkk] at e
        have : m.length = i := Option.some.inj e
        omega
      · rw [if_neg hkk] at e; simp [get] at e
  · constructor
    · intro e
      rw [get_append] at e
      cases hg : get k' m with
      | some j =>
        rw [hg] at e
        have e : j = i := by simpa using e
        have := numbered_lt h hg
        omega
      | none =>
        rw [hg] at e
        have e : get k' [(k, m.length)] = some i := by simpa using e
        unfold get at e
        by_cases hkk : k = k'
        · rw [if_pos hkk] at e
          have e : m.length = i := Option.some.inj e
          rw [← e, hkk]; simp
        · rw [if_neg hkk] at e; simp [get] at e
    · intro e
      by_cases hi' : i = m.length
      · rw [hi'] at e ⊢
        have e : k = k' := by simpa using e
        rw [← e]; exact h2
      · rw [List.getElem?_eq_none (by rw [List.length_append]; simp; omega)] at e
        simp at e

/-- The number of a sequence. -/
def Idx {α : Type} (c : Cache α) (seq : List Int) (i : Nat) : Prop :=
  if seq.length ≤ 12 then i = lehmer seq else get seq c.seqs = some i

/-- What holds of the tables of numbers after at most `m` new numbers. -/
structure Tables {α : Type} (m : Nat) (c : Cache α) : Prop where
  facts : Facts c.fact
  seqs : Numbered c.seqs
  sels : Numbered c.sels
  small : c.seqs.length ≤ m ∧ c.sels.length ≤ m

/-- Numbers stay what they are. -/
def Keeps {α : Type} (c c' : Cache α) : Prop :=
  c'.costs = c.costs ∧ (∀ q i, Idx c q i → Idx c' q i) ∧ ∀ q i, get q c.sels = some i → get q c'.sels = some i

theorem keeps_trans {α : Type} {a b c : Cache α} (h : Keeps a b) (h' : Keeps b c) : Keeps a c :=
  ⟨h'.1.trans h.1, fun q i k => h'.2.1 q i (h.2.1 q i k), fun q i k => h'.2.2 q i (h.2.2 q i k)⟩

theorem idx_inj {α : Type} {m : Nat} {c : Cache α} (h : Tables m c) {blocks p q : List Int} (hn : blocks.Nodup) (hp : p.Perm blocks)
    (hq : q.Perm blocks) {i : Nat} (h1 : Idx c p i) (h2 : Idx c q i) : p = q := by
  unfold Idx at h1 h2
  have hl : p.length = q.length := hp.length_eq.trans hq.length_eq.symm
  by_cases h12 : p.length ≤ 12
  · rw [if_pos h12] at h1
    rw [if_pos (by omega)] at h2
    exact lehmer_inj (hp.symm.nodup hn) (hp.trans hq.symm) (h1.symm.trans h2)
  · rw [if_neg h12] at h1
    rw [if_neg (by omega)] at h2
    exact numbered_inj h.seqs h1 h2

theorem idx_fun {α : Type} {c : Cache α} {q : List Int} {i j : Nat} (h1 : Idx c q i) (h2 : Idx c q j) : i = j := by
  unfold Idx at h1 h2
  by_cases h12 : q.length ≤ 12
  · rw [if_pos h12] at h1 h2; rw [h1, h2]
  · rw [if_neg h12] at h1 h2; rw [h1] at h2; exact Option.some.inj h2

theorem grown {f : List Nat} (h : Facts f) {n : Nat} (hn : n ≤ 12) : Facts (grow (n - f.length) f) ∧ n ≤ (grow (n - f.length) f).length := by
  have h0 := h.1
  obtain ⟨h1, h2⟩ := facts_grow (k := n - f.length) h (by omega)
  exact ⟨h1, by omega⟩

theorem small12 {l : List Int} (h : l.length ≤ 12) : lehmer l < none64 := by
  have h1 := lehmer_lt l
  have h2 := Nat.factorial_le h
  have h3 : (12 : Nat)! < none64 := by decide
  omega

theorem seqIndex_spec {α : Type} {m : Nat} {c : Cache α} (h : Tables m c) {q : List Int} (hq : q ≠ []) :
    ∃ c' i, seqIndex c q = some (c', i) ∧ Tables (m + 1) c' ∧ Keeps c c' ∧ Idx c' q i := by
  unfold seqIndex
  by_cases h12 : q.length ≤ 12
  · rw [if_pos h12]
    obtain ⟨g1, g2⟩ := grown h.facts h12
    have hs := small12 h12
    have hw : 0 + lehmer q < W := by unfold none64 at hs; omega
    rw [code_eq g1 hq g2 hw]
    refine ⟨_, _, rfl, ⟨g1, h.seqs, h.sels, ⟨Nat.le_succ_of_le h.small.1, Nat.le_succ_of_le h.small.2⟩⟩, ⟨rfl, fun _ _ k => k, fun _ _ k => k⟩, ?_⟩
    unfold Idx
    rw [if_pos h12, Nat.zero_add]
  · rw [if_neg h12]
    have hsm := h.small
    cases hg : get q c.seqs with
    | some i =>
      refine ⟨c, i, rfl, ⟨h.facts, h.seqs, h.sels, by omega, by omega⟩, ⟨rfl, fun _ _ k => k, fun _ _ k => k⟩, ?_⟩
      unfold Idx
      rw [if_neg h12]; exact hg
    | none =>
      obtain ⟨n1, n2, n3⟩ := numbered_add h.seqs hg
      refine ⟨_, _, rfl, ⟨h.facts, n1, h.sels, by simp; omega, Nat.le_succ_of_le hsm.2⟩, ⟨rfl, ?_, fun _ _ k => k⟩, ?_⟩
      · intro q' i k
        unfold Idx at k ⊢
        by_cases k12 : q'.length ≤ 12
        · rw [if_pos k12] at k ⊢; exact k
        · rw [if_neg k12] at k ⊢; exact n3 q' i k
      · unfold Idx
        rw [if_neg h12]; exact n2

/-- The question for a number changes nothing but `_factorial`. -/
theorem seqIndexConst_spec {α : Type} {m : Nat} {c : Cache α} (h : Tables m c) (hm : m < none64) {q : List Int} (hq : q ≠ []) :
    ∃ c' i, seqIndexConst c q = some (c', i) ∧ Tables m c' ∧ (c'.costs = c.costs ∧ c'.seqs = c.seqs ∧ c'.sels = c.sels)
      ∧ ((i ≠ none64 ∧ Idx c q i) ∨ (i = none64 ∧ ∀ j, ¬ Idx c q j)) := by
  unfold seqIndexConst
  by_cases h12 : q.length ≤ 12
  · rw [if_pos h12]
    obtain ⟨g1, g2⟩ := grown h.facts h12
    have hs := small12 h12
    have hw : 0 + lehmer q < W := by unfold none64 at hs; omega
    rw [code_eq g1 hq g2 hw]
    refine ⟨_, _, rfl, ⟨g1, h.seqs, h.sels, h.small⟩, ⟨rfl, rfl, rfl⟩, Or.inl ⟨by omega, ?_⟩⟩
    unfold Idx
    rw [if_pos h12, Nat.zero_add]
  · rw [if_neg h12]
    refine ⟨_, _, rfl, h, ⟨rfl, rfl, rfl⟩, ?_⟩
    unfold Idx
    simp only [if_neg h12]
    cases hg : get q c.seqs with
    | some i =>
      have := numbered_lt h.seqs hg
      have := h.small
      exact Or.inl ⟨by simp; omega, rfl⟩
    | none => exact Or.inr ⟨rfl, fun j => by simp⟩

theorem selIndex_spec {α : Type} {m : Nat} {c : Cache α} (h : Tables m c) (q : List Int) :
    Tables (m + 1) (selIndex c q).1 ∧ Keeps c (selIndex c q).1 ∧ get q (selIndex c q).1.sels = some (selIndex c q).2 := by
  unfold selIndex
  have hsm := h.small
  cases hg : get q c.sels with
  | some i => exact ⟨⟨h.facts, h.seqs, h.sels, by simp only; omega, by simp only; omega⟩, ⟨rfl, fun _ _ k => k, fun _ _ k => k⟩, hg⟩
  | none =>
    obtain ⟨n1, n2, n3⟩ := numbered_add h.sels hg
    exact ⟨⟨h.facts, h.seqs, n1, by simp only; omega, by simp; omega⟩, ⟨rfl, fun _ _ k => k, fun q i k => n3 q i k⟩, n2⟩

/-- What holds of the cache after uses. -/
structure Inv {α : Type} (blocks : List Int) (ops : List (Op α)) (c : Cache α) : Prop where
  tables : Tables (3 * ops.length) c
  sound : ∀ k v, get k c.costs = some v → ∃ p n sel, (p.Perm blocks ∧ n.Perm blocks) ∧ Idx c p k.1 ∧ Idx c n k.2.1
    ∧ get sel c.sels = some k.2.2 ∧ lastStored p n sel ops = some v
  full : ∀ p n sel v, lastStored p n sel ops = some v → (p.Perm blocks ∧ n.Perm blocks) ∧ ∃ k, Idx c p k.1 ∧ Idx c n k.2.1
    ∧ get sel c.sels = some k.2.2 ∧ get k c.costs = some v

theorem lastStored_store {α : Type} (p n sel p' n' sel' : List Int) (v : α) : ∀ ops : List (Op α),
    lastStored p n sel (ops ++ [.store p' n' sel' v]) = if p = p' ∧ n = n' ∧ sel = sel' then some v else lastStored p n sel ops
  | [] => by
    simp only [List.nil_append, lastStored]
  | .store a b d w :: ops => by
    simp only [List.cons_append, lastStored, lastStored_store p n sel p' n' sel' v ops]
    by_cases h : p = p' ∧ n = n' ∧ sel = sel'
    · simp only [if_pos h]
    · simp only [if_neg h]
  | .ask a b d :: ops => by
    simp only [List.cons_append, lastStored, lastStored_store p n sel p' n' sel' v ops]

theorem lastStored_ask {α : Type} (p n sel p' n' sel' : List Int) : ∀ ops : List (Op α),
    lastStored p n sel (ops ++ [.ask p' n' sel']) = lastStored p n sel ops
  | [] => rfl
  | .store a b d w :: ops => by simp only [List.cons_append, lastStored, lastStored_ask p n sel p' n' sel' ops]
  | .ask a b d :: ops => by simp only [List.cons_append, lastStored, lastStored_ask p n sel p' n' sel' ops]

theorem nonempty_of {blocks p : List Int} (hb : blocks ≠ []) (hp : p.Perm blocks) : p ≠ [] := by
  intro e
  rw [e] at hp
  exact hb (List.nil_perm.1 hp)

theorem inv_store {α : Type} {blocks : List Int} (hn : blocks.Nodup) (hb : blocks ≠ []) {ops : List (Op α)} {c : Cache α}
    (h : Inv blocks ops c) {p n sel : List Int} {v : α} (hp : p.Perm blocks) (hnn : n.Perm blocks) :
    ∃ c', cacheSeq c p n sel v = some c' ∧ Inv blocks (ops ++ [.store p n sel v]) c' := by
  unfold cacheSeq
  obtain ⟨c₁, i, e1, t1, k1, x1⟩ := seqIndex_spec h.tables (nonempty_of hb hp)
  obtain ⟨c₂, j, e2, t2, k2, x2⟩ := seqIndex_spec t1 (nonempty_of hb hnn)
  obtain ⟨t3, k3, x3⟩ := selIndex_spec t2 sel
  simp only [e1, e2]
  refine ⟨_, rfl, ?_⟩
  have x1' := k3.2.1 _ _ (k2.2.1 _ _ x1)
  have x2' := k3.2.1 _ _ x2
  have kk := keeps_trans k1 (keeps_trans k2 k3)
  generalize selIndex c₂ sel = q at t3 k3 x3 x1' x2' kk
  have hidx : ∀ (s : List Int) (a : Nat), Idx ({ q.1 with costs := ((i, j, q.2), v) :: q.1.costs } : Cache α) s a ↔ Idx q.1 s a := fun _ _ => Iff.rfl
  constructor
  · refine ⟨t3.facts, t3.seqs, t3.sels, ?_⟩
    have := t3.small
    rw [List.length_append]
    simp only [List.length_singleton]
    exact ⟨by omega, by omega⟩
  · intro k w hk
    simp only [hidx]
    have hk : get k (((i, j, q.2), v) :: q.1.costs) = some w := hk
    unfold get at hk
    by_cases e : (i, j, q.2) = k
    · rw [if_pos e] at hk
      refine ⟨p, n, sel, ⟨hp, hnn⟩, ?_⟩
      rw [← e]
      exact ⟨x1', x2', x3, by rw [lastStored_store, if_pos ⟨rfl, rfl, rfl⟩]; exact hk⟩
    · rw [if_neg e] at hk
      rw [kk.1] at hk
      obtain ⟨p', n', sel', hper, y1, y2, y3, y4⟩ := h.sound k w hk
      have y1' := kk.2.1 _ _ y1
      have y2' := kk.2.1 _ _ y2
      have y3' := kk.2.2 _ _ y3
      refine ⟨p', n', sel', hper, y1', y2', y3', ?_⟩
      rw [lastStored_store, if_neg]
      · exact y4
      · rintro ⟨z1, z2, z3⟩
        apply e
        rw [z1] at y1'
        rw [z2] at y2'
        rw [z3] at y3'
        rw [idx_fun x1' y1', idx_fun x2' y2']
        rw [x3] at y3'
        rw [Option.some.inj y3']
  · intro p' n' sel' w hw
    simp only [hidx]
    rw [lastStored_store] at hw
    by_cases e : p' = p ∧ n' = n ∧ sel' = sel
    · rw [if_pos e] at hw
      rw [e.1, e.2.1, e.2.2]
      exact ⟨⟨hp, hnn⟩, (i, j, q.2), x1', x2', x3, by unfold get; rw [if_pos rfl]; exact hw⟩
    · rw [if_neg e] at hw
      obtain ⟨⟨w1, w2⟩, k, y1, y2, y3, y4⟩ := h.full p' n' sel' w hw
      have y1' := kk.2.1 _ _ y1
      have y2' := kk.2.1 _ _ y2
      have y3' := kk.2.2 _ _ y3
      refine ⟨⟨w1, w2⟩, k, y1', y2', y3', ?_⟩
      unfold get
      rw [if_neg]
      · rw [kk.1]; exact y4
      · intro ek
        simp only at ek
        apply e
        rw [← ek] at y1' y2' y3'
        exact ⟨idx_inj t3 hn w1 hp y1' x1', idx_inj t3 hn w2 hnn y2' x2', numbered_inj t3.sels y3' x3⟩

theorem ask_spec {α : Type} {blocks : List Int} (hn : blocks.Nodup) (hb : blocks ≠ []) {ops : List (Op α)} {c : Cache α}
    (h : Inv blocks ops c) (hm : 3 * ops.length < none64) {use : Bool} {p n sel : List Int} (hp : p.Perm blocks) (hnn : n.Perm blocks) :
    ∃ c', isSeqInCache use c p n sel = some (c', if use then lastStored p n sel ops else none)
      ∧ Tables (3 * ops.length) c' ∧ c'.costs = c.costs ∧ c'.seqs = c.seqs ∧ c'.sels = c.sels := by
  unfold isSeqInCache
  cases use with
  | false => exact ⟨c, by simp, h.tables, rfl, rfl, rfl⟩
  | true =>
    obtain ⟨c₁, i, e1, t1, ⟨a1, a2, a3⟩, x1⟩ := seqIndexConst_spec h.tables hm (nonempty_of hb hp)
    obtain ⟨c₂, j, e2, t2, ⟨b1, b2, b3⟩, x2⟩ := seqIndexConst_spec t1 hm (nonempty_of hb hnn)
    simp only [e1, e2]
    rw [if_neg (by decide)]
    have hidx : ∀ (s : List Int) (a : Nat), Idx c₁ s a ↔ Idx c s a := fun s a => by unfold Idx; rw [a2]
    simp only [hidx] at x2
    have hsel : c₂.sels = c.sels := b3.trans a3
    have hcost : c₂.costs = c.costs := b1.trans a1
    have hmiss : (∀ k : Nat × Nat × Nat, ¬ (Idx c p k.1 ∧ Idx c n k.2.1 ∧ get sel c.sels = some k.2.2)) → lastStored p n sel ops = none := by
      intro hk
      cases hl : lastStored p n sel ops with
      | none => rfl
      | some v =>
        obtain ⟨_, k, y1, y2, y3, _⟩ := h.full p n sel v hl
        exact absurd ⟨y1, y2, y3⟩ (hk k)
    have hs : (selIndexConst c₂ sel ≠ none64 ∧ get sel c.sels = some (selIndexConst c₂ sel))
        ∨ (selIndexConst c₂ sel = none64 ∧ get sel c.sels = none) := by
      unfold selIndexConst
      rw [hsel]
      cases hg : get sel c.sels with
      | none => exact Or.inr ⟨rfl, rfl⟩
      | some a =>
        have := numbered_lt h.tables.sels hg
        have := h.tables.small
        exact Or.inl ⟨by simp; omega, rfl⟩
    generalize selIndexConst c₂ sel = d at hs
    simp only [if_true]
    by_cases hall : i ≠ none64 ∧ j ≠ none64 ∧ d ≠ none64
    · rw [if_pos hall]
      have y1 := (x1.resolve_right (fun e => hall.1 e.1)).2
      have y2 := (x2.resolve_right (fun e => hall.2.1 e.1)).2
      have y3 := (hs.resolve_right (fun e => hall.2.2 e.1)).2
      refine ⟨c₂, ?_, t2, hcost, b2.trans a2, hsel⟩
      rw [hcost]
      congr 2
      cases hg : get (i, j, d) c.costs with
      | some v =>
        obtain ⟨p', n', sel', hper, z1, z2, z3, z4⟩ := h.sound _ v hg
        rw [idx_inj h.tables hn hp hper.1 y1 z1, idx_inj h.tables hn hnn hper.2 y2 z2, numbered_inj h.tables.sels y3 z3]
        exact z4.symm
      | none =>
        cases hl : lastStored p n sel ops with
        | none => rfl
        | some v =>
          obtain ⟨_, k, w1, w2, w3, w4⟩ := h.full p n sel v hl
          have hk : k = (i, j, d) := by
            rw [w3] at y3
            obtain ⟨k1, k2, k3⟩ := k
            rw [idx_fun y1 w1, idx_fun y2 w2, ← Option.some.inj y3]
          rw [hk, hg] at w4
          exact w4
    · rw [if_neg hall]
      refine ⟨c₂, ?_, t2, hcost, b2.trans a2, hsel⟩
      rw [hmiss]
      rintro k ⟨k1, k2, k3⟩
      apply hall
      refine ⟨fun e => ?_, fun e => ?_, fun e => ?_⟩
      · exact (x1.resolve_left (fun z => z.1 e)).2 _ k1
      · exact (x2.resolve_left (fun z => z.1 e)).2 _ k2
      · rw [(hs.resolve_left (fun z => z.1 e)).2] at k3; simp at k3

theorem inv_after {α : Type} {blocks : List Int} (hn : blocks.Nodup) (hb : blocks ≠ []) {use : Bool} : ∀ {rest ops : List (Op α)} {c : Cache α},
    Inv blocks ops c → (∀ o ∈ rest, Fits blocks o) → 3 * (ops ++ rest).length < none64 →
    ∃ c', rest.foldlM (step use) c = some c' ∧ Inv blocks (ops ++ rest) c'
  | [], ops, c, h, _, _ => ⟨c, rfl, by rw [List.append_nil]; exact h⟩
  | .store p n sel v :: rest, ops, c, h, hf, hm => by
    obtain ⟨f1, f2⟩ : p.Perm blocks ∧ n.Perm blocks := hf _ List.mem_cons_self
    obtain ⟨c', e, h'⟩ := inv_store hn hb h (sel := sel) (v := v) f1 f2
    obtain ⟨c'', e', h''⟩ := inv_after hn hb (use := use) (rest := rest) h' (fun o ho => hf o (List.mem_cons_of_mem _ ho))
      (by rw [List.append_assoc]; exact hm)
    refine ⟨c'', ?_, by rw [List.append_assoc] at h''; exact h''⟩
    rw [List.foldlM_cons]
    show (cacheSeq c p n sel v).bind _ = _
    rw [e]
    exact e'
  | .ask p n sel :: rest, ops, c, h, hf, hm => by
    obtain ⟨f1, f2⟩ : p.Perm blocks ∧ n.Perm blocks := hf _ List.mem_cons_self
    obtain ⟨c', e, t, k1, k2, k3⟩ := ask_spec hn hb h (by rw [List.length_append] at hm; omega) (use := use) (sel := sel) f1 f2
    have hidx : ∀ (s : List Int) (a : Nat), Idx c' s a ↔ Idx c s a := fun s a => by unfold Idx; rw [k2]
    have h' : Inv blocks (ops ++ [.ask p n sel]) c' := by
      constructor
      · refine ⟨t.facts, t.seqs, t.sels, ?_⟩
        have := t.small
        rw [List.length_append]
        exact ⟨by omega, by omega⟩
      · simp only [hidx, k1, k3, lastStored_ask]; exact h.sound
      · simp only [hidx, k1, k3, lastStored_ask]; exact h.full
    obtain ⟨c'', e', h''⟩ := inv_after hn hb (use := use) (rest := rest) h' (fun o ho => hf o (List.mem_cons_of_mem _ ho))
      (by rw [List.append_assoc]; exact hm)
    refine ⟨c'', ?_, by rw [List.append_assoc] at h''; exact h''⟩
    rw [List.foldlM_cons]
    show ((isSeqInCache use c p n sel).map (fun q => q.1)).bind _ = _
    rw [e]
    exact e'

/-- C116: after any uses with orders of the same blocks, the cache answers for a pair and a choice of variants exactly if a cost was
stored for them, with the cost stored last; if it is not in use it never answers. Nothing fails. -/
theorem C116_cache {α : Type} {blocks : List Int} (hn : blocks.Nodup) (hb : blocks ≠ []) (use : Bool) {ops : List (Op α)}
    (hf : ∀ o ∈ ops, Fits blocks o) (hm : 3 * ops.length < 2 ^ 64 - 1) :
    ∃ c, after use ops = some c ∧ ∀ p n sel, p.Perm blocks → n.Perm blocks →
      ∃ c', isSeqInCache use c p n sel = some (c', if use then lastStored p n sel ops else none) := by
  have h0 : Inv blocks ([] : List (Op α)) ⟨[], [], [], []⟩ := by
    constructor
    · exact ⟨⟨by simp, fun i hi => absurd hi (by simp)⟩, numbered_nil, numbered_nil, ⟨by simp, by simp⟩⟩
    · intro k v h; simp [get] at h
    · intro p n sel v h; simp [lastStored] at h
  obtain ⟨c, e, h⟩ := inv_after hn hb (use := use) h0 hf (by rw [List.nil_append]; exact hm)
  rw [List.nil_append] at h
  refine ⟨c, e, fun p n sel hp hnn => ?_⟩
  obtain ⟨c', e', _⟩ := ask_spec hn hb h hm (use := use) (sel := sel) hp hnn
  exact ⟨c', e'⟩

/-- Three blocks: a pair stored twice, another once, and a question between. -/
def uses : List (Op Nat) :=
  [.store [0, 1, 2] [2, 1, 0] [0, 0, 0] 5, .ask [1, 0, 2] [2, 1, 0] [0, 0, 0], .store [1, 0, 2] [2, 1, 0] [0, 0, 0] 7,
    .store [0, 1, 2] [2, 1, 0] [0, 0, 0] 6]

example : ∃ c, after true uses = some c
    ∧ (∃ c', isSeqInCache true c [0, 1, 2] [2, 1, 0] [0, 0, 0] = some (c', some 6))
    ∧ ∃ c', isSeqInCache true c [2, 1, 0] [0, 1, 2] [0, 0, 0] = some (c', none) := by
  obtain ⟨c, h, k⟩ := C116_cache (blocks := [0, 1, 2]) (by decide) (by decide) true (ops := uses)
    (by intro o ho; simp only [uses, List.mem_cons, List.not_mem_nil, or_false] at ho; rcases ho with rfl | rfl | rfl | rfl <;> (constructor <;> decide)) (by decide)
  refine ⟨c, h, ?_, ?_⟩
  · have := k [0, 1, 2] [2, 1, 0] [0, 0, 0] (by decide) (by decide)
    exact this
  · have := k [2, 1, 0] [0, 1, 2] [0, 0, 0] (by decide) (by decide)
    exact this

/-- The blocks must be the same throughout: orders of different blocks share numbers. -/
example : ∃ c c', after true [Op.store [0, 1] [0, 1] [] 5] = some c ∧ isSeqInCache true c [0] [0] [] = some (c', some 5) :=
  ⟨_, _, rfl, rfl⟩

end Verif.SeqCache

import Mathlib.Logic.Relation
import Mathlib.Data.List.Nodup
import Mathlib.Data.List.Range
import Mathlib.Data.List.Perm.Subperm
import Mathlib.Tactic.ByContra

/-!
# C147: the power grid that is kept

`router/Graph.cpp`: `collect_nodes` and `collect_node` 249-273, `power_grid_dsf` 275-369, `Connection_Check_Power_Grid` 371-407.

Simplifications: the neighbours of a vertex (north, south, east, west, up, down, in this order) are one list of numbers of vertices, after `total2graph`. `graph_index == -1` is `none`.
The recursion has a bound on its depth, which is shown to be enough.
-/

namespace Verif.PowerGrid

/-! ## The code -/

structure Gr where
  n : Nat
  nbr : Nat → List Nat
  power : Nat → Nat
  active : Nat → Bool

/-- `graph_index` of each vertex, `connection_graph_number`. -/
structure St where
  idx : Nat → Option Nat
  cnt : Nat

/-- Active, of the given power, and in the graph (255-257). -/
def elig (G : Gr) (p j : Nat) : Bool := decide (j < G.n) && G.active j && decide (G.power j = p)

def each (step : St → Nat → Option St) : List Nat → St → Option St
  | [], σ => some σ
  | j :: js, σ => (step σ j).bind (each step js)

/-- `power_grid_dsf` with graph index `g`: the neighbours are collected first. -/
def dsf (G : Gr) (p g : Nat) : Nat → St → Nat → Option St
  | 0, _, _ => none
  | f + 1, σ, i =>
    let σ1 : St := ⟨fun j => if j = i then some g else σ.idx j, σ.cnt + 1⟩
    each (dsf G p g f) ((G.nbr i).filter fun j => elig G p j && (σ1.idx j).isNone) σ1

/-- The loop over the vertices (376-386). -/
def scan (G : Gr) (p : Nat) : List Nat → (Nat → Option Nat) → List Nat → Option ((Nat → Option Nat) × List Nat)
  | [], idx, c => some (idx, c)
  | i :: is, idx, c =>
    if (idx i).isNone && elig G p i then
      (dsf G p c.length G.n ⟨idx, 0⟩ i).bind fun τ => scan G p is τ.idx (c ++ [τ.cnt])
    else scan G p is idx c

/-- `max_index` with its number (388-396). -/
def pick : List Nat → Nat → Option (Nat × Nat) → Option (Nat × Nat)
  | [], _, b => b
  | c :: cs, i, none => pick cs (i + 1) (some (i, c))
  | c :: cs, i, some (k, m) => pick cs (i + 1) (if m < c then some (i, c) else some (k, m))

/-- `Connection_Check_Power_Grid`: which vertices are active after it. -/
def check (G : Gr) (p : Nat) (idx : Nat → Option Nat) : Option (Nat → Bool) :=
  (scan G p (List.range G.n) idx []).map fun r => fun j =>
    G.active j && !(decide (G.power j = p) && decide (r.1 j ≠ (pick r.2 0 none).map (·.1)))

/-! ## What the properties say -/

/-- One can go from `a` to `b` along links between vertices with `P`. -/
def Linked (G : Gr) (P : Nat → Prop) (a b : Nat) : Prop := Relation.ReflTransGen (fun x y => y ∈ G.nbr x ∧ P x ∧ P y) a b

/-- A vertex of the power net, that is active. -/
def Of (G : Gr) (p : Nat) (act : Nat → Bool) (j : Nat) : Prop := j < G.n ∧ act j = true ∧ G.power j = p

/-- Links go both ways. -/
def BothWays (G : Gr) : Prop := ∀ a b, b ∈ G.nbr a → a ∈ G.nbr b

/-! ## Proofs -/

theorem elig_iff {G : Gr} {p j : Nat} : elig G p j = true ↔ Of G p G.active j := by
  unfold elig Of
  simp only [Bool.and_eq_true, decide_eq_true_eq, and_assoc]

/-- What one call does. -/
structure Spec (G : Gr) (p g : Nat) (σ : St) (i : Nat) (τ : St) : Prop where
  ext : ∀ j, τ.idx j = σ.idx j ∨ (σ.idx j = none ∧ τ.idx j = some g ∧ Of G p G.active j ∧ Linked G (Of G p G.active) i j)
  own : τ.idx i = some g
  near : ∀ k ∈ G.nbr i, Of G p G.active k → τ.idx k ≠ none
  closed : ∀ j, σ.idx j = none → τ.idx j ≠ none → ∀ k ∈ G.nbr j, Of G p G.active k → τ.idx k ≠ none
  many : ∀ L : List Nat, L.Nodup → (∀ j ∈ L, σ.idx j = none ∧ τ.idx j ≠ none) → σ.cnt + L.length ≤ τ.cnt
  alone : (∀ k ∈ G.nbr i, Of G p G.active k → k = i) → τ.cnt = σ.cnt + 1

theorem each_spec (G : Gr) (p g : Nat) (step : St → Nat → Option St)
    (hs : ∀ σ i τ, step σ i = some τ → Of G p G.active i → (σ.idx i = none ∨ σ.idx i = some g) → Spec G p g σ i τ) (i : Nat) (hi : Of G p G.active i) :
    ∀ (js : List Nat) (ρ τ : St), (∀ j ∈ js, Of G p G.active j ∧ j ∈ G.nbr i ∧ (ρ.idx j = none ∨ ρ.idx j = some g)) → each step js ρ = some τ →
      (∀ j, τ.idx j = ρ.idx j ∨ (ρ.idx j = none ∧ τ.idx j = some g ∧ Of G p G.active j ∧ Linked G (Of G p G.active) i j))
        ∧ (∀ j ∈ js, τ.idx j = some g)
        ∧ (∀ j, ρ.idx j = none → τ.idx j ≠ none → ∀ k ∈ G.nbr j, Of G p G.active k → τ.idx k ≠ none)
        ∧ ∀ L : List Nat, L.Nodup → (∀ j ∈ L, ρ.idx j = none ∧ τ.idx j ≠ none) → ρ.cnt + L.length ≤ τ.cnt := by
  intro js
  induction js with
  | nil =>
    intro ρ τ _ h
    simp only [each, Option.some.injEq] at h
    subst h
    refine ⟨fun j => Or.inl rfl, by simp, fun j h1 h2 => absurd h1 h2, fun L _ hL => ?_⟩
    cases L with
    | nil => simp
    | cons x L => exact absurd (hL x List.mem_cons_self).1 (hL x List.mem_cons_self).2
  | cons j0 js ih =>
    intro ρ τ hj h
    obtain ⟨ρ1, h1, h2⟩ := Option.bind_eq_some_iff.1 h
    obtain ⟨e0, n0, s0⟩ := hj j0 List.mem_cons_self
    have S := hs ρ j0 ρ1 h1 e0 s0
    obtain ⟨i1, i2, i3, i4⟩ := ih ρ1 τ (fun j hjm => by
      obtain ⟨a, b, c⟩ := hj j (List.mem_cons_of_mem _ hjm)
      refine ⟨a, b, ?_⟩
      rcases S.ext j with e | ⟨-, e, -⟩
      · rw [e]; exact c
      · exact Or.inr e) h2
    have mono : ∀ k, ρ1.idx k ≠ none → τ.idx k ≠ none := by
      intro k hk
      rcases i1 k with e | ⟨e, -⟩
      · rw [e]; exact hk
      · exact absurd e hk
    have hl : ∀ j, Linked G (Of G p G.active) j0 j → Linked G (Of G p G.active) i j := fun j hjj => Relation.ReflTransGen.head ⟨n0, hi, e0⟩ hjj
    refine ⟨fun j => ?_, fun j hjm => ?_, fun j hn ht => ?_, fun L hL hLL => ?_⟩
    · rcases S.ext j with e | ⟨a, b, c, d⟩
      · rcases i1 j with e' | ⟨a', b', c', d'⟩
        · exact Or.inl (e'.trans e)
        · exact Or.inr ⟨e ▸ a', b', c', d'⟩
      · rcases i1 j with e' | ⟨a', -⟩
        · exact Or.inr ⟨a, e'.trans b, c, hl j d⟩
        · rw [b] at a'; simp at a'
    · rcases List.mem_cons.1 hjm with rfl | hjm
      · rcases i1 j with e' | ⟨-, e', -⟩
        · exact e'.trans S.own
        · exact e'
      · exact i2 j hjm
    · by_cases hm : ρ1.idx j = none
      · exact i3 j hm ht
      · intro k hk hek
        exact mono k (S.closed j hn hm k hk hek)
    · have a1 := S.many (L.filter fun j => (ρ1.idx j).isSome) (hL.filter _) (fun j hj => by
        obtain ⟨hj1, hj2⟩ := List.mem_filter.1 hj
        exact ⟨(hLL j hj1).1, Option.isSome_iff_ne_none.1 hj2⟩)
      have a2 := i4 (L.filter fun j => !(ρ1.idx j).isSome) (hL.filter _) (fun j hj => by
        obtain ⟨hj1, hj2⟩ := List.mem_filter.1 hj
        simp only [Option.not_isSome, Option.isNone_iff_eq_none] at hj2
        exact ⟨hj2, (hLL j hj1).2⟩)
      have a3 := List.length_eq_length_filter_add (l := L) fun j => (ρ1.idx j).isSome
      omega

theorem dsf_spec (G : Gr) (p g : Nat) : ∀ (f : Nat) (σ : St) (i : Nat) (τ : St), dsf G p g f σ i = some τ → Of G p G.active i → (σ.idx i = none ∨ σ.idx i = some g) → Spec G p g σ i τ := by
  intro f
  induction f with
  | zero => intro σ i τ h; simp [dsf] at h
  | succ f ih =>
    intro σ i τ h hi hg
    unfold dsf at h
    obtain ⟨e1, e2, e3, e4⟩ := each_spec G p g (dsf G p g f) ih i hi _ _ τ (fun j hj => by
      obtain ⟨h1, h2⟩ := List.mem_filter.1 hj
      simp only [Bool.and_eq_true, Option.isNone_iff_eq_none] at h2
      exact ⟨elig_iff.1 h2.1, h1, Or.inl h2.2⟩) h
    simp only at e1 e2 e3 e4
    have hown : τ.idx i = some g := by
      rcases e1 i with e | ⟨e, -⟩
      · rw [e, if_pos rfl]
      · rw [if_pos rfl] at e; simp at e
    have hne : ∀ j, j ≠ i → (if j = i then some g else σ.idx j) = σ.idx j := fun j hj => if_neg hj
    have hnear : ∀ k ∈ G.nbr i, Of G p G.active k → τ.idx k ≠ none := by
      intro k hk hek
      by_cases hc : (if k = i then some g else σ.idx k) = none
      · rw [e2 k (List.mem_filter.2 ⟨hk, by simp only [Bool.and_eq_true, Option.isNone_iff_eq_none]; exact ⟨elig_iff.2 hek, hc⟩⟩)]
        simp
      · rcases e1 k with e | ⟨e, -⟩
        · rw [e]; exact hc
        · exact absurd e hc
    refine ⟨fun j => ?_, hown, hnear, fun j hn ht => ?_, fun L hL hLL => ?_, fun hal => ?_⟩
    · by_cases hj : j = i
      · subst hj
        rcases hg with hg | hg
        · exact Or.inr ⟨hg, hown, hi, Relation.ReflTransGen.refl⟩
        · exact Or.inl (hown.trans hg.symm)
      · have := e1 j
        rw [hne j hj] at this
        exact this
    · by_cases hj : j = i
      · subst hj
        exact hnear
      · refine e3 j ?_ ht
        rw [hne j hj]
        exact hn
    · have := e4 (L.erase i) (hL.erase i) (fun j hj => by
        have hji : j ≠ i := by
          rintro rfl
          exact hL.not_mem_erase hj
        rw [hne j hji]
        exact hLL j (List.mem_of_mem_erase hj))
      have h2 : L.length ≤ (L.erase i).length + 1 := by
        rw [List.length_erase]
        split <;> omega
      omega
    · have : ((G.nbr i).filter fun j => elig G p j && ((if j = i then some g else σ.idx j) : Option Nat).isNone) = [] := by
        rw [List.filter_eq_nil_iff]
        intro j hj hc
        simp only [Bool.and_eq_true, Option.isNone_iff_eq_none] at hc
        have hji := hal j hj (elig_iff.1 hc.1)
        rw [if_pos hji] at hc
        simp at hc
      simp only at h
      rw [this] at h
      simp only [each, Option.some.injEq] at h
      rw [← h]

theorem each_mono (step : St → Nat → Option St) (hs : ∀ σ i τ, step σ i = some τ → ∀ j, σ.idx j ≠ none → τ.idx j ≠ none) :
    ∀ (js : List Nat) (σ τ : St), each step js σ = some τ → ∀ j, σ.idx j ≠ none → τ.idx j ≠ none := by
  intro js
  induction js with
  | nil =>
    intro σ τ h j hj
    simp only [each, Option.some.injEq] at h
    rw [← h]
    exact hj
  | cons k js ih =>
    intro σ τ h j hj
    obtain ⟨ρ, h1, h2⟩ := Option.bind_eq_some_iff.1 h
    exact ih ρ τ h2 j (hs σ k ρ h1 j hj)

theorem dsf_mono (G : Gr) (p g : Nat) : ∀ (f : Nat) (σ : St) (i : Nat) (τ : St), dsf G p g f σ i = some τ → ∀ j, σ.idx j ≠ none → τ.idx j ≠ none := by
  intro f
  induction f with
  | zero => intro σ i τ h; simp [dsf] at h
  | succ f ih =>
    intro σ i τ h j hj
    unfold dsf at h
    refine each_mono _ ih _ _ τ h j ?_
    simp only
    split
    · simp
    · exact hj

theorem dsf_some (G : Gr) (p g : Nat) : ∀ (f : Nat) (σ : St) (i : Nat) (A : List Nat), A.Nodup → (∀ a ∈ A, a < G.n ∧ σ.idx a ≠ none) → i ∉ A → i < G.n → G.n ≤ A.length + f →
    ∃ τ, dsf G p g f σ i = some τ := by
  intro f
  induction f with
  | zero =>
    intro σ i A hA ha hi hin hl
    exfalso
    have hn : (i :: A).Nodup := List.nodup_cons.2 ⟨hi, hA⟩
    have hs : (i :: A) ⊆ List.range G.n := by
      intro x hx
      rw [List.mem_range]
      rcases List.mem_cons.1 hx with rfl | hx
      · exact hin
      · exact (ha x hx).1
    have := (hn.subperm hs).length_le
    simp only [List.length_cons, List.length_range] at this
    omega
  | succ f ih =>
    intro σ i A hA ha hi hin hl
    unfold dsf
    have key : ∀ (js : List Nat) (ρ : St), (∀ j ∈ js, j ∉ i :: A ∧ j < G.n) → (∀ a ∈ i :: A, a < G.n ∧ ρ.idx a ≠ none) → ∃ τ, each (dsf G p g f) js ρ = some τ := by
      intro js
      induction js with
      | nil => intro ρ _ _; exact ⟨ρ, rfl⟩
      | cons j js ihj =>
        intro ρ h1 h2
        obtain ⟨hj1, hj2⟩ := h1 j List.mem_cons_self
        obtain ⟨ρ1, hρ⟩ := ih ρ j (i :: A) (List.nodup_cons.2 ⟨hi, hA⟩) h2 hj1 hj2 (by simp only [List.length_cons]; omega)
        obtain ⟨τ, hτ⟩ := ihj ρ1 (fun x hx => h1 x (List.mem_cons_of_mem _ hx)) fun a haA => ⟨(h2 a haA).1, dsf_mono G p g f ρ j ρ1 hρ a (h2 a haA).2⟩
        exact ⟨τ, by rw [each, hρ]; exact hτ⟩
    have hidx : ∀ a ∈ i :: A, (if a = i then some g else σ.idx a) ≠ none := by
      intro a haA
      split
      · simp
      · rcases List.mem_cons.1 haA with rfl | haA
        · contradiction
        · exact (ha a haA).2
    refine key _ _ (fun j hj => ?_) fun a haA => ⟨?_, hidx a haA⟩
    · obtain ⟨-, h2⟩ := List.mem_filter.1 hj
      simp only [Bool.and_eq_true, Option.isNone_iff_eq_none] at h2
      exact ⟨fun hjA => hidx j hjA h2.2, (elig_iff.1 h2.1).1⟩
    · rcases List.mem_cons.1 haA with rfl | haA
      · exact hin
      · exact (ha a haA).1

theorem linked_symm {G : Gr} (hb : BothWays G) {P : Nat → Prop} {a b : Nat} (h : Linked G P a b) : Linked G P b a := by
  induction h with
  | refl => exact Relation.ReflTransGen.refl
  | tail _ h ih => exact Relation.ReflTransGen.head ⟨hb _ _ h.1, h.2.2, h.2.1⟩ ih

/-- What holds between the calls. -/
structure Inv (G : Gr) (p : Nat) (idx : Nat → Option Nat) (c : List Nat) : Prop where
  lt : ∀ j h, Of G p G.active j → idx j = some h → h < c.length
  link : ∀ j k h, Of G p G.active j → Of G p G.active k → idx j = some h → idx k = some h → Linked G (Of G p G.active) j k
  closed : ∀ j k h, Of G p G.active j → Of G p G.active k → k ∈ G.nbr j → idx j = some h → idx k = some h
  used : ∀ h < c.length, ∃ j, Of G p G.active j ∧ idx j = some h
  two : ∀ j k h x, j ≠ k → Of G p G.active j → Of G p G.active k → idx j = some h → idx k = some h → c[h]? = some x → 2 ≤ x
  one : ∀ v h, Of G p G.active v → (∀ k ∈ G.nbr v, Of G p G.active k → k = v) → idx v = some h → c[h]? = some 1

theorem inv_step {G : Gr} (hb : BothWays G) {p : Nat} {idx : Nat → Option Nat} {c : List Nat} (I : Inv G p idx c) {i : Nat} (hi : Of G p G.active i) (hn : idx i = none) {τ : St}
    (S : Spec G p c.length ⟨idx, 0⟩ i τ) : Inv G p τ.idx (c ++ [τ.cnt]) := by
  have ext := S.ext
  simp only at ext
  refine ⟨?_, ?_, ?_, ?_, ?_, ?_⟩
  · intro j h hj e
    rw [List.length_append, List.length_singleton]
    rcases ext j with e' | ⟨-, e', -⟩
    · have := I.lt j h hj (e'.symm.trans e)
      omega
    · rw [e] at e'
      simp only [Option.some.injEq] at e'
      omega
  · intro j k h hj hk e1 e2
    rcases ext j with a | ⟨-, a, -, la⟩ <;> rcases ext k with b | ⟨-, b, -, lb⟩
    · exact I.link j k h hj hk (a.symm.trans e1) (b.symm.trans e2)
    · have := I.lt j h hj (a.symm.trans e1)
      rw [e2] at b
      simp only [Option.some.injEq] at b
      omega
    · have := I.lt k h hk (b.symm.trans e2)
      rw [e1] at a
      simp only [Option.some.injEq] at a
      omega
    · exact (linked_symm hb la).trans lb
  · intro j k h hj hk hnb e
    rcases ext j with a | ⟨a0, a, -, -⟩
    · have hk' := I.closed j k h hj hk hnb (a.symm.trans e)
      rcases ext k with b | ⟨b, -⟩
      · exact b.trans hk'
      · rw [hk'] at b; simp at b
    · have hkn := S.closed j a0 (by rw [a]; simp) k hnb hk
      rw [a] at e
      rcases ext k with b | ⟨-, b, -⟩
      · exfalso
        obtain ⟨h', hh⟩ := Option.ne_none_iff_exists'.1 hkn
        have := I.closed k j h' hk hj (hb j k hnb) (b.symm.trans hh)
        rw [this] at a0
        simp at a0
      · exact b.trans e
  · intro h hlt
    rw [List.length_append, List.length_singleton] at hlt
    by_cases hc : h < c.length
    · obtain ⟨j, hj, e⟩ := I.used h hc
      refine ⟨j, hj, ?_⟩
      rcases ext j with b | ⟨b, -⟩
      · exact b.trans e
      · rw [e] at b; simp at b
    · refine ⟨i, hi, ?_⟩
      rw [S.own, show c.length = h by omega]
  · intro j k h x hjk hj hk e1 e2 hx
    rcases ext j with a | ⟨a0, a, -, la⟩ <;> rcases ext k with b | ⟨b0, b, -, lb⟩
    · have hl := I.lt j h hj (a.symm.trans e1)
      rw [List.getElem?_append_left hl] at hx
      exact I.two j k h x hjk hj hk (a.symm.trans e1) (b.symm.trans e2) hx
    · have := I.lt j h hj (a.symm.trans e1)
      rw [e2] at b
      simp only [Option.some.injEq] at b
      omega
    · have := I.lt k h hk (b.symm.trans e2)
      rw [e1] at a
      simp only [Option.some.injEq] at a
      omega
    · have := S.many [j, k] (by simp [hjk]) (by
        intro y hy
        simp only [List.mem_cons, List.not_mem_nil, or_false] at hy
        rcases hy with rfl | rfl
        · exact ⟨a0, by rw [a]; simp⟩
        · exact ⟨b0, by rw [b]; simp⟩)
      rw [e1] at a
      simp only [Option.some.injEq] at a
      subst a
      simp only [List.getElem?_concat_length, Option.some.injEq] at hx
      simp only [List.length_cons, List.length_nil] at this
      omega
  · intro v h hv hal e
    rcases ext v with a | ⟨a0, a, -, la⟩
    · have hl := I.lt v h hv (a.symm.trans e)
      rw [List.getElem?_append_left hl]
      exact I.one v h hv hal (a.symm.trans e)
    · have hvi : ∀ y, Linked G (Of G p G.active) v y → y = v := by
        intro y hy
        induction hy with
        | refl => rfl
        | tail _ hs ih => subst ih; exact hal _ hs.1 hs.2.2
      have hiv := hvi i (linked_symm hb la)
      subst hiv
      have := S.alone hal
      simp only at this
      rw [e] at a
      simp only [Option.some.injEq] at a
      subst a
      simp [this]

theorem scan_spec {G : Gr} (hb : BothWays G) {p : Nat} : ∀ (is : List Nat) (idx : Nat → Option Nat) (c : List Nat), Inv G p idx c →
    ∃ r, scan G p is idx c = some r ∧ Inv G p r.1 r.2 ∧ (∀ i ∈ is, Of G p G.active i → r.1 i ≠ none) ∧ ∀ j, idx j ≠ none → r.1 j ≠ none := by
  intro is
  induction is with
  | nil => intro idx c I; exact ⟨(idx, c), rfl, I, by simp, fun j h => h⟩
  | cons i is ih =>
    intro idx c I
    unfold scan
    by_cases hc : ((idx i).isNone && elig G p i) = true
    · rw [if_pos hc]
      simp only [Bool.and_eq_true, Option.isNone_iff_eq_none] at hc
      have hi := elig_iff.1 hc.2
      obtain ⟨τ, hτ⟩ := dsf_some G p c.length G.n ⟨idx, 0⟩ i [] List.nodup_nil (by simp) (by simp) hi.1 (by simp)
      have S := dsf_spec G p c.length G.n ⟨idx, 0⟩ i τ hτ hi (Or.inl hc.1)
      obtain ⟨r, r1, r2, r3, r4⟩ := ih τ.idx (c ++ [τ.cnt]) (inv_step hb I hi hc.1 S)
      refine ⟨r, by rw [hτ]; exact r1, r2, fun j hj hej => ?_, fun j hj => r4 j (dsf_mono G p c.length G.n ⟨idx, 0⟩ i τ hτ j hj)⟩
      rcases List.mem_cons.1 hj with rfl | hj
      · exact r4 j (by rw [S.own]; simp)
      · exact r3 j hj hej
    · rw [if_neg hc]
      obtain ⟨r, r1, r2, r3, r4⟩ := ih idx c I
      refine ⟨r, r1, r2, fun j hj hej => ?_, r4⟩
      rcases List.mem_cons.1 hj with rfl | hj
      · apply r4
        intro h0
        exact hc (by simp [h0, elig_iff.2 hej])
      · exact r3 j hj hej

theorem pick_max : ∀ (cs : List Nat) (i : Nat) (b : Option (Nat × Nat)) (k : Nat × Nat), pick cs i b = some k →
    (b = some k ∨ (i ≤ k.1 ∧ cs[k.1 - i]? = some k.2)) ∧ (∀ c ∈ cs, c ≤ k.2) ∧ ∀ x ∈ b, x.2 ≤ k.2 := by
  intro cs
  induction cs with
  | nil =>
    intro i b k h
    simp only [pick] at h
    subst h
    exact ⟨Or.inl rfl, by simp, by simp⟩
  | cons c cs ih =>
    intro i b k h
    have lift : i + 1 ≤ k.1 ∧ cs[k.1 - (i + 1)]? = some k.2 → i ≤ k.1 ∧ (c :: cs)[k.1 - i]? = some k.2 := by
      rintro ⟨h1, h2⟩
      refine ⟨by omega, ?_⟩
      rw [show k.1 - i = (k.1 - (i + 1)) + 1 by omega, List.getElem?_cons_succ]
      exact h2
    cases b with
    | none =>
      unfold pick at h
      obtain ⟨h1, h2, h3⟩ := ih (i + 1) _ k h
      have hc := h3 (i, c) rfl
      refine ⟨Or.inr ?_, fun x hx => ?_, by simp⟩
      · rcases h1 with h1 | h1
        · simp only [Option.some.injEq] at h1
          subst h1
          simp
        · exact lift h1
      · rcases List.mem_cons.1 hx with rfl | hx
        · exact hc
        · exact h2 x hx
    | some y =>
      obtain ⟨k0, m⟩ := y
      unfold pick at h
      obtain ⟨h1, h2, h3⟩ := ih (i + 1) _ k h
      by_cases hm : m < c
      · rw [if_pos hm] at h1 h3
        have hc := h3 (i, c) rfl
        simp only at hc
        refine ⟨Or.inr ?_, fun x hx => ?_, fun x hx => ?_⟩
        · rcases h1 with h1 | h1
          · simp only [Option.some.injEq] at h1
            subst h1
            simp
          · exact lift h1
        · rcases List.mem_cons.1 hx with rfl | hx
          · exact hc
          · exact h2 x hx
        · simp only [Option.mem_def, Option.some.injEq] at hx
          subst hx
          simp only
          omega
      · rw [if_neg hm] at h1 h3
        have hc := h3 (k0, m) rfl
        simp only at hc
        refine ⟨h1.imp id lift, fun x hx => ?_, fun x hx => ?_⟩
        · rcases List.mem_cons.1 hx with rfl | hx
          · omega
          · exact h2 x hx
        · simp only [Option.mem_def, Option.some.injEq] at hx
          subst hx
          exact hc

theorem pick_lt : ∀ (cs : List Nat) (i : Nat) (b : Option (Nat × Nat)), (∀ x ∈ b, x.1 < i) → (cs ≠ [] ∨ b ≠ none) → ∃ k, pick cs i b = some k ∧ k.1 < i + cs.length := by
  intro cs
  induction cs with
  | nil =>
    intro i b hb hn
    rcases hn with hn | hn
    · exact absurd rfl hn
    · obtain ⟨x, rfl⟩ := Option.ne_none_iff_exists'.1 hn
      exact ⟨x, rfl, by simpa using hb x rfl⟩
  | cons c cs ih =>
    intro i b hb _
    rw [List.length_cons]
    cases b with
    | none =>
      unfold pick
      obtain ⟨k, h1, h2⟩ := ih (i + 1) (some (i, c)) (by simp) (Or.inr (by simp))
      exact ⟨k, h1, by omega⟩
    | some x =>
      obtain ⟨k0, m⟩ := x
      have h0 := hb (k0, m) rfl
      simp only at h0
      unfold pick
      obtain ⟨k, h1, h2⟩ := ih (i + 1) (if m < c then some (i, c) else some (k0, m)) (by
        intro x hx
        split at hx
        · simp only [Option.mem_def, Option.some.injEq] at hx; subst hx; simp
        · simp only [Option.mem_def, Option.some.injEq] at hx; subst hx; simp only; omega) (Or.inr (by split <;> simp))
      exact ⟨k, h1, by omega⟩

/-! ## The theorems -/

/-- What is known of the end. -/
theorem check_spec {G : Gr} (hb : BothWays G) {p : Nat} {idx : Nat → Option Nat} (h0 : ∀ j, G.power j = p → idx j = none) :
    ∃ act, check G p idx = some act ∧ (∀ j, act j = true → G.active j = true) ∧ (∀ j, G.power j ≠ p → act j = G.active j)
      ∧ ((∃ j, Of G p G.active j) → ∃ v, Of G p act v ∧ (∀ j, Of G p act j ↔ Linked G (Of G p G.active) v j)
        ∧ ((∃ j k, j ≠ k ∧ k ∈ G.nbr j ∧ Of G p G.active j ∧ Of G p G.active k) → ∃ k ∈ G.nbr v, k ≠ v ∧ Of G p G.active k)) := by
  have I0 : Inv G p idx [] := ⟨fun j h hj e => by rw [h0 j hj.2.2] at e; simp at e, fun j k h hj _ e => by rw [h0 j hj.2.2] at e; simp at e,
    fun j k h hj _ _ e => by rw [h0 j hj.2.2] at e; simp at e, by simp, by simp, fun v h hv _ e => by rw [h0 v hv.2.2] at e; simp at e⟩
  obtain ⟨r, r1, I, r3, -⟩ := scan_spec hb (List.range G.n) idx [] I0
  unfold check
  rw [r1, Option.map_some]
  refine ⟨_, rfl, fun j hj => ?_, fun j hj => ?_, ?_⟩
  · simp only [Bool.and_eq_true] at hj
    exact hj.1
  · simp [hj]
  · rintro ⟨w, hw⟩
    obtain ⟨h, hh⟩ := Option.ne_none_iff_exists'.1 (r3 w (List.mem_range.2 hw.1) hw)
    have hlen := I.lt w h hw hh
    obtain ⟨m, hm, hlt⟩ := pick_lt r.2 0 none (by simp) (Or.inl (by intro e; rw [e] at hlen; simp at hlen))
    obtain ⟨v, hv, hvi⟩ := I.used m.1 (by omega)
    have hof : ∀ j, Of G p (fun j => G.active j && !(decide (G.power j = p) && decide (r.1 j ≠ (pick r.2 0 none).map (·.1)))) j ↔ Of G p G.active j ∧ r.1 j = some m.1 := by
      intro j
      unfold Of
      rw [hm]
      simp only [Option.map_some, Bool.and_eq_true, Bool.not_eq_true', Bool.and_eq_false_iff, decide_eq_false_iff_not, ne_eq, not_not]
      constructor
      · rintro ⟨a, ⟨b, c⟩, d⟩
        exact ⟨⟨a, b, d⟩, c.resolve_left fun hc => hc d⟩
      · rintro ⟨⟨a, b, d⟩, c⟩
        exact ⟨a, ⟨b, Or.inr c⟩, d⟩
    refine ⟨v, (hof v).2 ⟨hv, hvi⟩, fun j => (hof j).trans ⟨fun ⟨hj, e⟩ => I.link v j _ hv hj hvi e, fun hl => ?_⟩, ?_⟩
    · induction hl with
      | refl => exact ⟨hv, hvi⟩
      | tail _ hs ih => exact ⟨hs.2.2, I.closed _ _ _ hs.2.1 hs.2.2 hs.1 ih.2⟩
    · rintro ⟨j, k, hjk, hnb, hj, hk⟩
      by_contra hcon
      have h1 := I.one v m.1 hv (fun k hk hek => by
        by_contra hkv
        exact hcon ⟨k, hk, hkv, hek⟩) hvi
      obtain ⟨hm1, hm2, -⟩ := pick_max r.2 0 none m hm
      obtain ⟨h', hh'⟩ := Option.ne_none_iff_exists'.1 (r3 j (List.mem_range.2 hj.1) hj)
      have hl' := I.lt j h' hj hh'
      have h2 := I.two j k h' _ hjk hj hk hh' (I.closed j k h' hj hk hnb hh') (List.getElem?_eq_getElem hl')
      have h3 := hm2 _ (List.getElem_mem hl')
      rcases hm1 with hm1 | ⟨-, hm1⟩
      · simp at hm1
      · rw [Nat.sub_zero, h1] at hm1
        simp only [Option.some.injEq] at hm1
        omega

/-- C147: the check ends; the vertices of the net that stay active are all linked with each other through such vertices, are linked with no other one that was active, and there are some if there were
any. Other nets stay as they are. -/
theorem C147_connected {G : Gr} (hb : BothWays G) {p : Nat} {idx : Nat → Option Nat} (h0 : ∀ j, G.power j = p → idx j = none) :
    ∃ act, check G p idx = some act ∧ (∀ j, act j = true → G.active j = true) ∧ (∀ j, G.power j ≠ p → act j = G.active j)
      ∧ ((∃ j, Of G p G.active j) → ∃ j, Of G p act j)
      ∧ (∀ a b, Of G p act a → Of G p act b → Linked G (Of G p act) a b)
      ∧ ∀ a b, Of G p act a → Of G p G.active b → b ∈ G.nbr a → Of G p act b := by
  obtain ⟨act, h1, h2, h3, h4⟩ := check_spec hb (p := p) h0
  refine ⟨act, h1, h2, h3, fun h => ?_, fun a b ha hbb => ?_, fun a b ha hbb hn => ?_⟩
  · obtain ⟨v, hv, -⟩ := h4 h
    exact ⟨v, hv⟩
  · obtain ⟨v, hv, hiff, -⟩ := h4 ⟨a, ha.1, h2 a ha.2.1, ha.2.2⟩
    have key : ∀ x, Linked G (Of G p G.active) v x → Linked G (Of G p act) v x := by
      intro x hx
      induction hx with
      | refl => exact Relation.ReflTransGen.refl
      | tail hl hs ih => exact ih.tail ⟨hs.1, (hiff _).2 hl, (hiff _).2 (hl.tail hs)⟩
    exact (linked_symm hb (key a ((hiff a).1 ha))).trans (key b ((hiff b).1 hbb))
  · have ha' : Of G p G.active a := ⟨ha.1, h2 a ha.2.1, ha.2.2⟩
    obtain ⟨v, hv, hiff, -⟩ := h4 ⟨a, ha'⟩
    exact (hiff b).2 (Relation.ReflTransGen.tail ((hiff a).1 ha) ⟨hn, ha', hbb⟩)

/-- C147, for a net in one piece: all of it is kept. -/
theorem C147_largest_partial {G : Gr} (hb : BothWays G) {p : Nat} {idx : Nat → Option Nat} (h0 : ∀ j, G.power j = p → idx j = none)
    (h : ∀ a b, Of G p G.active a → Of G p G.active b → Linked G (Of G p G.active) a b) : ∃ act, check G p idx = some act ∧ ∀ j, Of G p G.active j → Of G p act j := by
  obtain ⟨act, h1, h2, h3, h4⟩ := check_spec hb (p := p) h0
  refine ⟨act, h1, fun j hj => ?_⟩
  obtain ⟨v, hv, hiff, -⟩ := h4 ⟨j, hj⟩
  exact (hiff j).2 (h v j ⟨hv.1, h2 v hv.2.1, hv.2.2⟩ hj)

/-- C147: a single vertex is not kept if the net has two linked ones. -/
theorem C147_single_partial {G : Gr} (hb : BothWays G) {p : Nat} {idx : Nat → Option Nat} (h0 : ∀ j, G.power j = p → idx j = none) {j k : Nat} (hjk : j ≠ k) (hn : k ∈ G.nbr j)
    (hj : Of G p G.active j) (hk : Of G p G.active k) : ∃ act, check G p idx = some act ∧ ∃ a b, a ≠ b ∧ Of G p act a ∧ Of G p act b := by
  obtain ⟨act, h1, h2, h3, h4⟩ := check_spec hb (p := p) h0
  obtain ⟨v, hv, hiff, h5⟩ := h4 ⟨j, hj⟩
  obtain ⟨w, hw, hwv, how⟩ := h5 ⟨j, k, hjk, hn, hj, hk⟩
  exact ⟨act, h1, v, w, Ne.symm hwv, hv, (hiff w).2 (Relation.ReflTransGen.single ⟨hw, ⟨hv.1, h2 v hv.2.1, hv.2.2⟩, how⟩)⟩

/-- A ring of four vertices and a line of five. -/
def exNbr : Nat → List Nat
  | 0 => [1, 3] | 1 => [0, 2] | 2 => [1, 3] | 3 => [2, 0]
  | 4 => [5] | 5 => [4, 6] | 6 => [5, 7] | 7 => [6, 8] | 8 => [7]
  | _ => []
def exGr : Gr := ⟨9, exNbr, fun _ => 1, fun j => decide (j < 9)⟩

/-- C147: it is not always the largest part that is kept. A vertex of a ring is collected by two neighbours, visited twice and counted twice, so the ring of four counts as five; the line of five after it
is dropped. -/
theorem C147_violated : (check exGr 1 fun _ => none).map (fun act => (List.range 9).map act) = some [true, true, true, true, false, false, false, false, false] := by decide +kernel

example : BothWays exGr := by
  intro a b h
  unfold exGr at *
  simp only at *
  match a with
  | 0 => simp only [exNbr, List.mem_cons, List.not_mem_nil, or_false] at h; rcases h with rfl | rfl <;> decide
  | 1 => simp only [exNbr, List.mem_cons, List.not_mem_nil, or_false] at h; rcases h with rfl | rfl <;> decide
  | 2 => simp only [exNbr, List.mem_cons, List.not_mem_nil, or_false] at h; rcases h with rfl | rfl <;> decide
  | 3 => simp only [exNbr, List.mem_cons, List.not_mem_nil, or_false] at h; rcases h with rfl | rfl <;> decide
  | 4 => simp only [exNbr, List.mem_cons, List.not_mem_nil, or_false] at h; subst h; decide
  | 5 => simp only [exNbr, List.mem_cons, List.not_mem_nil, or_false] at h; rcases h with rfl | rfl <;> decide
  | 6 => simp only [exNbr, List.mem_cons, List.not_mem_nil, or_false] at h; rcases h with rfl | rfl <;> decide
  | 7 => simp only [exNbr, List.mem_cons, List.not_mem_nil, or_false] at h; rcases h with rfl | rfl <;> decide
  | 8 => simp only [exNbr, List.mem_cons, List.not_mem_nil, or_false] at h; subst h; decide
  | n + 9 => simp [exNbr] at h

end Verif.PowerGrid

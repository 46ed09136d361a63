import Verif.RemoveDup.UnionFind
import Mathlib.Logic.Relation
import Mathlib.Data.Finset.Card
import Mathlib.Data.Finset.Range
import Mathlib.Logic.Function.Iterate

/-! # Property C12: connectivity is the equivalence closure of the connections made -/

namespace Verif.RemoveDup

/-! ## Specification -/

/-- The pairs passed to `connect` in a history. -/
def Connected (ops : List Op) (a b : Nat) : Prop := Op.connect a b ∈ ops

/-- Linked by a chain of connections, in either direction. -/
def Linked (ops : List Op) : Nat → Nat → Prop := Relation.EqvGen (Connected ops)

/-- A history that only uses objects that exist at that point. -/
def WellFormed : Nat → List Op → Prop
  | _, [] => True
  | n, .new :: os => WellFormed (n + 1) os
  | n, .root x :: os => x < n ∧ WellFormed n os
  | n, .connect a b :: os => a < n ∧ b < n ∧ WellFormed n os

/-- The number of objects created by a history. -/
def created (ops : List Op) : Nat := ops.countP (· = .new)

/-! ## Lemmas on parent functions -/

/-- Following `dad` from `x` for `k` steps ends in the root `r`. -/
def Reaches (d : Nat → Nat) : Nat → Nat → Nat → Prop
  | 0, x, r => x = r ∧ d r = r
  | k + 1, x, r => d x ≠ x ∧ Reaches d k (d x) r

theorem Reaches.root {d : Nat → Nat} {k x r : Nat} (h : Reaches d k x r) : d r = r := by
  induction k generalizing x with
  | zero => exact h.2
  | succ k ih => exact ih h.2

theorem Reaches.unique {d : Nat → Nat} {k k' x r r' : Nat} (h : Reaches d k x r)
    (h' : Reaches d k' x r') : k = k' ∧ r = r' := by
  induction k generalizing x k' with
  | zero =>
    obtain ⟨rfl, hr⟩ := h
    cases k' with
    | zero => exact ⟨rfl, h'.1⟩
    | succ k' => exact absurd hr h'.1
  | succ k ih =>
    cases k' with
    | zero => obtain ⟨rfl, hr⟩ := h'; exact absurd hr h.1
    | succ k' =>
      obtain ⟨h1, h2⟩ := ih h.2 h'.2
      exact ⟨by rw [h1], h2⟩

theorem Reaches.findRoot {d : Nat → Nat} {k x r fuel : Nat} (h : Reaches d k x r) (hf : k < fuel) :
    findRoot d fuel x = some r := by
  induction k generalizing x fuel with
  | zero =>
    obtain ⟨rfl, hr⟩ := h
    cases fuel with
    | zero => omega
    | succ f => simp [RemoveDup.findRoot, hr]
  | succ k ih =>
    cases fuel with
    | zero => omega
    | succ f =>
      simp only [RemoveDup.findRoot, h.1, if_false]
      exact ih h.2 (by omega)

/-- Replacing some dads by the root of the object changes no root, and paths get no longer. -/
theorem Reaches.shortcut {d d' : Nat → Nat}
    (hd : ∀ y, d' y = d y ∨ ∃ k, Reaches d k y (d' y)) {k x r : Nat} (h : Reaches d k x r) :
    ∃ k' ≤ k, Reaches d' k' x r := by
  induction k generalizing x with
  | zero =>
    obtain ⟨rfl, hr⟩ := h
    refine ⟨0, le_refl _, rfl, ?_⟩
    rcases hd x with h1 | ⟨k, hk⟩
    · rw [h1, hr]
    · exact ((Reaches.unique (k := 0) (r := x) ⟨rfl, hr⟩ hk).2).symm
  | succ k ih =>
    obtain ⟨k', hk', hr'⟩ := ih h.2
    rcases hd x with h1 | ⟨j, hj⟩
    · refine ⟨k' + 1, by omega, ?_, ?_⟩
      · rw [h1]; exact h.1
      · rw [h1]; exact hr'
    · have hxr : d' x = r := (Reaches.unique h hj).2.symm
      have hrr : d' r = r := by
        rcases hd r with h1 | ⟨j', hj'⟩
        · rw [h1, h.root]
        · exact ((Reaches.unique (k := 0) (r := r) ⟨rfl, h.root⟩ hj').2).symm
      by_cases hx : x = r
      · exact ⟨0, by omega, hx, hrr⟩
      · exact ⟨1, by omega, by rw [hxr]; exact fun h => hx h.symm, by rw [hxr]; exact ⟨rfl, hrr⟩⟩

/-- Every object has a root, objects not created are their own roots, and dads exist. -/
structure Forest (u : UF) : Prop where
  reach : ∀ x, ∃ k r, Reaches u.dad k x r
  fresh : ∀ x, u.n ≤ x → u.dad x = x
  bound : ∀ x, x < u.n → u.dad x < u.n

/-- Pigeonhole: paths are shorter than the number of objects. -/
theorem Forest.depth {u : UF} (hu : Forest u) {k x r : Nat} (hx : x < u.n)
    (h : Reaches u.dad k x r) : k < u.n := by
  -- the points of the path are pairwise different and below `n`
  have path : ∀ (k x : Nat), x < u.n → Reaches u.dad k x r → ∀ i ≤ k,
      (u.dad^[i]) x < u.n ∧ Reaches u.dad (k - i) ((u.dad^[i]) x) r := by
    intro k x hx h i
    induction i generalizing k x with
    | zero => intro _; exact ⟨hx, h⟩
    | succ i ih =>
      intro hi
      cases k with
      | zero => omega
      | succ k =>
        have := ih k (u.dad x) (hu.bound x hx) h.2 (by omega)
        rw [Function.iterate_succ_apply]
        exact ⟨this.1, by rw [show k + 1 - (i + 1) = k - i by omega]; exact this.2⟩
  have hinj : ∀ i ≤ k, ∀ j ≤ k, (u.dad^[i]) x = (u.dad^[j]) x → i = j := by
    intro i hi j hj he
    have h1 := (path k x hx h i hi).2
    have h2 := (path k x hx h j hj).2
    rw [he] at h1
    have := (Reaches.unique h1 h2).1
    omega
  by_contra hge
  have hcard : (Finset.range u.n).card < (Finset.range (k + 1)).card := by
    simp; omega
  obtain ⟨i, hi, j, hj, hne, he⟩ := Finset.exists_ne_map_eq_of_card_lt_of_maps_to hcard
    (f := fun i => (u.dad^[i]) x) (by
      intro i hi
      simp only [Finset.coe_range, Set.mem_Iio] at hi ⊢
      exact (path k x hx h i (by omega)).1)
  simp only [Finset.mem_range] at hi hj
  exact hne (hinj i (by omega) j (by omega) he)

/-- The root of an object in a state. -/
def RootOf (u : UF) (x r : Nat) : Prop := ∃ k, Reaches u.dad k x r

theorem RootOf.unique {u : UF} {x r r' : Nat} (h : RootOf u x r) (h' : RootOf u x r') : r = r' := by
  obtain ⟨_, h⟩ := h; obtain ⟨_, h'⟩ := h'; exact (Reaches.unique h h').2

/-- Path compression replaces dads of objects by their roots only, and succeeds with enough fuel. -/
theorem compress_spec (d : Nat → Nat) (r : Nat) : ∀ (k x fuel : Nat) (d0 : Nat → Nat),
    Reaches d k x r → k < fuel →
    (∀ y, d0 y = d y ∨ (Reaches d 0 y y ∨ ∃ j, Reaches d j y r) ∧ d0 y = r) →
    (∀ j y, Reaches d j y r → j ≤ k → d0 y = d y) →
    ∃ d', compress r fuel d0 x = some d' ∧
      ∀ y, d' y = d y ∨ ((Reaches d 0 y y ∨ ∃ j, Reaches d j y r) ∧ d' y = r) := by
  intro k
  induction k with
  | zero =>
    intro x fuel d0 h hf hd0 hlow
    obtain ⟨rfl, hr⟩ := h
    cases fuel with
    | zero => omega
    | succ f =>
      refine ⟨d0, ?_, fun y => hd0 y⟩
      simp [compress, hlow 0 x ⟨rfl, hr⟩ (by omega), hr]
  | succ k ih =>
    intro x fuel d0 h hf hd0 hlow
    cases fuel with
    | zero => omega
    | succ f =>
      have hx0 : d0 x = d x := hlow (k + 1) x h (by omega)
      have hxx : d0 x ≠ x := by rw [hx0]; exact h.1
      obtain ⟨d', hd', hall⟩ := ih (d x) f (setDad d0 x r) h.2 (by omega) (by
        intro y
        by_cases hy : y = x
        · right; subst hy; exact ⟨Or.inr ⟨_, h⟩, by simp [setDad]⟩
        · simp only [setDad, hy, if_false]; exact hd0 y) (by
        intro j y hj hjk
        have hyx : y ≠ x := by
          rintro rfl
          have := (Reaches.unique h hj).1; omega
        simp only [setDad, hyx, if_false]
        exact hlow j y hj (by omega))
      refine ⟨d', ?_, hall⟩
      simp only [compress, hxx, if_false]
      rw [hx0]; exact hd'

/-- Path compression leaves roots alone. -/
theorem compress_fixes (d : Nat → Nat) (r : Nat) : ∀ (fuel : Nat) (d0 : Nat → Nat) (x : Nat) (d1 : Nat → Nat),
    (∀ y, d y = y → d0 y = y) → compress r fuel d0 x = some d1 → (∀ y, d y = y → d1 y = y) := by
  intro fuel
  induction fuel with
  | zero => intro d0 x d1 _ h; simp [compress] at h
  | succ f ih =>
    intro d0 x d1 h0 h
    simp only [compress] at h
    split at h
    · simp at h; subst h; exact h0
    · rename_i hne
      refine ih _ _ _ ?_ h
      intro z hz
      have : z ≠ x := by rintro rfl; exact hne (h0 z hz)
      simp [setDad, this, h0 z hz]

/-- `root` returns the root and leaves an equivalent forest. -/
theorem root_spec {u : UF} (hu : Forest u) {x : Nat} (hx : x < u.n) :
    ∃ u' r, u.root x = some (u', r) ∧ RootOf u x r ∧ r < u.n ∧ u'.n = u.n ∧ Forest u' ∧
      (∀ y s, RootOf u y s ↔ RootOf u' y s) := by
  obtain ⟨k, r, hr⟩ := hu.reach x
  have hk := hu.depth hx hr
  have hfind : findRoot u.dad (u.n + 1) x = some r := hr.findRoot (by omega)
  have hrn : r < u.n := by
    by_contra hge
    -- walk: all points of the path are below n
    have : ∀ k x, x < u.n → Reaches u.dad k x r → r < u.n := by
      intro k
      induction k with
      | zero => rintro x hx ⟨rfl, -⟩; exact hx
      | succ k ih => intro x hx h; exact ih _ (hu.bound x hx) h.2
    exact hge (this k x hx hr)
  obtain ⟨d', hd', hall⟩ := compress_spec u.dad r k x (u.n + 1) u.dad hr (by omega)
    (fun y => Or.inl rfl) (fun _ _ _ _ => rfl)
  have hall' : ∀ y, d' y = u.dad y ∨ ∃ j, Reaches u.dad j y (d' y) := by
    intro y
    rcases hall y with h | ⟨h1 | ⟨j, h1⟩, h2⟩
    · exact Or.inl h
    · left; rw [h1.2]; exact compress_fixes u.dad r _ _ _ _ (fun y hy => hy) hd' y h1.2
    · right; exact ⟨j, by rw [h2]; exact h1⟩
  refine ⟨⟨u.n, d'⟩, r, ?_, ⟨k, hr⟩, hrn, rfl, ?_, ?_⟩
  · simp [UF.root, hfind, hd']
  · refine ⟨?_, ?_, ?_⟩
    · intro y
      obtain ⟨j, s, hs⟩ := hu.reach y
      obtain ⟨j', _, hs'⟩ := hs.shortcut hall'
      exact ⟨j', s, hs'⟩
    · intro y hy
      have hfix := hu.fresh y hy
      rcases hall' y with h | ⟨j, h⟩
      · simp only; rw [h, hfix]
      · exact ((Reaches.unique (k := 0) (r := y) ⟨rfl, hfix⟩ h).2).symm
    · intro y hy
      simp only
      rcases hall y with h | ⟨-, h⟩
      · rw [h]; exact hu.bound y hy
      · rw [h]; exact hrn
  · intro y s
    constructor
    · rintro ⟨j, hj⟩
      obtain ⟨j', _, hs'⟩ := hj.shortcut hall'
      exact ⟨j', hs'⟩
    · rintro ⟨j, hj⟩
      obtain ⟨j0, s0, hs0⟩ := hu.reach y
      obtain ⟨j', _, hs'⟩ := hs0.shortcut hall'
      have := (Reaches.unique hs' hj).2
      subst this
      exact ⟨j0, hs0⟩

/-- Hanging root `rb` below root `ra`. -/
theorem Reaches.link {d : Nat → Nat} {ra rb : Nat} (ha : d ra = ra) (hb : d rb = rb) (hne : ra ≠ rb)
    {k x r : Nat} (h : Reaches d k x r) :
    ∃ k', Reaches (setDad d rb ra) k' x (if r = rb then ra else r) := by
  induction k generalizing x with
  | zero =>
    obtain ⟨rfl, hr⟩ := h
    by_cases hx : x = rb
    · subst hx
      refine ⟨1, ?_, ?_⟩
      · simp [setDad, hne]
      · exact ⟨by simp [setDad], by simp [setDad, hne, ha]⟩
    · exact ⟨0, by simp [hx], by simp [setDad, hx, hr]⟩
  | succ k ih =>
    obtain ⟨k', hk'⟩ := ih h.2
    have hx : x ≠ rb := by rintro rfl; exact h.1 hb
    refine ⟨k' + 1, ?_, ?_⟩
    · simp [setDad, hx, h.1]
    · simpa [setDad, hx] using hk'

theorem connect_spec {u : UF} (hu : Forest u) {a b : Nat} (ha : a < u.n) (hb : b < u.n) :
    ∃ u' ra rb, u.connect a b = some u' ∧ RootOf u a ra ∧ RootOf u b rb ∧ u'.n = u.n ∧ Forest u' ∧
      (∀ y s, RootOf u y s → RootOf u' y (if s = rb then ra else s)) := by
  obtain ⟨u1, ra, h1, hra, hran, hn1, hf1, he1⟩ := root_spec hu ha
  obtain ⟨u2, rb, h2, hrb, hrbn, hn2, hf2, he2⟩ := root_spec hf1 (x := b) (by omega)
  have hrb' : RootOf u b rb := (he1 _ _).mpr hrb
  have e12 : ∀ y s, RootOf u y s ↔ RootOf u2 y s := fun y s => (he1 y s).trans (he2 y s)
  have hconn : u.connect a b = some ⟨u2.n, setDad u2.dad rb ra⟩ := by
    simp [UF.connect, h1, h2]
  have hfa : u2.dad ra = ra := by
    obtain ⟨k, hk⟩ := (e12 _ _).mp hra; exact hk.root
  have hfb : u2.dad rb = rb := by
    obtain ⟨k, hk⟩ := (e12 _ _).mp hrb'; exact hk.root
  refine ⟨_, ra, rb, hconn, hra, hrb', by simp [hn1, hn2], ?_, ?_⟩
  · by_cases hne : ra = rb
    · subst hne
      have : setDad u2.dad ra ra = u2.dad := by
        funext j; by_cases hj : j = ra
        · subst hj; simp [setDad, hfa]
        · simp [setDad, hj]
      rw [this]; exact hf2
    · refine ⟨?_, ?_, ?_⟩
      · intro y
        obtain ⟨k, s, hs⟩ := hf2.reach y
        obtain ⟨k', hk'⟩ := hs.link hfa hfb hne
        exact ⟨k', _, hk'⟩
      · intro y hy
        have : y ≠ rb := by have : u2.n ≤ y := hy; omega
        simp only [setDad, this, if_false]
        exact hf2.fresh y hy
      · intro y hy
        simp only [setDad] at hy ⊢
        split
        · omega
        · exact hf2.bound y hy
  · intro y s hs
    obtain ⟨k, hk⟩ := (e12 _ _).mp hs
    by_cases hne : ra = rb
    · subst hne
      have : setDad u2.dad ra ra = u2.dad := by
        funext j; by_cases hj : j = ra
        · subst hj; simp [setDad, hfa]
        · simp [setDad, hj]
      refine ⟨k, ?_⟩
      simp only [this]
      by_cases hsr : s = ra
      · subst hsr; simpa using hk
      · simpa [hsr] using hk
    · obtain ⟨k', hk'⟩ := hk.link hfa hfb hne
      exact ⟨k', hk'⟩

theorem new_spec {u : UF} (hu : Forest u) :
    u.new.n = u.n + 1 ∧ Forest u.new ∧ (∀ y s, RootOf u y s ↔ RootOf u.new y s) := by
  have : u.new.dad = u.dad := by
    funext j
    simp only [UF.new, setDad]
    split
    · rename_i h; subst h; exact (hu.fresh _ (le_refl _)).symm
    · rfl
  refine ⟨rfl, ⟨?_, ?_, ?_⟩, ?_⟩
  · intro x; rw [this]; exact hu.reach x
  · intro x hx; rw [this]; exact hu.fresh x (by simp only [UF.new] at hx; omega)
  · intro x hx
    rw [this]
    simp only [UF.new] at hx ⊢
    by_cases h : x < u.n
    · have := hu.bound x h; omega
    · rw [hu.fresh x (by omega)]; exact hx
  · intro y s; simp only [RootOf, this]

theorem Linked.mono {os os' : List Op} (h : ∀ o ∈ os, o ∈ os') {x y : Nat} (hl : Linked os x y) :
    Linked os' x y := by
  induction hl with
  | rel x y hxy => exact Relation.EqvGen.rel _ _ (h _ hxy)
  | refl x => exact Relation.EqvGen.refl _
  | symm x y _ ih => exact ih.symm
  | trans x y z _ _ ih1 ih2 => exact ih1.trans _ _ _ ih2

theorem Linked.weaken {os os' : List Op} (h : ∀ a b, Connected os a b → Connected os' a b) {x y : Nat}
    (hl : Linked os x y) : Linked os' x y := by
  induction hl with
  | rel x y hxy => exact Relation.EqvGen.rel _ _ (h _ _ hxy)
  | refl x => exact Relation.EqvGen.refl _
  | symm x y _ ih => exact ih.symm
  | trans x y z _ _ ih1 ih2 => exact ih1.trans _ _ _ ih2

/-- The invariant along a history. -/
structure Inv (ops : List Op) (u : UF) : Prop where
  forest : Forest u
  iff : ∀ x y r s, RootOf u x r → RootOf u y s → (r = s ↔ Linked ops x y)

theorem Inv.step {ops : List Op} {u : UF} (hi : Inv ops u) {o : Op}
    (hw : WellFormed u.n [o]) : ∃ u', u.exec o = some u' ∧ Inv (ops ++ [o]) u' ∧
      u'.n = u.n + (if o = .new then 1 else 0) := by
  have hsub : ∀ o' ∈ ops, o' ∈ ops ++ [o] := fun _ h => List.mem_append_left _ h
  cases o with
  | new =>
    obtain ⟨hn, hf, he⟩ := new_spec hi.forest
    refine ⟨u.new, rfl, ⟨hf, ?_⟩, by simp [UF.new]⟩
    intro x y r s hr hs
    rw [← he] at hr hs
    rw [hi.iff x y r s hr hs]
    constructor
    · exact fun h => h.mono hsub
    · intro h
      exact Linked.weaken (fun a b hab => by simpa [Connected] using hab) h
  | root x =>
    obtain ⟨u', r0, h1, -, -, hn, hf, he⟩ := root_spec hi.forest (x := x) hw.1
    refine ⟨u', by simp [UF.exec, hw.1, h1], ⟨hf, ?_⟩, by simp [hn]⟩
    intro x y r s hr hs
    rw [← he] at hr hs
    rw [hi.iff x y r s hr hs]
    constructor
    · exact fun h => h.mono hsub
    · intro h
      exact Linked.weaken (fun a b hab => by simpa [Connected] using hab) h
  | connect a b =>
    obtain ⟨ha, hb, -⟩ := hw
    obtain ⟨u', ra, rb, h1, hra, hrb, hn, hf, hroot⟩ := connect_spec hi.forest ha hb
    refine ⟨u', by simp [UF.exec, ha, hb, h1], ⟨hf, ?_⟩, by simp [hn]⟩
    have hab : Linked (ops ++ [.connect a b]) a b :=
      Relation.EqvGen.rel _ _ (by simp [Connected])
    -- old root of every object
    have old : ∀ x r, RootOf u' x r → ∃ r0, RootOf u x r0 ∧ r = if r0 = rb then ra else r0 := by
      intro x r hr
      obtain ⟨k, r0, hk⟩ := hi.forest.reach x
      exact ⟨r0, ⟨k, hk⟩, hr.unique (hroot x r0 ⟨k, hk⟩)⟩
    intro x y r s hr hs
    obtain ⟨r0, hr0, rfl⟩ := old x r hr
    obtain ⟨s0, hs0, rfl⟩ := old y s hs
    have ex : r0 = rb → Linked (ops ++ [.connect a b]) x b := fun h =>
      ((hi.iff x b r0 rb hr0 hrb).mp h).mono hsub
    have ey : s0 = rb → Linked (ops ++ [.connect a b]) y b := fun h =>
      ((hi.iff y b s0 rb hs0 hrb).mp h).mono hsub
    have ex' : r0 = ra → Linked (ops ++ [.connect a b]) x a := fun h =>
      ((hi.iff x a r0 ra hr0 hra).mp h).mono hsub
    have ey' : s0 = ra → Linked (ops ++ [.connect a b]) y a := fun h =>
      ((hi.iff y a s0 ra hs0 hra).mp h).mono hsub
    constructor
    · intro h
      by_cases h1 : r0 = rb <;> by_cases h2 : s0 = rb
      · exact (ex h1).trans _ _ _ ((ey h2).symm)
      · simp only [h1, if_true, h2, if_false] at h
        exact ((ex h1).trans _ _ _ hab.symm).trans _ _ _ ((ey' h.symm).symm)
      · simp only [h1, if_false, h2, if_true] at h
        exact ((ex' h).trans _ _ _ hab).trans _ _ _ ((ey h2).symm)
      · simp only [h1, h2, if_false] at h
        exact ((hi.iff x y r0 s0 hr0 hs0).mp h).mono hsub
    · intro h
      -- the new root is invariant along links
      have key : ∀ x y, Linked (ops ++ [.connect a b]) x y → ∀ r0 s0, RootOf u x r0 → RootOf u y s0 →
          (if r0 = rb then ra else r0) = (if s0 = rb then ra else s0) := by
        intro x y hl
        induction hl with
        | rel x y hxy =>
          intro r0 s0 hr0 hs0
          simp only [Connected, List.mem_append, List.mem_singleton] at hxy
          rcases hxy with hxy | hxy
          · have : r0 = s0 := (hi.iff x y r0 s0 hr0 hs0).mpr (Relation.EqvGen.rel _ _ hxy)
            rw [this]
          · simp only [Op.connect.injEq] at hxy
            obtain ⟨rfl, rfl⟩ := hxy
            rw [hr0.unique hra, hs0.unique hrb]
            by_cases h : ra = rb <;> simp [h]
        | refl x => intro r0 s0 hr0 hs0; rw [hr0.unique hs0]
        | symm x y _ ih => intro r0 s0 hr0 hs0; exact (ih s0 r0 hs0 hr0).symm
        | trans x y z _ _ ih1 ih2 =>
          intro r0 s0 hr0 hs0
          obtain ⟨k, t, hk⟩ := hi.forest.reach y
          exact (ih1 r0 t hr0 ⟨k, hk⟩).trans (ih2 t s0 ⟨k, hk⟩ hs0)
      exact key x y h r0 s0 hr0 hs0

theorem Inv.run {ops : List Op} : ∀ {pre : List Op} {u : UF}, Inv pre u → WellFormed u.n ops →
    ∃ u', u.run ops = some u' ∧ Inv (pre ++ ops) u' ∧ u'.n = u.n + created ops := by
  induction ops with
  | nil => intro pre u hi _; exact ⟨u, rfl, by simpa using hi, by simp [created]⟩
  | cons o os ih =>
    intro pre u hi hw
    have hw1 : WellFormed u.n [o] := by
      cases o <;> simp_all [WellFormed]
    obtain ⟨u1, h1, hi1, hn1⟩ := hi.step hw1
    have hw2 : WellFormed u1.n os := by
      rw [hn1]; cases o <;> simp_all [WellFormed]
    obtain ⟨u2, h2, hi2, hn2⟩ := ih hi1 hw2
    refine ⟨u2, by simp [UF.run, h1, h2], by simpa using hi2, ?_⟩
    rw [hn2, hn1]
    simp only [created, List.countP_cons]
    cases o <;> simp <;> omega

theorem Inv.init : Inv [] UF.init := by
  have hr : ∀ x r, RootOf UF.init x r → x = r := by
    rintro x r ⟨k, hk⟩
    cases k with
    | zero => exact hk.1
    | succ k => exact absurd rfl hk.1
  refine ⟨⟨fun x => ⟨0, x, rfl, rfl⟩, fun x _ => rfl, fun x hx => hx⟩, ?_⟩
  intro x y r s h1 h2
  rw [← hr x r h1, ← hr y s h2]
  have key : ∀ x y, Linked [] x y → x = y := by
    intro x y h
    induction h with
    | rel x y hxy => simp [Connected] at hxy
    | refl x => rfl
    | symm x y _ ih => exact ih.symm
    | trans x y z _ _ ih1 ih2 => exact ih1.trans ih2
  exact ⟨fun h => h ▸ Relation.EqvGen.refl _, key x y⟩

/-! ## C12 -/

/-- After every history, root lookups terminate, and two objects have the same root exactly when they are linked by
a chain of connections. -/
theorem C12_root_iff_linked (ops : List Op) (hw : WellFormed 0 ops) :
    ∃ u, UF.init.run ops = some u ∧ ∀ x y, x < created ops → y < created ops →
      ∃ ux uy rx ry, u.root x = some (ux, rx) ∧ u.root y = some (uy, ry) ∧
        (rx = ry ↔ Linked ops x y) := by
  obtain ⟨u, h, hi, hn⟩ := Inv.run (pre := []) Inv.init hw
  refine ⟨u, h, fun x y hx hy => ?_⟩
  have hn' : u.n = created ops := by simpa [UF.init] using hn
  obtain ⟨ux, rx, h1, hrx, -⟩ := root_spec hi.forest (x := x) (by omega)
  obtain ⟨uy, ry, h2, hry, -⟩ := root_spec hi.forest (x := y) (by omega)
  exact ⟨ux, uy, rx, ry, h1, h2, by simpa using hi.iff x y rx ry hrx hry⟩

/-- Looking up a root (with its path compression) changes no later lookup. -/
theorem C12_compression_invisible (ops : List Op) (hw : WellFormed 0 ops) :
    ∃ u, UF.init.run ops = some u ∧ ∀ x y, x < created ops → y < created ops →
      ∃ u1 u2 u3 rx r r', u.root x = some (u1, rx) ∧ u.root y = some (u2, r) ∧
        u1.root y = some (u3, r') ∧ r = r' := by
  obtain ⟨u, h, hi, hn⟩ := Inv.run (pre := []) Inv.init hw
  refine ⟨u, h, fun x y hx hy => ?_⟩
  have hn' : u.n = created ops := by simpa [UF.init] using hn
  obtain ⟨u1, rx, h1, hrx, -, hn1, hf1, he1⟩ := root_spec hi.forest (x := x) (by omega)
  obtain ⟨u2, r, h2, hr, -⟩ := root_spec hi.forest (x := y) (by omega)
  obtain ⟨u3, r', h3, hr', -⟩ := root_spec hf1 (x := y) (by omega)
  exact ⟨u1, u2, u3, rx, r, r', h1, h2, h3, hr.unique ((he1 _ _).mpr hr')⟩

/-- A representative of an object is linked to it and is its own representative. -/
theorem C12_root_is_member (ops : List Op) (hw : WellFormed 0 ops) :
    ∃ u, UF.init.run ops = some u ∧ ∀ x, x < created ops →
      ∃ u1 u2 r, u.root x = some (u1, r) ∧ u1.root r = some (u2, r) ∧ r < created ops ∧
        Linked ops x r := by
  obtain ⟨u, h, hi, hn⟩ := Inv.run (pre := []) Inv.init hw
  refine ⟨u, h, fun x hx => ?_⟩
  have hn' : u.n = created ops := by simpa [UF.init] using hn
  obtain ⟨u1, r, h1, hr, hrn, hn1, hf1, he1⟩ := root_spec hi.forest (x := x) (by omega)
  obtain ⟨u2, r', h2, hr', -⟩ := root_spec hf1 (x := r) (by omega)
  have hrr : RootOf u r r := by obtain ⟨k, hk⟩ := hr; exact ⟨0, rfl, hk.root⟩
  have : r' = r := ((he1 _ _).mpr hr').unique hrr
  subst this
  refine ⟨u1, u2, _, h1, h2, by omega, ?_⟩
  simpa using (hi.iff x _ _ _ hr hrr).mp rfl

/-- A history with two merged classes. -/
example : WellFormed 0 [.new, .new, .new, .connect 1 0, .root 0, .connect 2 1] := by
  simp [WellFormed]

end Verif.RemoveDup

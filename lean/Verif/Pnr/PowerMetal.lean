import Mathlib.Data.List.Nodup
import Mathlib.Tactic.ByContra

/-!
# C148 and C149: the metals of the power grid

`router/Graph.cpp`: the sets of `CreatePower_Grid` 106-247 with `MetalComp` (`router/Rdatatype.h` 490-510), `MergePowerMetal` 80-105.

Simplifications: a metal is its layer and its two points; its width depends on the layer only and its rectangle is computed later. A `std::set` is the list of its elements in order, into which each element
is put at its place, unless an element is there that is neither less nor greater.
-/

namespace Verif.PowerMetal

/-! ## The code -/

/-- `MetalIdx`, `LinePoint[0]`, `LinePoint[1]`. -/
structure Seg where
  layer : Nat
  x0 : Int
  y0 : Int
  x1 : Int
  y1 : Int
deriving DecidableEq

/-- `MetalComp` (490-510). The third test compares the left metal with itself, as in the code. -/
def lt (l r : Seg) : Bool :=
  if l.layer = r.layer then
    if l.x0 = r.x0 then
      if l.y0 = l.y0 then
        if l.x1 = r.x1 then decide (l.y1 < r.y1) else decide (l.x1 < r.x1)
      else decide (l.y0 < r.y0)
    else decide (l.x0 < r.x0)
  else decide (l.layer < r.layer)

/-- `insert` of a `std::set`. -/
def ins (a : Seg) : List Seg → List Seg
  | [] => [a]
  | b :: bs => if lt a b then a :: b :: bs else if lt b a then b :: ins a bs else b :: bs

/-- `VddPower_Set`, then `Vdd_grid.metals` (224-228). -/
def setOf (l : List Seg) : List Seg := l.foldl (fun s a => ins a s) []

/-- `MergePowerMetal`, from the second metal on (84-103). -/
def mergeGo (t : Seg) : List Seg → List Seg
  | [] => [t]
  | m :: ms =>
    if m.layer = t.layer ∧ m.layer % 2 = 0 ∧ m.x0 = t.x0 ∧ m.x1 = t.x1 ∧ m.y0 ≥ t.y0 ∧ m.y0 ≤ t.y1 then mergeGo { t with y1 := max m.y1 t.y1 } ms
    else if m.layer = t.layer ∧ m.layer % 2 = 1 ∧ m.y0 = t.y0 ∧ m.y1 = t.y1 ∧ m.x0 ≥ t.x0 ∧ m.x0 ≤ t.x1 then mergeGo { t with x1 := max m.x1 t.x1 } ms
    else t :: mergeGo m ms

/-- `MergePowerMetal`; `none` is a metal that was never set. -/
def merge : List Seg → List (Option Seg)
  | [] => [none]
  | m :: ms => (mergeGo m ms).map some

/-! ## What the properties say -/

/-- The metal is on the layer and goes over the point. -/
def Covers (s : Seg) (layer : Nat) (x y : Int) : Prop := s.layer = layer ∧ s.x0 ≤ x ∧ x ≤ s.x1 ∧ s.y0 ≤ y ∧ y ≤ s.y1

/-- Two metals that differ at most in the lower end of `y`. -/
def SameEnd (a b : Seg) : Prop := a.layer = b.layer ∧ a.x0 = b.x0 ∧ a.x1 = b.x1 ∧ a.y1 = b.y1

/-- The second metal lies on the line of the first, on the same layer, and starts within it; even layers go along `y`, odd ones along `x`. -/
def Continues (t m : Seg) : Prop :=
  t.layer = m.layer ∧ ((m.layer % 2 = 0 ∧ t.x0 = m.x0 ∧ t.x1 = m.x1 ∧ t.y0 ≤ m.y0 ∧ m.y0 ≤ t.y1) ∨ (m.layer % 2 = 1 ∧ t.y0 = m.y0 ∧ t.y1 = m.y1 ∧ t.x0 ≤ m.x0 ∧ m.x0 ≤ t.x1))

/-! ## Proofs -/

theorem lt_iff (l r : Seg) : lt l r = true ↔ l.layer < r.layer ∨ (l.layer = r.layer ∧ (l.x0 < r.x0 ∨ (l.x0 = r.x0 ∧ (l.x1 < r.x1 ∨ (l.x1 = r.x1 ∧ l.y1 < r.y1))))) := by
  unfold lt
  rw [if_pos (rfl : l.y0 = l.y0)]
  by_cases h1 : l.layer = r.layer
  · rw [if_pos h1]
    by_cases h2 : l.x0 = r.x0
    · rw [if_pos h2]
      by_cases h3 : l.x1 = r.x1
      · rw [if_pos h3, decide_eq_true_eq]; omega
      · rw [if_neg h3, decide_eq_true_eq]; omega
    · rw [if_neg h2, decide_eq_true_eq]; omega
  · rw [if_neg h1, decide_eq_true_eq]; omega

theorem lt_trans' {a b c : Seg} (h1 : lt a b = true) (h2 : lt b c = true) : lt a c = true := by
  rw [lt_iff] at *; omega

theorem sameEnd_of {a b : Seg} (h1 : ¬lt a b = true) (h2 : ¬lt b a = true) : SameEnd a b := by
  rw [lt_iff] at *
  unfold SameEnd
  omega

theorem not_sameEnd {a b : Seg} (h : lt a b = true) : ¬SameEnd a b := by
  rw [lt_iff] at h
  unfold SameEnd
  omega

theorem mem_ins {a : Seg} : ∀ {s : List Seg} {x : Seg}, x ∈ ins a s → x = a ∨ x ∈ s
  | [], x, h => by simp only [ins, List.mem_singleton] at h; exact Or.inl h
  | b :: bs, x, h => by
    unfold ins at h
    split at h
    · exact List.mem_cons.1 h
    · split at h
      · rcases List.mem_cons.1 h with h | h
        · exact Or.inr (List.mem_cons.2 (Or.inl h))
        · exact (mem_ins h).imp id (List.mem_cons_of_mem _)
      · exact Or.inr h

theorem ins_old {a : Seg} : ∀ {s : List Seg} {x : Seg}, x ∈ s → x ∈ ins a s
  | b :: bs, x, h => by
    unfold ins
    split
    · exact List.mem_cons_of_mem _ h
    · split
      · rcases List.mem_cons.1 h with h | h
        · exact List.mem_cons.2 (Or.inl h)
        · exact List.mem_cons_of_mem _ (ins_old h)
      · exact h

theorem ins_new (a : Seg) : ∀ s : List Seg, ∃ x ∈ ins a s, SameEnd a x
  | [] => ⟨a, by simp [ins], rfl, rfl, rfl, rfl⟩
  | b :: bs => by
    unfold ins
    split
    · exact ⟨a, List.mem_cons_self, rfl, rfl, rfl, rfl⟩
    · rename_i h1
      split
      · obtain ⟨x, hx, hs⟩ := ins_new a bs
        exact ⟨x, List.mem_cons_of_mem _ hx, hs⟩
      · rename_i h2
        exact ⟨b, List.mem_cons_self, sameEnd_of h1 h2⟩

theorem ins_sorted (a : Seg) : ∀ s : List Seg, s.Pairwise (fun x y => lt x y = true) → (ins a s).Pairwise fun x y => lt x y = true
  | [], _ => by simp [ins]
  | b :: bs, h => by
    unfold ins
    obtain ⟨h1, h2⟩ := List.pairwise_cons.1 h
    split
    · rename_i hab
      refine List.pairwise_cons.2 ⟨fun y hy => ?_, h⟩
      rcases List.mem_cons.1 hy with rfl | hy
      · exact hab
      · exact lt_trans' hab (h1 y hy)
    · split
      · rename_i hba
        refine List.pairwise_cons.2 ⟨fun y hy => ?_, ins_sorted a bs h2⟩
        rcases mem_ins hy with rfl | hy
        · exact hba
        · exact h1 y hy
      · exact h

theorem fold_spec : ∀ (l s : List Seg), s.Pairwise (fun x y => lt x y = true) →
    (l.foldl (fun s a => ins a s) s).Pairwise (fun x y => lt x y = true) ∧ (∀ x ∈ l.foldl (fun s a => ins a s) s, x ∈ l ∨ x ∈ s)
      ∧ (∀ x ∈ s, x ∈ l.foldl (fun s a => ins a s) s) ∧ ∀ a ∈ l, ∃ x ∈ l.foldl (fun s a => ins a s) s, SameEnd a x
  | [], s, h => ⟨h, fun _ hx => Or.inr hx, fun _ hx => hx, by simp⟩
  | a :: l, s, h => by
    rw [List.foldl_cons]
    obtain ⟨h1, h2, h3, h4⟩ := fold_spec l (ins a s) (ins_sorted a s h)
    refine ⟨h1, fun x hx => ?_, fun x hx => h3 x (ins_old hx), fun b hb => ?_⟩
    · rcases h2 x hx with hx | hx
      · exact Or.inl (List.mem_cons_of_mem _ hx)
      · rcases mem_ins hx with rfl | hx
        · exact Or.inl List.mem_cons_self
        · exact Or.inr hx
    · rcases List.mem_cons.1 hb with rfl | hb
      · obtain ⟨x, hx, hs⟩ := ins_new b s
        exact ⟨x, h3 x hx, hs⟩
      · exact h4 b hb

/-! ## The theorems -/

/-- C148: the metals are some of those found, no two of them with the same upper end, and every one found has the upper end of one of them. -/
theorem C148_metals (l : List Seg) : (∀ s ∈ setOf l, s ∈ l) ∧ (setOf l).Pairwise (fun a b => ¬SameEnd a b) ∧ ∀ a ∈ l, ∃ s ∈ setOf l, SameEnd a s := by
  obtain ⟨h1, h2, -, h4⟩ := fold_spec l [] List.Pairwise.nil
  refine ⟨fun s hs => ?_, h1.imp fun h => not_sameEnd h, h4⟩
  exact (h2 s hs).resolve_right (by simp)

/-- C148, if no two of the metals found differ only in the lower end: they are all there, each once. -/
theorem C148_all_partial (l : List Seg) (h : ∀ a ∈ l, ∀ b ∈ l, SameEnd a b → a = b) : (∀ s, s ∈ setOf l ↔ s ∈ l) ∧ (setOf l).Nodup := by
  obtain ⟨h1, h2, h3⟩ := C148_metals l
  refine ⟨fun s => ⟨h1 s, fun hs => ?_⟩, List.Pairwise.imp (fun {a b} (hn : ¬SameEnd a b) => (fun e : a = b => hn (by subst e; exact ⟨rfl, rfl, rfl, rfl⟩))) h2⟩
  obtain ⟨x, hx, he⟩ := h3 s hs
  rw [h s hs x (h1 x hx) he]
  exact hx

/-- C148: of two metals along `y` that end at the same point, the one found second is lost, and with it a place that was to be powered. -/
theorem C148_violated : ∃ l : List Seg, ∃ layer x y, (∃ s ∈ l, Covers s layer x y) ∧ ¬∃ s ∈ setOf l, Covers s layer x y := by
  refine ⟨[⟨2, 0, 5, 0, 10⟩, ⟨2, 0, 0, 0, 10⟩], 2, 0, 1, ⟨⟨2, 0, 0, 0, 10⟩, by decide, by unfold Covers; decide⟩, ?_⟩
  rintro ⟨s, hs, hc⟩
  rw [show setOf [⟨2, 0, 5, 0, 10⟩, ⟨2, 0, 0, 0, 10⟩] = [⟨2, 0, 5, 0, 10⟩] by decide +kernel, List.mem_singleton] at hs
  subst hs
  unfold Covers at hc
  revert hc
  decide

/-- The hypothesis holds for metals along both directions. -/
example : ∀ a ∈ ([⟨2, 0, 5, 0, 10⟩, ⟨2, 0, 0, 0, 5⟩, ⟨1, 0, 0, 10, 0⟩, ⟨2, 0, 0, 0, 5⟩] : List Seg), ∀ b ∈ ([⟨2, 0, 5, 0, 10⟩, ⟨2, 0, 0, 0, 5⟩, ⟨1, 0, 0, 10, 0⟩, ⟨2, 0, 0, 0, 5⟩] : List Seg),
    SameEnd a b → a = b := by
  unfold SameEnd
  decide

theorem go_covers (layer : Nat) (x y : Int) : ∀ (ms : List Seg) (t : Seg), (∃ s ∈ mergeGo t ms, Covers s layer x y) ↔ Covers t layer x y ∨ ∃ s ∈ ms, Covers s layer x y
  | [], t => by simp [mergeGo]
  | m :: ms, t => by
    unfold mergeGo
    simp only [List.mem_cons, exists_eq_or_imp]
    split
    · rename_i h
      rw [go_covers layer x y ms, ← or_assoc]
      refine or_congr ?_ Iff.rfl
      unfold Covers
      simp only
      omega
    · split
      · rename_i h
        rw [go_covers layer x y ms, ← or_assoc]
        refine or_congr ?_ Iff.rfl
        unfold Covers
        simp only
        omega
      · simp only [List.mem_cons, exists_eq_or_imp]
        rw [go_covers layer x y ms]

/-- The first metal of the result starts where the given one starts and is on its line. -/
theorem go_head : ∀ (ms : List Seg) (t : Seg), ∃ u us, mergeGo t ms = u :: us ∧ u.layer = t.layer ∧ u.x0 = t.x0 ∧ u.y0 = t.y0 ∧ (t.layer % 2 = 0 → u.x1 = t.x1) ∧ (t.layer % 2 = 1 → u.y1 = t.y1)
  | [], t => ⟨t, [], rfl, rfl, rfl, rfl, fun _ => rfl, fun _ => rfl⟩
  | m :: ms, t => by
    unfold mergeGo
    split
    · rename_i h
      obtain ⟨u, us, h1, h2, h3, h4, h5, h6⟩ := go_head ms { t with y1 := max m.y1 t.y1 }
      exact ⟨u, us, h1, h2, h3, h4, h5, fun ho => by have := h.1; have := h.2.1; omega⟩
    · split
      · rename_i h
        obtain ⟨u, us, h1, h2, h3, h4, h5, h6⟩ := go_head ms { t with x1 := max m.x1 t.x1 }
        exact ⟨u, us, h1, h2, h3, h4, fun ho => by have := h.1; have := h.2.1; omega, h6⟩
      · exact ⟨t, _, rfl, rfl, rfl, rfl, fun _ => rfl, fun _ => rfl⟩

theorem go_chain : ∀ (ms : List Seg) (t : Seg), (mergeGo t ms).IsChain fun a b => ¬Continues a b
  | [], t => by simp [mergeGo]
  | m :: ms, t => by
    unfold mergeGo
    split
    · exact go_chain ms _
    · rename_i h1
      split
      · exact go_chain ms _
      · rename_i h2
        have hc := go_chain ms m
        obtain ⟨u, us, e, a1, a2, a3, a4, a5⟩ := go_head ms m
        rw [e] at hc ⊢
        refine List.IsChain.cons_cons ?_ hc
        intro hcon
        unfold Continues at hcon
        obtain ⟨c1, c2 | c2⟩ := hcon
        · have := a4 (by omega)
          exact h1 (by omega)
        · have := a5 (by omega)
          exact h2 (by omega)

theorem go_length : ∀ (ms : List Seg) (t : Seg), (mergeGo t ms).length ≤ ms.length + 1
  | [], t => by simp [mergeGo]
  | m :: ms, t => by
    unfold mergeGo
    rw [List.length_cons]
    split
    · have := go_length ms { t with y1 := max m.y1 t.y1 }; omega
    · split
      · have := go_length ms { t with x1 := max m.x1 t.x1 }; omega
      · rw [List.length_cons]
        have := go_length ms m; omega

/-- C149, for a list with at least one metal: the merged metals go over the same points of the same layers, no one is continued by the next, and there are no more than before. -/
theorem C149_merged_partial (l : List Seg) (hl : l ≠ []) : ∃ r : List Seg, merge l = r.map some ∧ (∀ layer x y, (∃ s ∈ r, Covers s layer x y) ↔ ∃ s ∈ l, Covers s layer x y)
    ∧ r.IsChain (fun a b => ¬Continues a b) ∧ r.length ≤ l.length := by
  cases l with
  | nil => exact absurd rfl hl
  | cons m ms =>
    refine ⟨mergeGo m ms, rfl, fun layer x y => ?_, go_chain ms m, go_length ms m⟩
    rw [go_covers]
    simp only [List.mem_cons, exists_eq_or_imp]

/-- C149: without metals there is one in the result that was never set. -/
theorem C149_violated : none ∈ merge [] := by decide

/-- Two metals that continue each other become one. -/
example : merge [⟨2, 0, 0, 0, 5⟩, ⟨2, 0, 5, 0, 10⟩, ⟨1, 0, 0, 10, 0⟩] = [some ⟨2, 0, 0, 0, 10⟩, some ⟨1, 0, 0, 10, 0⟩] := by decide

end Verif.PowerMetal

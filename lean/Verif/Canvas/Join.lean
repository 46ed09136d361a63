import Verif.Canvas.RectToGrid
import Verif.RemoveDup.Model

/-!
# C59: joining wires

Model of `Canvas.join_wires` (`align/cell_fabric/canvas.py` 92-146) on one center line; the rectangles of a center
line come from `removeDuplicates` (model in `Verif/RemoveDup`, C10: sorted by their start).  The transformation on
top of the stack, applied in `addWire`, is left out (it is the identity outside of nested drawings).
-/

namespace Verif.Canvas

open Verif.Grid Verif.RemoveDup

/-! ## Model -/

/-- `new_length <= max_l` (138); `none` is infinity. -/
def within (maxL : Option Int) (len : Int) : Bool := maxL.all fun m => decide (len ≤ m)

/-- `max_l` (111-116), from the rule of the layer and the argument; the argument is positive (assertion 111). -/
def maxLen (rule arg : Option Int) : Option (Option Int) :=
  match arg with
  | none => some rule
  | some a =>
    if a > 0 then
      match rule with
      | none => some (some a)
      | some r => some (some (if a < r then a else r))
    else none

/-- Lines 127-131: the net may be joined. -/
def netAllowed (exclude : List String) (incl : Option (List String)) (nm : String) : Bool :=
  !(exclude.contains nm) && incl.all fun l => l.contains nm

/-- The condition in line 138. -/
def joins (d : Dir) (maxL : Option Int) (len : Int) (a b : Node) : Bool :=
  decide (a.netName = b.netName) && decide (a.rect.c1 d - a.rect.c0 d = b.rect.c1 d - b.rect.c0 d) &&
    within maxL len && decide (a.netType = b.netType)

/-- The loop over the rectangles of a center line (124-144) from index `idx` with `new_length = len`: the pairs for
which a wire is added. -/
def joinLoop (d : Dir) (allowed : String → Bool) (maxL : Option Int) : Nat → Int → List Node → List (Nat × Node × Node)
  | _, _, [] => []
  | idx, len, a :: rest =>
    if a.netType = .blockage then joinLoop d allowed maxL (idx + 1) len rest
    else if a.netName.all fun nm => !(allowed nm) then joinLoop d allowed maxL (idx + 1) 0 rest
    else
      match rest with
      | [] => []
      | b :: rest' =>
        if joins d maxL (len + (b.rect.hi d - a.rect.lo d)) a b then
          (idx, a, b) :: joinLoop d allowed maxL (idx + 1)
            (len + (b.rect.hi d - a.rect.lo d) - (b.rect.hi d - b.rect.lo d)) (b :: rest')
        else joinLoop d allowed maxL (idx + 1) 0 (b :: rest')

/-- The wire added for a pair (139-141): `cl` is twice the center line. -/
def joinWire {β : Type} (clg : Grid LineAttr) (spg : Grid β) (d : Dir) (cl : Int) (a b : Node) : Option (List Int) :=
  (clg.inverseBounds (cl.fdiv 2)).bind fun c =>
    (spg.inverseBounds (a.rect.lo d)).bind fun bi =>
      (spg.inverseBounds (b.rect.hi d)).bind fun ei =>
        wireSegment clg spg (decide (d = .h)) c.1 bi.1 ei.2

/-! ## Proofs -/

section
variable {d : Dir} {allowed : String → Bool} {maxL : Option Int}

/-- **C59, what is joined.**  A wire is added only between consecutive wires of a track that are of the same
allowed net, of the same width, and no blockages. -/
theorem C59_consecutive : ∀ {l : List Node} {n : Nat} {len : Int} {i : Nat} {a b : Node},
    (i, a, b) ∈ joinLoop d allowed maxL n len l →
    ∃ k, i = n + k ∧ l[k]? = some a ∧ l[k + 1]? = some b ∧ a.netName = b.netName ∧
      (∃ nm, a.netName = some nm ∧ allowed nm = true) ∧ a.netType ≠ .blockage ∧ a.netType = b.netType ∧
      a.rect.c1 d - a.rect.c0 d = b.rect.c1 d - b.rect.c0 d
  | [], _, _, _, _, _, h => by cases h
  | x :: rest, n, len, i, a, b, h => by
    have lift : ∀ {len'}, (i, a, b) ∈ joinLoop d allowed maxL (n + 1) len' rest → ∃ k, i = n + k ∧
        (x :: rest)[k]? = some a ∧ (x :: rest)[k + 1]? = some b ∧ a.netName = b.netName ∧
        (∃ nm, a.netName = some nm ∧ allowed nm = true) ∧ a.netType ≠ .blockage ∧ a.netType = b.netType ∧
        a.rect.c1 d - a.rect.c0 d = b.rect.c1 d - b.rect.c0 d := by
      intro len' h'
      obtain ⟨k, h1, h2, h3, h4⟩ := C59_consecutive h'
      exact ⟨k + 1, by omega, by simpa using h2, by simpa using h3, h4⟩
    unfold joinLoop at h
    split at h
    · exact lift h
    · rename_i hb
      split at h
      · exact lift h
      · rename_i hall
        split at h
        · cases h
        · rename_i y rest'
          split at h
          · rename_i hj
            rcases List.mem_cons.mp h with he | h
            · simp only [Prod.mk.injEq] at he
              obtain ⟨rfl, rfl, rfl⟩ := he
              simp only [joins, Bool.and_eq_true, decide_eq_true_eq] at hj
              refine ⟨0, rfl, rfl, rfl, hj.1.1.1, ?_, hb, hj.2, hj.1.1.2⟩
              cases hn : a.netName with
              | none => rw [hn] at hall; simp at hall
              | some nm => rw [hn] at hall; exact ⟨nm, rfl, by simpa using hall⟩
            · exact lift h
          · exact lift h

/-- The wires at positions `i` and `i + 1` are joined. -/
def JoinedAt (out : List (Nat × Node × Node)) (i : Nat) : Prop := ∃ a b, (i, a, b) ∈ out

theorem joined_ge {l : List Node} {n : Nat} {len : Int} {i : Nat}
    (h : JoinedAt (joinLoop d allowed maxL n len l) i) : n ≤ i := by
  obtain ⟨a, b, h⟩ := h
  obtain ⟨k, rfl, _⟩ := C59_consecutive h
  omega

/-- A run that starts at the head of the list. -/
theorem run_head : ∀ {l : List Node} {n : Nat} {len : Int} {m : Nat} {first last : Node}, 0 < m →
    (∀ i, n ≤ i → i < n + m → JoinedAt (joinLoop d allowed maxL n len l) i) →
    l[0]? = some first → l[m]? = some last →
    within maxL (len + (last.rect.hi d - first.rect.lo d)) = true
  | [], _, _, _, _, _, _, _, h, _ => by cases h
  | x :: rest, n, len, m, first, last, hm, hrun, h0, hl => by
    simp only [List.getElem?_cons_zero, Option.some.injEq] at h0
    subst h0
    have h1 := hrun n (Nat.le_refl _) (by omega)
    unfold joinLoop at h1 hrun
    by_cases hb : x.netType = .blockage
    · rw [if_pos hb] at h1
      have := joined_ge h1; omega
    · simp only [if_neg hb] at h1 hrun
      by_cases hall : (x.netName.all fun nm => !(allowed nm)) = true
      · rw [if_pos hall] at h1
        have := joined_ge h1; omega
      · simp only [if_neg hall] at h1 hrun
        cases rest with
        | nil => obtain ⟨_, _, h⟩ := h1; cases h
        | cons y rest' =>
          simp only at h1 hrun
          by_cases hj : joins d maxL (len + (y.rect.hi d - x.rect.lo d)) x y = true
          · simp only [if_pos hj] at hrun
            have hj' := hj
            simp only [joins, Bool.and_eq_true, decide_eq_true_eq] at hj'
            by_cases hm1 : m = 1
            · subst hm1
              simp only [List.getElem?_cons_succ, List.getElem?_cons_zero, Option.some.injEq] at hl
              subst hl
              exact hj'.1.2
            · obtain ⟨m', rfl⟩ : ∃ m', m = m' + 1 := ⟨m - 1, by omega⟩
              have := run_head (l := y :: rest') (n := n + 1) (m := m') (first := y) (last := last)
                (len := len + (y.rect.hi d - x.rect.lo d) - (y.rect.hi d - y.rect.lo d)) (by omega) ?_ rfl
                (by simpa using hl)
              · have he : len + (y.rect.hi d - x.rect.lo d) - (y.rect.hi d - y.rect.lo d) +
                    (last.rect.hi d - y.rect.lo d) = len + (last.rect.hi d - x.rect.lo d) := by ring
                rwa [he] at this
              · intro i h2 h3
                obtain ⟨a, b, hab⟩ := hrun i (by omega) (by omega)
                rcases List.mem_cons.mp hab with he | hab
                · simp only [Prod.mk.injEq] at he; omega
                · exact ⟨a, b, hab⟩
          · rw [if_neg hj] at h1
            have := joined_ge h1; omega

theorem within_mono {len len' : Int} (h : len ≤ len') (hw : within maxL len' = true) : within maxL len = true := by
  cases maxL with
  | none => rfl
  | some m => simp only [within, Option.all_some, decide_eq_true_eq] at hw ⊢; omega

theorem run_any : ∀ {l : List Node} {n : Nat} {len : Int} {k m : Nat} {first last : Node}, 0 ≤ len → 0 < m →
    l.Pairwise (fun a b => a.rect.lo d ≤ b.rect.lo d) →
    (∀ i, n + k ≤ i → i < n + k + m → JoinedAt (joinLoop d allowed maxL n len l) i) →
    l[k]? = some first → l[k + m]? = some last →
    within maxL (last.rect.hi d - first.rect.lo d) = true
  | [], _, _, _, _, _, _, _, _, _, _, h, _ => by simp at h
  | x :: rest, n, len, 0, m, first, last, hlen, hm, _, hrun, h0, hl => by
    have hw := run_head (d := d) (allowed := allowed) (maxL := maxL) (n := n) (len := len) (l := x :: rest)
      (first := first) (last := last) hm (by simpa using hrun) h0 (by simpa using hl)
    exact within_mono (by omega) hw
  | x :: rest, n, len, k + 1, m, first, last, hlen, hm, hs, hrun, h0, hl => by
    rw [List.pairwise_cons] at hs
    have next : ∀ {len'}, 0 ≤ len' →
        (∀ i, n + (k + 1) ≤ i → i < n + (k + 1) + m → JoinedAt (joinLoop d allowed maxL (n + 1) len' rest) i) →
        within maxL (last.rect.hi d - first.rect.lo d) = true := by
      intro len' hlen' h'
      refine run_any (n := n + 1) (k := k) (m := m) (l := rest) hlen' hm hs.2 ?_ (by simpa using h0) ?_
      · intro i h1 h2; exact h' i (by omega) (by omega)
      · rw [← hl, show k + 1 + m = k + m + 1 by omega]; rfl
    unfold joinLoop at hrun
    by_cases hb : x.netType = .blockage
    · simp only [if_pos hb] at hrun
      exact next hlen hrun
    · simp only [if_neg hb] at hrun
      by_cases hall : (x.netName.all fun nm => !(allowed nm)) = true
      · simp only [if_pos hall] at hrun
        exact next (Int.le_refl 0) hrun
      · simp only [if_neg hall] at hrun
        cases rest with
        | nil => obtain ⟨_, _, h⟩ := hrun (n + (k + 1)) (by omega) (by omega); cases h
        | cons y rest' =>
          simp only at hrun
          by_cases hj : joins d maxL (len + (y.rect.hi d - x.rect.lo d)) x y = true
          · simp only [if_pos hj] at hrun
            refine next (len' := len + (y.rect.hi d - x.rect.lo d) - (y.rect.hi d - y.rect.lo d)) ?_ ?_
            · have := hs.1 y List.mem_cons_self
              omega
            · intro i h1 h2
              obtain ⟨a, b, hab⟩ := hrun i h1 h2
              rcases List.mem_cons.mp hab with he | hab
              · simp only [Prod.mk.injEq] at he; omega
              · exact ⟨a, b, hab⟩
          · simp only [if_neg hj] at hrun
            exact next (Int.le_refl 0) hrun

/-- **C59, the limit.**  On a track whose wires are sorted by their start, any run of wires joined one to the next
is at most as long as the limit. -/
theorem C59_limit {l : List Node} (hs : l.Pairwise (fun a b => a.rect.lo d ≤ b.rect.lo d)) {i j : Nat} (hij : i < j)
    (hrun : ∀ k, i ≤ k → k < j → JoinedAt (joinLoop d allowed maxL 0 0 l) k)
    {first last : Node} (hi : l[i]? = some first) (hj : l[j]? = some last) {m : Int} (hm : maxL = some m) :
    last.rect.hi d - first.rect.lo d ≤ m := by
  have := run_any (n := 0) (len := 0) (k := i) (m := j - i) (Int.le_refl 0) (by omega) hs
    (by intro k h1 h2; exact hrun k (by omega) (by omega)) hi (by rw [← hj]; congr 1; omega)
  rw [hm] at this
  simpa [within] using this

/-- Two consecutive wires that may be joined. -/
def Eligible (d : Dir) (allowed : String → Bool) (a b : Node) : Prop :=
  a.netName = b.netName ∧ (∃ nm, a.netName = some nm ∧ allowed nm = true) ∧ a.netType ≠ .blockage ∧
    a.netType = b.netType ∧ a.rect.c1 d - a.rect.c0 d = b.rect.c1 d - b.rect.c0 d

theorem greedy_aux : ∀ {l : List Node} {n : Nat} {len : Int} {k : Nat} {a b : Node},
    (∀ x, l[0]? = some x → x.netType = .blockage → len = 0) →
    l[k]? = some a → l[k + 1]? = some b → Eligible d allowed a b →
    ¬ JoinedAt (joinLoop d allowed maxL n len l) (n + k) →
    ∃ s first, s ≤ k ∧ l[s]? = some first ∧
      (∀ i, s ≤ i → i < k → JoinedAt (joinLoop d allowed maxL n len l) (n + i)) ∧
      within maxL ((if s = 0 then len else 0) + (b.rect.hi d - first.rect.lo d)) = false
  | [], _, _, _, _, _, _, h, _, _, _ => by simp at h
  | x :: rest, n, len, k, a, b, hlen, ha, hb, he, hnot => by
    -- what holds of the rest carries over
    have lift : ∀ (out : List (Nat × Node × Node)) (len' : Int) (k' : Nat), k = k' + 1 →
        (∀ i, JoinedAt (joinLoop d allowed maxL (n + 1) len' rest) i → JoinedAt out i) →
        ¬ JoinedAt out (n + k) → (∀ y, rest[0]? = some y → y.netType = .blockage → len' = 0) →
        (∀ first, rest[0]? = some first → ∀ z : Int, within maxL (len' + (z - first.rect.lo d)) = false →
          (∃ f, JoinedAt out n ∧ f = x ∧ within maxL (len + (z - f.rect.lo d)) = false) ∨
          within maxL (z - first.rect.lo d) = false) →
        ∃ s first, s ≤ k ∧ (x :: rest)[s]? = some first ∧
          (∀ i, s ≤ i → i < k → JoinedAt out (n + i)) ∧
          within maxL ((if s = 0 then len else 0) + (b.rect.hi d - first.rect.lo d)) = false := by
      intro out len' k' hk hsub hno hblk hstart
      subst hk
      obtain ⟨s, first, h1, h2, h3, h4⟩ := greedy_aux (l := rest) (n := n + 1) (len := len') (k := k')
        hblk (by simpa using ha) (by simpa using hb) he
        (fun hj => hno (by have := hsub _ hj; rwa [show n + (k' + 1) = n + 1 + k' by omega]))
      have hrest : ∀ i, s + 1 ≤ i → i < k' + 1 → JoinedAt out (n + i) := by
        intro i hi1 hi2
        have := hsub _ (h3 (i - 1) (by omega) (by omega))
        rwa [show n + 1 + (i - 1) = n + i by omega] at this
      by_cases hs0 : s = 0
      · subst hs0
        rw [if_pos rfl] at h4
        rcases hstart first h2 _ h4 with ⟨f, hj, rfl, hw⟩ | hw
        · refine ⟨0, f, by omega, rfl, ?_, by rw [if_pos rfl]; exact hw⟩
          intro i _ hi
          by_cases hi0 : i = 0
          · subst hi0; exact hj
          · exact hrest i (by omega) hi
        · refine ⟨1, first, by omega, by simpa using h2, hrest, ?_⟩
          simpa using hw
      · refine ⟨s + 1, first, by omega, by simpa using h2, hrest, ?_⟩
        rw [if_neg hs0] at h4
        rw [if_neg (by omega)]
        exact h4
    cases k with
    | zero =>
      simp only [List.getElem?_cons_zero, Option.some.injEq] at ha
      subst ha
      refine ⟨0, x, Nat.le_refl _, rfl, fun i h1 h2 => by omega, ?_⟩
      rw [if_pos rfl]
      obtain ⟨e1, ⟨nm, e2, e3⟩, e4, e5, e6⟩ := he
      unfold joinLoop at hnot
      rw [if_neg e4, if_neg (by simp [e2, e3])] at hnot
      cases rest with
      | nil => simp at hb
      | cons y rest' =>
        simp only [Nat.zero_add, List.getElem?_cons_succ, List.getElem?_cons_zero, Option.some.injEq] at hb
        subst hb
        by_contra hw
        rw [Bool.not_eq_false] at hw
        apply hnot
        simp only
        rw [if_pos (by simp [joins, e1, e5, e6, hw])]
        exact ⟨x, y, List.mem_cons_self⟩
    | succ k =>
      unfold joinLoop at hnot ⊢
      by_cases hbl : x.netType = .blockage
      · simp only [if_pos hbl] at hnot ⊢
        -- a blockage keeps the length; it can only be at the start of a run
        have h0 := hlen x rfl hbl
        subst h0
        refine lift _ 0 k rfl (fun _ h => h) hnot (fun _ _ _ => rfl) ?_
        intro first hf z hw
        right; simpa using hw
      · simp only [if_neg hbl] at hnot ⊢
        by_cases hall : (x.netName.all fun nm => !(allowed nm)) = true
        · simp only [if_pos hall] at hnot ⊢
          refine lift _ 0 k rfl (fun _ h => h) hnot (fun _ _ _ => rfl) ?_
          intro first hf z hw
          right; simpa using hw
        · simp only [if_neg hall] at hnot ⊢
          cases rest with
          | nil => simp at ha
          | cons y rest' =>
            simp only at hnot ⊢
            by_cases hj : joins d maxL (len + (y.rect.hi d - x.rect.lo d)) x y = true
            · simp only [if_pos hj] at hnot ⊢
              refine lift _ (len + (y.rect.hi d - x.rect.lo d) - (y.rect.hi d - y.rect.lo d)) k rfl ?_ hnot ?_ ?_
              · rintro i ⟨a, b, h⟩; exact ⟨a, b, List.mem_cons_of_mem _ h⟩
              · intro z hz hzb
                simp only [List.getElem?_cons_zero, Option.some.injEq] at hz
                subst hz
                simp only [joins, Bool.and_eq_true, decide_eq_true_eq] at hj
                exact absurd (hj.2.trans hzb) hbl
              · intro first hf z hw
                simp only [List.getElem?_cons_zero, Option.some.injEq] at hf
                subst hf
                left
                refine ⟨x, ⟨x, y, List.mem_cons_self⟩, rfl, ?_⟩
                rw [← hw]
                congr 1; ring
            · simp only [if_neg hj] at hnot ⊢
              refine lift _ 0 k rfl (fun _ h => h) hnot (fun _ _ _ => rfl) ?_
              intro first hf z hw
              right; simpa using hw

/-- **C59, wires are left apart only for a reason.**  If two consecutive wires that may be joined are not, then
joining them would make the run that ends in the first one longer than the limit. -/
theorem C59_greedy {l : List Node} {k : Nat} {a b : Node} (ha : l[k]? = some a) (hb : l[k + 1]? = some b)
    (he : Eligible d allowed a b) (hnot : ¬ JoinedAt (joinLoop d allowed maxL 0 0 l) k) :
    ∃ m s first, maxL = some m ∧ s ≤ k ∧ l[s]? = some first ∧
      (∀ i, s ≤ i → i < k → JoinedAt (joinLoop d allowed maxL 0 0 l) i) ∧
      m < b.rect.hi d - first.rect.lo d := by
  obtain ⟨s, first, h1, h2, h3, h4⟩ := greedy_aux (n := 0) (len := 0) (fun _ _ _ => rfl) ha hb he (by simpa using hnot)
  simp only [ite_self, Int.zero_add, Nat.zero_add] at h3 h4
  cases maxL with
  | none => simp [within] at h4
  | some m =>
    simp only [within, Option.all_some, decide_eq_false_iff_not, not_le] at h4
    exact ⟨m, s, first, rfl, h1, h2, h3, h4⟩

end

/-- **C59, the arguments.**  The limit in force is at most the given maximum and at most the rule of the layer, and
one of them; excluded nets are never allowed, and others only if no set of nets is given or they are in it. -/
theorem C59_arguments {rule : Option Int} {m : Int} {lim : Option Int} (h : maxLen rule (some m) = some lim) :
    0 < m ∧ (∃ k, lim = some k ∧ k ≤ m ∧ (∀ r, rule = some r → k ≤ r) ∧ (k = m ∨ rule = some k)) ∧
    ∀ exclude incl nm, netAllowed exclude incl nm = true ↔ nm ∉ exclude ∧ ∀ l, incl = some l → nm ∈ l := by
  simp only [maxLen] at h
  split at h
  · rename_i hm
    refine ⟨by omega, ?_, ?_⟩
    · cases rule with
      | none =>
        simp only [Option.some.injEq] at h
        exact ⟨m, h.symm, Int.le_refl _, (by intro r hr; cases hr), Or.inl rfl⟩
      | some r =>
        simp only [Option.some.injEq] at h
        subst h
        refine ⟨_, rfl, ?_, ?_, ?_⟩
        · split <;> omega
        · intro r' hr'
          simp only [Option.some.injEq] at hr'
          subst hr'
          split <;> omega
        · split
          · exact Or.inl rfl
          · exact Or.inr rfl
    · intro exclude incl nm
      simp only [netAllowed, Bool.and_eq_true, Bool.not_eq_true', List.contains_eq_mem, decide_eq_false_iff_not]
      cases incl <;> simp
  · cases h

example : maxLen (some 100) (some 40) = some (some 40) ∧ maxLen none none = some none ∧
    maxLen none (some (-1)) = none := by decide

theorem valueFlat_true {α : Type} {g : Grid α} {v : Int} {p : Int × α} (h : g.valueFlat v true = some p) :
    g.valueFlat v false = some p := by
  unfold Grid.valueFlat at h ⊢
  split at h
  · rename_i hn
    rw [if_pos hn]
    simp only [Bool.true_and] at h
    split at h
    · cases h
    · simpa using h
  · cases h

/-- **C59, the wire that is drawn.**  If the ends of the two wires are on the grid of stop points, the added wire
reaches exactly from the start of the first to the end of the second. -/
theorem C59_drawn_partial {β : Type} {clg : Grid LineAttr} {spg : Grid β} {f l : Int} (hs : Bounded spg f l)
    {d : Dir} {cl : Int} {a b : Node} (ha : IsLine spg.coords f l (a.rect.lo d))
    (hb : IsLine spg.coords f l (b.rect.hi d)) {r : List Int} (h : joinWire clg spg d cl a b = some r) :
    ∃ c0 c1, (d = .h → r = [a.rect.lo d, c0, b.rect.hi d, c1]) ∧ (d ≠ .h → r = [c0, a.rect.lo d, c1, b.rect.hi d]) := by
  simp only [joinWire, Option.bind_eq_some_iff] at h
  obtain ⟨c, _, bi, hbi, ei, hei, hw⟩ := h
  have key : ∀ (x : Int) (p : (Int × Int) × (Int × Int)), IsLine spg.coords f l x → spg.inverseBounds x = some p →
      ∀ q, (spg.value p.1 true = some q ∨ spg.value p.2 true = some q) → q.1 = x := by
    intro x p hx hp q hq
    obtain ⟨lo, hi, cl, ch, al, ah, h1, h2, h3, h4, h5, _, _, _, h6, _⟩ := C07_inverseBounds spg f l hs x
    rw [hp, Option.some.injEq] at h1
    subst h1
    have he := h6.mpr hx
    subst he
    rw [h2] at h3
    simp only [Option.some.injEq, Prod.mk.injEq] at h3
    have hq' : spg.value lo true = some q := by rcases hq with h | h <;> exact h
    have := valueFlat_true (g := spg) hq'
    have h7 : spg.value lo false = some q := this
    rw [h2, Option.some.injEq] at h7
    rw [← h7]
    simp only
    omega
  unfold wireSegment at hw
  split at hw
  · rename_i cc w _ bb _ ee _ hc hb' he'
    have e1 := key _ _ ha hbi _ (Or.inl hb')
    have e2 := key _ _ hb hei _ (Or.inr he')
    simp only at e1 e2
    subst e1
    subst e2
    simp only [Option.some.injEq] at hw
    subst hw
    refine ⟨cc - w.fdiv 2, cc + w.fdiv 2, ?_, ?_⟩
    · intro hd; simp [hd]
    · intro hd; simp [hd]
  · cases hw

/-- Wires 0-10, 20-30, 40-50, 60-70 of one net on a track. -/
def joinExample : List Node :=
  [⟨⟨0, 0, 10, 4⟩, some "a", .drawing, none, false⟩, ⟨⟨20, 0, 30, 4⟩, some "a", .drawing, none, false⟩,
   ⟨⟨40, 0, 50, 4⟩, some "a", .drawing, none, false⟩, ⟨⟨60, 0, 70, 4⟩, some "a", .drawing, none, false⟩]

example : (joinLoop .h (netAllowed [] none) (some 50) 0 0 joinExample).map (fun p => p.1) = [0, 1] ∧
    (joinLoop .h (netAllowed [] none) (some 49) 0 0 joinExample).map (fun p => p.1) = [0, 2] ∧
    (joinLoop .h (netAllowed ["a"] none) none 0 0 joinExample) = [] := by decide

example : joinExample.Pairwise (fun a b => a.rect.lo .h ≤ b.rect.lo .h) := by decide

/-- Tracks every 10 of width 4. -/
def clg10 : Grid LineAttr := ⟨[(0, (4, none)), (10, (4, none))], [0, 1]⟩

example : joinWire clg10 stops5 .h 4 ⟨⟨0, 0, 10, 4⟩, some "a", .drawing, none, false⟩
    ⟨⟨20, 0, 30, 4⟩, some "a", .drawing, none, false⟩ = some [0, -2, 30, 2] := by decide

/-- **C59 is violated off the grid.**  The wires 3-7 and 12-17 may be joined under a limit of 14, but the drawn
wire reaches to the next stop points, from 0 to 20. -/
theorem C59_violated_off_grid :
    let a : Node := ⟨⟨3, 0, 7, 4⟩, some "a", .drawing, none, false⟩
    let b : Node := ⟨⟨12, 0, 17, 4⟩, some "a", .drawing, none, false⟩
    joinLoop .h (netAllowed [] none) (some 14) 0 0 [a, b] = [(0, a, b)] ∧
      joinWire clg10 stops5 .h 0 a b = some [0, -2, 20, 2] := by decide

end Verif.Canvas

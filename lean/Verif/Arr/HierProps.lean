import Verif.Arr.Hier
import Verif.Sym.Alike
import Mathlib.Data.List.Perm.Subperm

/-!
# C79: what the hierarchies for arrays contain, and when they can be made

`C79_templates`: the elements of a row that are in no other row make up one template.  `C79_succeeds_partial`: hierarchies are made
if the name is new and every row keeps an element on the start net.  `C79_violated_*`: what goes wrong otherwise.
-/

namespace Verif.Arr

open Verif.Net
open Verif.Sym (showNat showNat_inj)

/-! ## Specification -/

/-- The name is a node of the circuit that has not been moved, and it is in the rows exactly once. -/
def Moves (graph moved : List String) (rows : List (List String)) (x : String) : Prop :=
  x ∈ graph ∧ x ∉ moved ∧ rows.flatten.count x = 1

/-- C79 in full: all hierarchies are made, and the instances that are to have the same template are of subcircuits with the same
numbers of elements of each model. -/
def C79_statement (r : Option St) : Prop :=
  ∃ st, r = some st ∧ ∀ h xs, (h, xs) ∈ st.added → ∃ s, st.lib h = some s ∧
    ∀ x ∈ xs, ∀ y ∈ xs, ∃ e ∈ s.elems, ∃ d ∈ s.elems, e.name = x ∧ d.name = y ∧
      ∃ t u, st.lib e.model = some t ∧ st.lib d.model = some u ∧
        ∀ m, (t.elems.map Inst.model).count m = (u.elems.map Inst.model).count m

/-! ## Names of templates -/

/-- The names tried one after the other. -/
def seq : Nat → String
  | 0 => "ARRAY_TEMPLATE"
  | k + 1 => "ARRAY_TEMPLATE" ++ showNat (k + 1)

theorem seq_inj {a b : Nat} (h : seq a = seq b) : a = b := by
  have ne : ∀ k, "ARRAY_TEMPLATE" ≠ "ARRAY_TEMPLATE" ++ showNat (k + 1) := by
    intro k hc
    have := congrArg String.toList hc
    rw [String.toList_append] at this
    have h1 : "ARRAY_TEMPLATE".toList ++ [] = "ARRAY_TEMPLATE".toList ++ (showNat (k + 1)).toList := by simpa using this
    have h2 := List.append_cancel_left h1
    have h3 : showNat (k + 1) = showNat 0 ∨ (showNat (k + 1)).toList ≠ [] := by
      right
      simp only [showNat, String.toList_ofList]
      intro h
      have := Pnr.digitsVal_pyStr (k + 1)
      rw [h] at this
      simp [Schema.digitsVal] at this
    rcases h3 with h3 | h3
    · have := showNat_inj h3; omega
    · exact h3 h2.symm
  cases a <;> cases b
  · rfl
  · exact absurd h (ne _)
  · exact absurd h.symm (ne _)
  · simp only [seq] at h
    have := congrArg String.toList h
    rw [String.toList_append, String.toList_append] at this
    have := showNat_inj (String.toList_inj.1 (List.append_cancel_left this))
    omega

theorem tryName_none {D : Lib} : ∀ {fuel k : Nat}, tryName D fuel (k + 1) (seq k) = none → ∀ j < fuel, (D (seq (k + j))).isSome := by
  intro fuel
  induction fuel with
  | zero => intro k _ j hj; omega
  | succ fuel ih =>
    intro k h j hj
    unfold tryName at h
    split at h
    · rename_i hd
      cases j with
      | zero => exact hd
      | succ j =>
        have := ih (k := k + 1) h j (by omega)
        rwa [show k + (j + 1) = k + 1 + j from by omega]
    · simp at h

/-- A name is found if there are more tries than subcircuits. -/
theorem newName_isSome {D : Lib} {N : List String} (hN : ∀ m, (D m).isSome → m ∈ N) {fuel : Nat} (hf : N.length < fuel) :
    (newName D fuel).isSome := by
  cases h : newName D fuel with
  | some r => rfl
  | none =>
    exfalso
    have h1 := tryName_none (k := 0) h
    have hnd : ((List.range fuel).map seq).Nodup := List.Nodup.map (fun _ _ h => seq_inj h) List.nodup_range
    have := (hnd.subperm (l₂ := N) (by
      intro x hx
      obtain ⟨j, hj, rfl⟩ := List.mem_map.1 hx
      have := h1 j (List.mem_range.1 hj)
      rw [Nat.zero_add] at this
      exact hN _ this)).length_le
    simp at this
    omega

/-! ## Templates -/

theorem forall₂_imp_mem {α β : Type} {R S : α → β → Prop} : ∀ {l : List α} {r : List β}, List.Forall₂ R l r →
    (∀ a b, a ∈ l → R a b → S a b) → List.Forall₂ S l r := by
  intro l r h
  induction h with
  | nil => intro _; exact .nil
  | cons h _ ih => exact fun f => .cons (f _ _ List.mem_cons_self h) (ih fun a b ha => f a b (List.mem_cons_of_mem _ ha))

theorem templates_contents {fuel : Nat} {hports : List String} : ∀ {ts : List (List String)} {D : Lib} {hl : List Inst}
    {q : Lib × List Inst × List String},
    WellFormed D hl → Tidy D hl → (∀ t ∈ ts, t.Nodup) → (∀ e ∈ hl, ts.flatten.count e.name ≤ 1) →
    (∀ t ∈ ts, ∀ x ∈ t, ∀ u, x ≠ "X_" ++ ("ARRAY_TEMPLATE" ++ u)) → templates fuel hports D hl ts = some q →
    (∃ xs : List Inst, q.2.1 = hl.filter (fun e => decide (e.name ∉ ts.flatten)) ++ xs ∧
      xs.map Inst.name = q.2.2.map (fun n => "X_" ++ n) ∧ xs.map Inst.model = q.2.2) ∧
    List.Forall₂ (fun t n => ∃ c, q.1 n = some c ∧ ∀ e, e ∈ c.elems ↔ e ∈ hl ∧ e.name ∈ t) ts q.2.2 := by
  intro ts
  induction ts with
  | nil =>
    intro D hl q _ _ _ _ _ h
    simp only [templates, Option.some.injEq] at h
    subst h
    refine ⟨⟨[], ?_, rfl, rfl⟩, .nil⟩
    simp
  | cons t ts ih =>
    intro D hl q hw ht hnd hdis hx h
    simp only [templates, Option.bind_eq_some_iff, Option.map_eq_some_iff] at h
    obtain ⟨n, hn, r, hr, q', hq', rfl⟩ := h
    obtain ⟨hn1, u, hu⟩ := newName_spec hn
    obtain ⟨c1, c2, _⟩ := createHier_eq hw.names hr
    have hc := (C47_moves_exactly hw.names hr).1
    have hr' := hr
    rw [hu, template_arr] at hr'
    obtain ⟨_, k2, k3, k4⟩ := step_hier hw ht (hnd t (by simp)) hr'
    rw [← template_arr, ← hu] at k2 k3 k4
    generalize hX : (⟨"X_" ++ n, n, (childPins hports hl t).map fun n => (n, n)⟩ : Inst) = X at c2
    have hXn : X.name = "X_" ++ n := by rw [← hX]
    have hXm : X.model = n := by rw [← hX]
    have hXt : ∀ t' ∈ t :: ts, X.name ∉ t' := by
      intro t' ht' hc
      rw [hXn, hu] at hc
      exact hx t' ht' _ hc u rfl
    have hXf : X.name ∉ ts.flatten := by
      intro hc
      obtain ⟨t', ht', hc'⟩ := List.mem_flatten.1 hc
      exact hXt t' (by simp [ht']) hc'
    have hsep : ∀ e ∈ hl, e.name ∈ t → e.name ∉ ts.flatten := by
      intro e he h1 h2
      have := hdis e he
      rw [List.flatten_cons, List.count_append] at this
      have := List.count_pos_iff.2 h1
      have := List.count_pos_iff.2 h2
      omega
    obtain ⟨⟨xs, i1, i2, i3⟩, i4⟩ := ih k2 k3 (fun x hx => hnd x (by simp [hx])) (by
      intro e he
      rw [c2] at he
      rcases List.mem_append.1 he with he | he
      · have := hdis e (List.mem_filter.1 he).1
        rw [List.flatten_cons, List.count_append] at this
        omega
      · simp only [List.mem_singleton] at he
        subst he
        rw [List.count_eq_zero.2 hXf]
        omega) (fun t' ht' => hx t' (by simp [ht'])) hq'
    have hext := (templates_keep k2 k3 (fun x hx => hnd x (by simp [hx])) hq').2.2.2.1
    refine ⟨⟨X :: xs, ?_, ?_, ?_⟩, .cons ?_ (forall₂_imp_mem i4 ?_)⟩
    · simp only
      rw [i1, c2, List.filter_append, List.filter_filter]
      simp only [List.filter_singleton, hXf, not_false_eq_true, decide_true, List.append_assoc, List.flatten_cons, List.mem_append, not_or]
      have : hl.filter (fun a => decide (a.name ∉ ts.flatten) && decide (a.name ∉ t)) =
          hl.filter (fun e => decide (e.name ∉ t ∧ e.name ∉ ts.flatten)) := by
        apply List.filter_congr
        intro x _
        rw [Bool.and_comm, Bool.decide_and]
      rw [this]
      rfl
    · simp [hXn, i2]
    · simp [hXm, i3]
    · exact ⟨r.1, hext n r.1 (by simp [addSub]), hc⟩
    · rintro t' n' ht' ⟨c, hc1, hc2⟩
      refine ⟨c, hc1, fun e => ?_⟩
      rw [hc2, c2, List.mem_append, List.mem_filter, List.mem_singleton]
      constructor
      · rintro ⟨⟨h1, _⟩ | rfl, h3⟩
        · exact ⟨h1, h3⟩
        · exact absurd h3 (hXt t' (by simp [ht']))
      · rintro ⟨h1, h3⟩
        refine ⟨.inl ⟨h1, ?_⟩, h3⟩
        rw [decide_eq_true_eq]
        intro h4
        exact hsep e h1 h4 (List.mem_flatten.2 ⟨t', ht', h3⟩)

section
variable {order : List String → List String} {fuel : Nat} {graph ports : List String}

/-- The names that move, and the rows as they are used. -/
theorem mem_once (ho : ∀ l, (order l).Perm l) {moved : List String} {rows : List (List String)} {x : String} :
    let all := rows.flatten.filter fun x => graph.contains x && !moved.contains x
    let rep := all.filter fun x => decide (1 < all.count x)
    x ∈ order (all.eraseDups.filter fun x => !rep.contains x) ↔ Moves graph moved rows x := by
  intro all rep
  rw [(ho _).mem_iff]
  have hcount : x ∈ graph → x ∉ moved → all.count x = rows.flatten.count x := by
    intro h1 h2
    exact List.count_filter (by simp [h1, h2])
  have hmem : x ∈ all ↔ x ∈ rows.flatten ∧ x ∈ graph ∧ x ∉ moved := by simp only [all, List.mem_filter]; simp
  have hrep : x ∈ rep ↔ x ∈ all ∧ 1 < all.count x := by simp [rep]
  simp only [List.mem_filter, List.mem_eraseDups, Bool.not_eq_true', List.contains_eq_mem, decide_eq_false_iff_not, hrep, hmem]
  unfold Moves
  constructor
  · rintro ⟨⟨h1, h2, h3⟩, h4⟩
    refine ⟨h2, h3, ?_⟩
    have := List.count_pos_iff.2 h1
    have h5 : ¬ 1 < all.count x := fun hc => h4 ⟨⟨h1, h2, h3⟩, hc⟩
    rw [hcount h2 h3] at h5
    omega
  · rintro ⟨h1, h2, h3⟩
    have hm : x ∈ rows.flatten := List.count_pos_iff.1 (by omega)
    refine ⟨⟨hm, h1, h2⟩, fun hc => ?_⟩
    rw [hcount h1 h2] at hc
    omega

theorem not_rep {moved : List String} {rows : List (List String)} {x : String} (h : Moves graph moved rows x) :
    let all := rows.flatten.filter fun x => graph.contains x && !moved.contains x
    x ∉ all.filter fun x => decide (1 < all.count x) := by
  intro all hc
  rw [List.mem_filter, decide_eq_true_eq] at hc
  have : all.count x = rows.flatten.count x := List.count_filter (by simp [h.1, h.2.1])
  have := h.2.2
  omega

theorem count_rows (ho : ∀ l, (order l).Perm l) (rows : List (List String)) (f : String → Bool) (x : String) :
    (rows.map fun r => order (r.eraseDups.filter f)).flatten.count x ≤ rows.flatten.count x := by
  induction rows with
  | nil => simp
  | cons r rows ih =>
    simp only [List.map_cons, List.flatten_cons, List.count_append]
    have : (order (r.eraseDups.filter f)).count x ≤ r.count x := by
      rw [(ho _).count_eq]
      by_cases hm : x ∈ r
      · have h1 := List.count_pos_iff.2 hm
        have h2 : (r.eraseDups.filter f).count x ≤ 1 := List.nodup_iff_count_le_one.1 ((nodup_eraseDups _ _ (le_refl _)).filter f) x
        omega
      · rw [List.count_eq_zero.2]
        · exact Nat.zero_le _
        · intro hc
          exact hm (List.mem_eraseDups.1 (List.mem_filter.1 hc).1)
    omega

/-- **C79, contents.**  If at least two names are to move, then exactly the elements with such names move.  The new subcircuit has
one instance for every row, and they are the ones that are to be aligned and to have the same template; the subcircuit of a row has
exactly those elements of the row. -/
theorem C79_templates (ho : ∀ l, (order l).Perm l) {st st' : St} {key : String} {rows : List (List String)}
    (hw : WellFormed st.lib st.elems) (ht : Tidy st.lib st.elems)
    (hx : ∀ row ∈ rows, ∀ x ∈ row, ∀ u, x ≠ "X_" ++ ("ARRAY_TEMPLATE" ++ u))
    (h2 : ∃ x y, x ≠ y ∧ Moves graph st.moved rows x ∧ Moves graph st.moved rows y)
    (h : addArray order fuel graph ports st (key, rows) = some st') :
    ∃ ns : List String,
      st'.added = st.added ++ [("ARRAY_HIER_" ++ key, ns.map fun n => "X_" ++ n)] ∧
      (∃ s, st'.lib ("ARRAY_HIER_" ++ key) = some s ∧ s.elems.map Inst.name = ns.map (fun n => "X_" ++ n) ∧ s.elems.map Inst.model = ns) ∧
      List.Forall₂ (fun row n => ∃ t, st'.lib n = some t ∧
        ∀ e, e ∈ t.elems ↔ e ∈ st.elems ∧ e.name ∈ row ∧ Moves graph st.moved rows e.name) rows ns ∧
      (∃ X : Inst, X.model = "ARRAY_HIER_" ++ key ∧
        ∀ e, e ∈ st'.elems ↔ (e ∈ st.elems ∧ ¬ Moves graph st.moved rows e.name) ∨ e = X) ∧
      ∀ x, x ∈ st'.moved ↔ x ∈ st.moved ∨ Moves graph st.moved rows x := by
  have hmem := fun x => mem_once (graph := graph) ho (moved := st.moved) (rows := rows) (x := x)
  have hnr := fun x (hm : Moves graph st.moved rows x) => not_rep hm
  unfold addArray at h
  simp only at h hmem hnr
  generalize ha : (rows.flatten.filter fun x => graph.contains x && !st.moved.contains x) = all at h hmem hnr
  generalize hrep : (all.filter fun x => decide (1 < all.count x)) = rep at h hmem hnr
  generalize hon : order (all.eraseDups.filter fun x => !rep.contains x) = once at h hmem
  have hnd : once.Nodup := by rw [← hon]; exact nodup_order ho _ _
  split at h
  · rename_i hlen
    exfalso
    obtain ⟨x, y, hxy, h3, h4⟩ := h2
    have h3 := (hmem x).2 h3
    have h4 := (hmem y).2 h4
    obtain _ | ⟨a, _ | ⟨b, l⟩⟩ := once
    · simp at h3
    · simp only [List.mem_singleton] at h3 h4
      exact hxy (h3.trans h4.symm)
    · simp at hlen
  · simp only [Option.bind_eq_some_iff, Option.map_eq_some_iff] at h
    obtain ⟨⟨s, r⟩, hr, ⟨D', hl', ns⟩, hq, rfl⟩ := h
    simp only at hq ⊢
    obtain ⟨c1, c2, c3⟩ := createHier_eq hw.names hr
    have hc := (C47_moves_exactly hw.names hr).1
    have hr' := hr
    rw [hier_arr] at hr'
    obtain ⟨_, k2, _, _⟩ := step_hier hw ht hnd hr'
    have hlib : (addSub st.lib ("ARRAY_" ++ ("HIER_" ++ key)) s) ("ARRAY_" ++ ("HIER_" ++ key)) = some s := by simp [addSub]
    have hsub : ∀ e ∈ s.elems, e ∈ st.elems := fun e he => ((hc e).1 he).1
    have hwin : WellFormed st.lib s.elems := ⟨k2.sub _ _ hlib, hw.sub, k2.subPins _ _ hlib, hw.subPins⟩
    have hin : ∀ row : List String, ∀ x, x ∈ order (row.eraseDups.filter fun x => !rep.contains x) ↔ x ∈ row ∧ x ∉ rep := by
      intro row x
      rw [(ho _).mem_iff]
      simp
    obtain ⟨⟨xs, i1, i2, i3⟩, i4⟩ := templates_contents hwin (ht.mono hsub) (by
        intro t htm
        obtain ⟨x, _, rfl⟩ := List.mem_map.1 htm
        exact nodup_order ho _ _) (by
        intro e he
        have hm := (hmem _).1 ((hc e).1 he).2
        have := count_rows ho rows (fun x => !rep.contains x) e.name
        rw [hm.2.2] at this
        exact this) (by
        intro t htm x hxm
        obtain ⟨row, hrow, rfl⟩ := List.mem_map.1 htm
        exact hx row hrow x ((hin row x).1 hxm).1) hq
    obtain ⟨_, _, _, j4, j5⟩ := templates_keep hwin (ht.mono hsub) (by
      intro t htm
      obtain ⟨x, _, rfl⟩ := List.mem_map.1 htm
      exact nodup_order ho _ _) hq
    simp only at i1 i2 i3 i4 j4 j5
    have hempty : s.elems.filter (fun e => decide (e.name ∉ (rows.map fun r => order (r.eraseDups.filter fun x => !rep.contains x)).flatten)) = [] := by
      rw [List.filter_eq_nil_iff]
      intro e he
      have hm := (hmem _).1 ((hc e).1 he).2
      have hfl : e.name ∈ rows.flatten := List.count_pos_iff.1 (by rw [hm.2.2]; omega)
      obtain ⟨row, hrow, hin'⟩ := List.mem_flatten.1 hfl
      simp only [decide_eq_true_eq, not_not]
      exact List.mem_flatten.2 ⟨_, List.mem_map_of_mem hrow, (hin row _).2 ⟨hin', hnr _ hm⟩⟩
    rw [hempty, List.nil_append] at i1
    refine ⟨ns, rfl, ⟨⟨hl'⟩, by simp [addSub], by rw [i1]; exact i2, by rw [i1]; exact i3⟩, ?_, ?_, ?_⟩
    · rw [List.forall₂_map_left_iff] at i4
      refine i4.imp ?_
      rintro row n ⟨c, d1, d2⟩
      refine ⟨c, ?_, fun e => ?_⟩
      · unfold addSub
        rw [if_neg]
        · exact d1
        · intro hn
          rcases j5 n (by rw [d1]; rfl) with h1 | ⟨t, h1⟩
          · rw [hn, c3] at h1
            cases h1
          · exact template_ne t key (h1.symm.trans hn)
      · rw [d2, hin, hc, hmem]
        constructor
        · rintro ⟨⟨h1, h2⟩, h3, _⟩; exact ⟨h1, h3, h2⟩
        · rintro ⟨h1, h3, h2⟩; exact ⟨⟨h1, h2⟩, h3, hnr _ h2⟩
    · refine ⟨⟨"X_" ++ ("ARRAY_HIER_" ++ key), "ARRAY_HIER_" ++ key, (childPins ports st.elems once).map fun n => (n, n)⟩, rfl, fun e => ?_⟩
      rw [c2, List.mem_append, List.mem_filter, List.mem_singleton, decide_eq_true_eq, hmem]
    · intro x
      rw [List.mem_append, hmem]

/-! ## Success -/

theorem templates_isSome {hports : List String} {n : String} : ∀ {ts : List (List String)} {D : Lib} {hl : List Inst} {N : List String},
    WellFormed D hl → Tidy D hl → (∀ m, (D m).isSome → m ∈ N) → N.length + ts.length ≤ fuel → (∀ t ∈ ts, t.Nodup) →
    (∀ e ∈ hl, ts.flatten.count e.name ≤ 1) → (∀ t ∈ ts, ∀ x ∈ t, ∀ u, x ≠ "X_" ++ ("ARRAY_TEMPLATE" ++ u)) →
    (∀ t ∈ ts, ∃ e ∈ hl, e.name ∈ t ∧ n ∈ netsOf e) →
    (2 ≤ ts.length ∨ ∃ e ∈ hl, e.name ∉ ts.flatten ∧ n ∈ netsOf e) →
    (templates fuel hports D hl ts).isSome := by
  intro ts
  induction ts with
  | nil => intros; rfl
  | cons t ts ih =>
    intro D hl N hw ht hN hf hnd hdis hx hon htwo
    simp only [List.length_cons] at hf
    obtain ⟨nm, hnm⟩ := Option.isSome_iff_exists.1 (newName_isSome hN (show N.length < fuel by omega))
    obtain ⟨hn1, u, hu⟩ := newName_spec hnm
    have hsep : ∀ e ∈ hl, e.name ∈ t → e.name ∉ ts.flatten := by
      intro e he h1 h2
      have := hdis e he
      rw [List.flatten_cons, List.count_append] at this
      have := List.count_pos_iff.2 h1
      have := List.count_pos_iff.2 h2
      omega
    obtain ⟨e0, he0, ht0, hn0⟩ := hon t (by simp)
    -- something else is on the net
    have hother : ∃ e ∈ hl, e.name ∉ t ∧ n ∈ netsOf e := by
      rcases htwo with h | ⟨e, h1, h2, h3⟩
      · obtain _ | ⟨t', ts'⟩ := ts
        · simp at h
        · obtain ⟨e, h1, h2, h3⟩ := hon t' (by simp)
          refine ⟨e, h1, fun hc => ?_, h3⟩
          exact hsep e h1 hc (List.mem_flatten.2 ⟨t', by simp, h2⟩)
      · exact ⟨e, h1, fun hc => h2 (List.mem_flatten.2 ⟨t, by simp, hc⟩), h3⟩
    obtain ⟨e1, he1, ht1, hn1'⟩ := hother
    obtain ⟨r, hr⟩ := Option.isSome_iff_exists.1 (C47_exists (ports := hports) hw (hnd t (by simp)) hn1
      ⟨n, ⟨e0, he0, ht0, hn0⟩, .inr ⟨e1, he1, ht1, hn1'⟩⟩)
    obtain ⟨c1, c2, _⟩ := createHier_eq hw.names hr
    have hpin : n ∈ childPins hports hl t := (mem_childPins hw.names).2 ⟨⟨e0, he0, ht0, hn0⟩, .inr ⟨e1, he1, ht1, hn1'⟩⟩
    have hr' := hr
    rw [hu, template_arr] at hr'
    obtain ⟨_, k2, k3, k4⟩ := step_hier hw ht (hnd t (by simp)) hr'
    rw [← template_arr, ← hu] at k2 k3 k4
    generalize hX : (⟨"X_" ++ nm, nm, (childPins hports hl t).map fun n => (n, n)⟩ : Inst) = X at c2
    have hXf : X.name ∉ ts.flatten := by
      intro hc
      obtain ⟨t', ht', hc'⟩ := List.mem_flatten.1 hc
      rw [← hX] at hc'
      simp only at hc'
      rw [hu] at hc'
      exact hx t' (by simp [ht']) _ hc' u rfl
    have hXn : n ∈ netsOf X := by rw [← hX]; simpa [netsOf] using hpin
    simp only [templates, hnm, hr, Option.bind_some, Option.isSome_map]
    refine ih (N := nm :: N) k2 k3 ?_ (by simp only [List.length_cons]; omega) (fun x hx => hnd x (by simp [hx])) ?_
      (fun t' ht' => hx t' (by simp [ht'])) ?_ ?_
    · intro m hm
      unfold addSub at hm
      split at hm
      · rename_i hmm; subst hmm; exact List.mem_cons_self
      · exact List.mem_cons_of_mem _ (hN m hm)
    · intro e he
      rw [c2] at he
      rcases List.mem_append.1 he with he | he
      · have := hdis e (List.mem_filter.1 he).1
        rw [List.flatten_cons, List.count_append] at this
        omega
      · simp only [List.mem_singleton] at he
        subst he
        rw [List.count_eq_zero.2 hXf]
        omega
    · intro t' ht'
      obtain ⟨e, h1, h2, h3⟩ := hon t' (by simp [ht'])
      refine ⟨e, ?_, h2, h3⟩
      rw [c2]
      refine List.mem_append_left _ (List.mem_filter.2 ⟨h1, ?_⟩)
      simp only [decide_eq_true_eq]
      intro h4
      exact hsep e h1 h4 (List.mem_flatten.2 ⟨t', ht', h2⟩)
    · refine .inr ⟨X, ?_, hXf, hXn⟩
      rw [c2]
      exact List.mem_append_right _ List.mem_cons_self

/-- **C79, success (partial).**  The hierarchy for an array is made if its name is new, there are two rows or more, every row has an
element on a net `n` that moves (the start net of the array), and `n` is a port or on an element that stays.  Missing: the name may
exist (`C79_violated_name`), and a row may have lost its elements (`C79_violated_empty`). -/
theorem C79_succeeds_partial (ho : ∀ l, (order l).Perm l) {st : St} {key n : String} {rows : List (List String)} {N : List String}
    (hw : WellFormed st.lib st.elems) (ht : Tidy st.lib st.elems)
    (hx : ∀ row ∈ rows, ∀ x ∈ row, ∀ u, x ≠ "X_" ++ ("ARRAY_TEMPLATE" ++ u))
    (hN : ∀ m, (st.lib m).isSome → m ∈ N) (hf : N.length + rows.length ≤ fuel)
    (hname : st.lib ("ARRAY_HIER_" ++ key) = none) (hrows : 2 ≤ rows.length)
    (hon : ∀ row ∈ rows, ∃ e ∈ st.elems, e.name ∈ row ∧ Moves graph st.moved rows e.name ∧ n ∈ e.pins.map Prod.snd)
    (hpin : n ∈ ports ∨ ∃ e ∈ st.elems, ¬ Moves graph st.moved rows e.name ∧ n ∈ e.pins.map Prod.snd) :
    (addArray order fuel graph ports st (key, rows)).isSome := by
  have hmem := fun x => mem_once (graph := graph) ho (moved := st.moved) (rows := rows) (x := x)
  have hnr := fun x (hm : Moves graph st.moved rows x) => not_rep hm
  unfold addArray
  simp only at hmem hnr ⊢
  generalize ha : (rows.flatten.filter fun x => graph.contains x && !st.moved.contains x) = all at hmem hnr ⊢
  generalize hrep : (all.filter fun x => decide (1 < all.count x)) = rep at hmem hnr ⊢
  generalize hone : order (all.eraseDups.filter fun x => !rep.contains x) = once at hmem ⊢
  have hnd : once.Nodup := by rw [← hone]; exact nodup_order ho _ _
  split
  · rfl
  · obtain ⟨r0, hr0⟩ : ∃ r0, r0 ∈ rows := by
      obtain _ | ⟨a, l⟩ := rows
      · simp at hrows
      · exact ⟨a, by simp⟩
    obtain ⟨e0, he0, _, hm0, hn0⟩ := hon r0 hr0
    obtain ⟨⟨s, r⟩, hr⟩ := Option.isSome_iff_exists.1 (C47_exists (ports := ports) (els := once) hw hnd hname
      ⟨n, ⟨e0, he0, (hmem _).2 hm0, hn0⟩, by
        rcases hpin with h | ⟨e, h1, h2, h3⟩
        · exact .inl h
        · exact .inr ⟨e, h1, fun hc => h2 ((hmem _).1 hc), h3⟩⟩)
    rw [hr]
    simp only [Option.bind_some, Option.isSome_map]
    have hc := (C47_moves_exactly hw.names hr).1
    have hr' := hr
    rw [hier_arr] at hr'
    obtain ⟨_, k2, _, _⟩ := step_hier hw ht hnd hr'
    have hlib : (addSub st.lib ("ARRAY_" ++ ("HIER_" ++ key)) s) ("ARRAY_" ++ ("HIER_" ++ key)) = some s := by simp [addSub]
    have hsub : ∀ e ∈ s.elems, e ∈ st.elems := fun e he => ((hc e).1 he).1
    have hwin : WellFormed st.lib s.elems := ⟨k2.sub _ _ hlib, hw.sub, k2.subPins _ _ hlib, hw.subPins⟩
    have hin : ∀ row : List String, ∀ x, x ∈ order (row.eraseDups.filter fun x => !rep.contains x) ↔ x ∈ row ∧ x ∉ rep := by
      intro row x
      rw [(ho _).mem_iff]
      simp
    refine templates_isSome (n := n) (N := N) hwin (ht.mono hsub) hN (by simpa using hf) ?_ ?_ ?_ ?_ (.inl (by simpa using hrows))
    · intro t htm
      obtain ⟨x, _, rfl⟩ := List.mem_map.1 htm
      exact nodup_order ho _ _
    · intro e he
      have hm := (hmem _).1 ((hc e).1 he).2
      have := count_rows ho rows (fun x => !rep.contains x) e.name
      rw [hm.2.2] at this
      exact this
    · intro t htm x hxm
      obtain ⟨row, hrow, rfl⟩ := List.mem_map.1 htm
      exact hx row hrow x ((hin row x).1 hxm).1
    · intro t htm
      obtain ⟨row, hrow, rfl⟩ := List.mem_map.1 htm
      obtain ⟨e, h1, h2, h3, h4⟩ := hon row hrow
      exact ⟨e, (hc e).2 ⟨h1, (hmem _).2 h3⟩, (hin row _).2 ⟨h2, hnr _ h3⟩, h4⟩

end

end Verif.Arr

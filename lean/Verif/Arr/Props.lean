import Verif.Arr.Search

/-! # C78: facts about the search for arrays -/

namespace Verif.Arr

open Verif (pySort mem_pySort pySort_perm length_pySort)

variable {V : View}

theorem mem_sorted {l : List String} {x : String} : x ∈ sorted l ↔ x ∈ l := mem_pySort

/-! ## Groups -/

theorem groups_spec (ks : List (String × String)) :
    let g := ks.foldl (fun g kn => addTo g kn.1 kn.2) ([] : List (String × List String))
    (∀ e ∈ g, e.2 = (ks.filter fun kn => kn.1 = e.1).map Prod.snd) ∧ ∀ kn ∈ ks, ∃ e ∈ g, e.1 = kn.1 := by
  have key : ∀ (todo done : List (String × String)) (g : List (String × List String)),
      ((∀ e ∈ g, e.2 = (done.filter fun kn => kn.1 = e.1).map Prod.snd) ∧ ∀ kn ∈ done, ∃ e ∈ g, e.1 = kn.1) →
      let g' := todo.foldl (fun g kn => addTo g kn.1 kn.2) g
      (∀ e ∈ g', e.2 = ((done ++ todo).filter fun kn => kn.1 = e.1).map Prod.snd) ∧ ∀ kn ∈ done ++ todo, ∃ e ∈ g', e.1 = kn.1 := by
    intro todo
    induction todo with
    | nil => intro done g h; simpa using h
    | cons kn todo ih =>
      intro done g h
      have := ih (done ++ [kn]) (addTo g kn.1 kn.2) ?_
      · simpa using this
      obtain ⟨h1, h2⟩ := h
      unfold addTo
      split
      · rename_i hany
        constructor
        · intro e he
          obtain ⟨d, hd, rfl⟩ := List.mem_map.1 he
          by_cases hk : d.1 = kn.1
          · rw [if_pos hk]
            simp only [List.filter_append, List.map_append]
            rw [← h1 d hd]
            simp [hk]
          · rw [if_neg hk, h1 d hd]
            simp [List.filter_append, Ne.symm hk]
        · intro x hx
          rcases List.mem_append.1 hx with hx | hx
          · obtain ⟨e, he, hex⟩ := h2 x hx
            refine ⟨_, List.mem_map_of_mem he, ?_⟩
            split <;> exact hex
          · simp only [List.mem_singleton] at hx
            subst hx
            simp only [List.any_eq_true, decide_eq_true_eq] at hany
            obtain ⟨e, he, hex⟩ := hany
            refine ⟨_, List.mem_map_of_mem he, ?_⟩
            split <;> exact hex
      · rename_i hany
        simp only [List.any_eq_true, decide_eq_true_eq, not_exists, not_and] at hany
        constructor
        · intro e he
          rcases List.mem_append.1 he with he | he
          · rw [h1 e he]
            simp [List.filter_append, Ne.symm (hany e he)]
          · simp only [List.mem_singleton] at he
            subst he
            have : done.filter (fun x => decide (x.1 = kn.1)) = [] := by
              rw [List.filter_eq_nil_iff]
              intro x hx
              obtain ⟨e, he, hex⟩ := h2 x hx
              simp only [decide_eq_true_eq]
              intro hc
              exact hany e he (hex.trans hc)
            simp [List.filter_append, this]
        · intro x hx
          rcases List.mem_append.1 hx with hx | hx
          · obtain ⟨e, he, hex⟩ := h2 x hx
            exact ⟨e, List.mem_append_left _ he, hex⟩
          · simp only [List.mem_singleton] at hx
            subst hx
            exact ⟨_, List.mem_append_right _ List.mem_cons_self, rfl⟩
  simpa using key ks [] [] ⟨by simp, by simp⟩

/-- The pairs that the groups are made of. -/
theorem keyed {start : String} {lvl1 : List String} {ks : List (String × String)}
    (h : (lvl1.mapM fun n => (V.key start n).map fun k => (k, n)) = some ks) :
    ks.map Prod.snd = lvl1 ∧ ∀ kn ∈ ks, V.key start kn.2 = some kn.1 := by
  have := Hier.mapM_forall₂ h
  clear h
  induction this with
  | nil => simp
  | cons h1 _ ih =>
    simp only [Option.map_eq_some_iff] at h1
    obtain ⟨k, hk, rfl⟩ := h1
    simp only [List.map_cons, ih.1, List.mem_cons, true_and]
    rintro x (rfl | hx)
    · exact hk
    · exact ih.2 x hx

/-- A group: at least two different neighbours of the start node, with the same key. -/
theorem group_of {start : String} {lvl1 : List String} {gs : List (List String)} (hnd : lvl1.Nodup)
    (h : matchingGroups V start lvl1 = some gs) {g : List String} (hg : g ∈ gs) :
    g.Nodup ∧ 2 ≤ g.length ∧ (∀ x ∈ g, x ∈ lvl1) ∧ ∃ k, ∀ x ∈ g, V.key start x = some k := by
  unfold matchingGroups at h
  simp only [Option.map_eq_some_iff] at h
  obtain ⟨ks, hks, rfl⟩ := h
  obtain ⟨h1, h2⟩ := keyed hks
  rw [mem_pySort, List.mem_filter, List.mem_map] at hg
  obtain ⟨⟨e, he, rfl⟩, hlen⟩ := hg
  have h3 := (groups_spec ks).1 e he
  have hsub : e.2.Sublist lvl1 := by
    rw [h3, ← h1]
    exact List.filter_sublist.map _
  refine ⟨hnd.sublist hsub, of_decide_eq_true hlen, fun x hx => hsub.subset hx, e.1, fun x hx => ?_⟩
  rw [h3, List.mem_map] at hx
  obtain ⟨kn, hkn, rfl⟩ := hx
  rw [List.mem_filter] at hkn
  rw [h2 kn hkn.1]
  simpa using hkn.2

/-! ## Levels -/

theorem mem_next {tr : List String} {g : Rows} {r : String × List String} (h : r ∈ next V tr g) :
    r.2 ≠ [] ∧ ∃ q ∈ g, q.1 = r.1 ∧ ∀ y ∈ r.2, ∃ n ∈ q.2, y ∈ fresh V tr n ∧ V.sd n y = true := by
  unfold next at h
  rw [List.mem_filter, List.mem_map] at h
  obtain ⟨⟨q, hq, rfl⟩, hne⟩ := h
  refine ⟨by simpa using hne, q, hq, rfl, ?_⟩
  intro y hy
  simp only [List.mem_flatMap, List.mem_filter, mem_sorted] at hy
  exact hy

theorem next_keys (tr : List String) (g : Rows) : ((next V tr g).map Prod.fst).Sublist (g.map Prod.fst) := by
  unfold next
  refine (List.filter_sublist.map _).trans ?_
  rw [List.map_map]
  exact List.Sublist.refl _

theorem extend_keys (a g : Rows) : (extend a g).map Prod.fst = a.map Prod.fst := by
  simp [extend, Function.comp_def]

theorem trace_keys : ∀ {fuel : Nat} {g a r : Rows} {vis : List String}, trace V fuel g vis a = some r →
    r.map Prod.fst = a.map Prod.fst := by
  intro fuel
  induction fuel with
  | zero => intro g a r vis h; simp [trace] at h
  | succ fuel ih =>
    intro g a r vis h
    simp only [trace] at h
    split at h
    · split at h
      · rw [ih h, extend_keys]
      · rw [← Option.some.inj h, extend_keys]
    · rw [← Option.some.inj h]

/-- Whatever holds for the nodes of the rows at the start and is passed on along the edges that are followed holds for all. -/
theorem trace_inv {P : String → String → Prop} {bar : List String}
    (hstep : ∀ src n y, P src n → y ∉ bar → (∃ vis, y ∈ fresh V vis n ∧ y ∉ vis) → V.sd n y = true → P src y)
    (hfresh : ∀ vis n y, y ∈ fresh V vis n → y ∉ vis) :
    ∀ {fuel : Nat} {g a r : Rows} {vis : List String}, (∀ x ∈ bar, x ∈ vis) → (g.map Prod.fst).Nodup →
      (∀ q ∈ g, ∀ x ∈ q.2, P q.1 x) → (∀ q ∈ a, ∀ x ∈ q.2, P q.1 x) → trace V fuel g vis a = some r →
      ∀ q ∈ r, ∀ x ∈ q.2, P q.1 x := by
  intro fuel
  induction fuel with
  | zero => intro g a r vis _ _ _ _ h; simp [trace] at h
  | succ fuel ih =>
    intro g a r vis hb hnd hg ha h
    have hnx : ∀ q ∈ next V vis g, ∀ x ∈ q.2, P q.1 x := by
      intro q hq x hx
      obtain ⟨_, q', hq', he, hall⟩ := mem_next hq
      obtain ⟨n, hn, hy, hsd⟩ := hall x hx
      rw [← he]
      have := hfresh _ _ _ hy
      exact hstep _ n _ (hg q' hq' n hn) (fun hc => this (hb x hc)) ⟨vis, hy, this⟩ hsd
    have hext : ∀ q ∈ extend a (next V vis g), ∀ x ∈ q.2, P q.1 x := by
      intro q hq x hx
      obtain ⟨q', hq', rfl⟩ := List.mem_map.1 hq
      rcases List.mem_append.1 hx with hx | hx
      · exact ha q' hq' x hx
      · cases hl : (next V vis g).lookup q'.1 with
        | none => simp [hl] at hx
        | some v =>
          rw [hl] at hx
          exact hnx _ (Hier.lookup_mem hl) x hx
    simp only [trace] at h
    split at h
    · split at h
      · exact ih (fun x hx => List.mem_append_left _ (hb x hx)) (hnd.sublist (next_keys _ _)) hnx hext h
      · rw [← Option.some.inj h]; exact hext
    · rw [← Option.some.inj h]; exact ha

/-! ## The search ends -/

theorem trace_ends {N : List String} (hfresh : ∀ vis n y, y ∈ fresh V vis n → y ∉ vis ∧ y ∈ N) :
    ∀ (fuel : Nat) (g a : Rows) (vis : List String), (N.filter fun x => !vis.contains x).length < fuel →
      (trace V fuel g vis a).isSome := by
  intro fuel
  induction fuel with
  | zero => intro g a vis h; omega
  | succ fuel ih =>
    intro g a vis h
    simp only [trace]
    split
    · rename_i hc
      split
      · apply ih
        have hne : next V vis g ≠ [] := by
          intro he; simp [he] at hc
        obtain ⟨r, hr⟩ := List.exists_mem_of_ne_nil _ hne
        obtain ⟨h1, q, _, _, h2⟩ := mem_next hr
        obtain ⟨y, hy⟩ := List.exists_mem_of_ne_nil _ h1
        obtain ⟨n, _, hyn, _⟩ := h2 y hy
        obtain ⟨h3, h4⟩ := hfresh _ _ _ hyn
        have hlt : (N.filter fun x => !(vis ++ (next V vis g).flatMap Prod.snd).contains x).length <
            (N.filter fun x => !vis.contains x).length := by
          have hsub : (N.filter fun x => !(vis ++ (next V vis g).flatMap Prod.snd).contains x).Sublist
              (N.filter fun x => !vis.contains x) := by
            apply List.monotone_filter_right
            intro x hx
            simp only [List.contains_eq_mem, List.mem_append, Bool.not_eq_true', decide_eq_false_iff_not, not_or] at hx ⊢
            exact hx.1
          refine Nat.lt_of_le_of_ne hsub.length_le fun he => ?_
          have := hsub.eq_of_length he
          have hy2 : y ∈ N.filter fun x => !vis.contains x := by simp [h3, h4]
          rw [← this] at hy2
          simp only [List.contains_eq_mem, List.mem_filter, List.mem_append, List.mem_flatMap, Bool.not_eq_true',
            decide_eq_false_iff_not, not_or, not_exists, not_and] at hy2
          exact hy2.2.2 r hr hy
        omega
      · rfl
    · rfl

/-! ## Counting -/

/-- `r` has at most as many nodes of each kind as `q`. -/
def Le (V : View) (r q : String × List String) : Prop := ∀ k, (r.2.map V.kind).count k ≤ (q.2.map V.kind).count k

/-- Rows are nested, and the ones still followed are the largest. -/
structure Nested (V : View) (a g : Rows) : Prop where
  all : ∀ r ∈ a, ∀ q ∈ a, Le V r q ∨ Le V q r
  top : ∀ r ∈ a, ∀ q ∈ a, q.1 ∈ g.map Prod.fst → Le V r q

theorem matchBranches_count {g : Rows} (h : matchBranches V g = true) {r q : String × List String} (hr : r ∈ g) (hq : q ∈ g)
    (k : Option String) : (r.2.map V.kind).count k = (q.2.map V.kind).count k := by
  unfold matchBranches at h
  split at h
  · rename_i hz
    rw [List.getLast?_eq_none_iff] at hz
    simp [hz] at hr
  · rename_i z hz
    simp only [List.all_eq_true, List.isPerm_iff] at h
    rw [(h r hr).count_eq, (h q hq).count_eq]

theorem nested_extend {a g : Rows} {vis : List String} (hi : Nested V a g) (hnd : (g.map Prod.fst).Nodup)
    (hm : matchBranches V (next V vis g) = true) : Nested V (extend a (next V vis g)) (next V vis g) := by
  have hnd' : ((next V vis g).map Prod.fst).Nodup := hnd.sublist (next_keys _ _)
  have top : ∀ r ∈ a, ∀ q ∈ a, q.1 ∈ (next V vis g).map Prod.fst →
      Le V (r.1, r.2 ++ ((next V vis g).lookup r.1).getD []) (q.1, q.2 ++ ((next V vis g).lookup q.1).getD []) := by
    intro r hr q hq hact k
    have h0 := hi.top r hr q hq ((next_keys _ _).subset hact) k
    obtain ⟨z, hz, hzq⟩ := List.mem_map.1 hact
    have hlq : (next V vis g).lookup q.1 = some z.2 := (Hier.lookup_iff_mem hnd').2 (by rw [← hzq]; exact hz)
    simp only [List.map_append, List.count_append, hlq, Option.getD_some]
    cases hl : (next V vis g).lookup r.1 with
    | none => simp only [Option.getD_none, List.map_nil, List.count_nil]; omega
    | some v =>
      have := matchBranches_count hm (Hier.lookup_mem hl) hz k
      simp only [Option.getD_some] at this ⊢
      omega
  constructor
  · intro r' hr' q' hq'
    obtain ⟨r, hr, rfl⟩ := List.mem_map.1 hr'
    obtain ⟨q, hq, rfl⟩ := List.mem_map.1 hq'
    by_cases h1 : q.1 ∈ (next V vis g).map Prod.fst
    · exact .inl (top r hr q hq h1)
    by_cases h2 : r.1 ∈ (next V vis g).map Prod.fst
    · exact .inr (top q hq r hr h2)
    have hnone : ∀ x, x ∉ (next V vis g).map Prod.fst → (next V vis g).lookup x = none := by
      intro x hx
      cases hl : (next V vis g).lookup x with
      | none => rfl
      | some v => exact absurd (List.mem_map_of_mem (f := Prod.fst) (Hier.lookup_mem hl)) hx
    rw [hnone _ h1, hnone _ h2]
    simpa [Le] using hi.all r hr q hq
  · intro r' hr' q' hq' hact
    obtain ⟨r, hr, rfl⟩ := List.mem_map.1 hr'
    obtain ⟨q, hq, rfl⟩ := List.mem_map.1 hq'
    exact top r hr q hq hact

theorem trace_nested : ∀ {fuel : Nat} {g a r : Rows} {vis : List String}, Nested V a g → (g.map Prod.fst).Nodup →
    trace V fuel g vis a = some r → ∀ x ∈ r, ∀ y ∈ r, Le V x y ∨ Le V y x := by
  intro fuel
  induction fuel with
  | zero => intro g a r vis _ _ h; simp [trace] at h
  | succ fuel ih =>
    intro g a r vis hi hnd h
    simp only [trace] at h
    split at h
    · rename_i hc
      have hi' := nested_extend hi hnd (Bool.and_eq_true_iff.1 hc).2
      split at h
      · exact ih hi' (hnd.sublist (next_keys _ _)) h
      · rw [← Option.some.inj h]; exact hi'.all
    · rw [← Option.some.inj h]; exact hi.all

/-- Rows keep what they start with. -/
theorem trace_prefix : ∀ {fuel : Nat} {g a r : Rows} {vis : List String}, trace V fuel g vis a = some r →
    ∀ q ∈ r, ∃ p ∈ a, p.1 = q.1 ∧ p.2 <+: q.2 := by
  intro fuel
  induction fuel with
  | zero => intro g a r vis h; simp [trace] at h
  | succ fuel ih =>
    intro g a r vis h
    have hext : ∀ q ∈ extend a (next V vis g), ∃ p ∈ a, p.1 = q.1 ∧ p.2 <+: q.2 := by
      intro q hq
      obtain ⟨p, hp, rfl⟩ := List.mem_map.1 hq
      exact ⟨p, hp, rfl, List.prefix_append _ _⟩
    simp only [trace] at h
    split at h
    · split at h
      · intro q hq
        obtain ⟨p, hp, h1, h2⟩ := ih h q hq
        obtain ⟨p', hp', h3, h4⟩ := hext p hp
        exact ⟨p', hp', h3.trans h1, h4.trans h2⟩
      · rw [← Option.some.inj h]; exact hext
    · rw [← Option.some.inj h]; intro q hq; exact ⟨q, hq, rfl, List.prefix_refl _⟩

end Verif.Arr

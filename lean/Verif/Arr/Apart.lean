import Verif.Arr.Examples

/-!
# C78: rows that meet

`C78_apart`: the search does not go on from an instance that two rows share.
-/

namespace Verif.Arr

open Verif.Sym (Inst Sub Lib getEl getEl_some weights reducedSD)

/-- As `Path`, and nothing in `away` is left: only the end may be in it. -/
inductive Free (L : Lib) (s : Sub) (bar away : List String) (x : String) : String → Prop
  | start : Free L s bar away x x
  | step {y z : String} : Free L s bar away x y → y ∉ away → Touch s y z → (∃ w ∈ weights L s.elems y z, w ≠ "B" ∧ w ≠ "G") →
      z ∉ bar → Free L s bar away x z

section
variable {V : View}

theorem apart_spec : ∀ {g : Rows} {seen : List String}, apart V seen g = true → (g.map Prod.fst).Nodup →
    (∀ r ∈ g, ∀ x ∈ r.2, x ∈ seen → V.kind x = none) ∧
    ∀ r ∈ g, ∀ q ∈ g, r.1 ≠ q.1 → ∀ x ∈ r.2, x ∈ q.2 → V.kind x = none := by
  intro g
  induction g with
  | nil => intro _ _ _; simp
  | cons r g ih =>
    intro seen h hnd
    simp only [apart] at h
    split at h
    · cases h
    · rename_i hany
      rw [List.map_cons, List.nodup_cons] at hnd
      obtain ⟨i1, i2⟩ := ih h hnd.2
      have h1 : ∀ x ∈ r.2, x ∈ seen → V.kind x = none := by
        intro x hx hs
        by_contra hk
        apply hany
        rw [List.any_eq_true]
        exact ⟨x, hx, by simp [hs, Option.isSome_iff_ne_none, hk]⟩
      refine ⟨?_, ?_⟩
      · intro q hq x hx hs
        rcases List.mem_cons.1 hq with rfl | hq
        · exact h1 x hx hs
        · exact i1 q hq x hx (List.mem_append_left _ hs)
      · intro p hp q hq hne x hx hx'
        rcases List.mem_cons.1 hp with rfl | hp' <;> rcases List.mem_cons.1 hq with rfl | hq'
        · exact absurd rfl hne
        · exact i1 q hq' x hx' (List.mem_append_right _ hx)
        · exact i1 p hp' x hx (List.mem_append_right _ hx')
        · exact i2 p hp' q hq' hne x hx hx'

/-- A row of the extended array: what was in it, and what is next. -/
theorem mem_extend {a nx : Rows} {q : String × List String} (h : q ∈ extend a nx) {x : String} (hx : x ∈ q.2) :
    (∃ q' ∈ a, q'.1 = q.1 ∧ x ∈ q'.2) ∨ ∃ q' ∈ nx, q'.1 = q.1 ∧ x ∈ q'.2 := by
  obtain ⟨q', hq', rfl⟩ := List.mem_map.1 h
  rcases List.mem_append.1 hx with hx | hx
  · exact .inl ⟨q', hq', rfl, hx⟩
  · cases hl : nx.lookup q'.1 with
    | none => simp [hl] at hx
    | some v =>
      rw [hl] at hx
      exact .inr ⟨_, Hier.lookup_mem hl, rfl, hx⟩

/-- What was visited is in a row at the end only if it was in it. -/
theorem trace_kept (hfresh : ∀ vis n y, y ∈ fresh V vis n → y ∉ vis) : ∀ {fuel : Nat} {g a r : Rows} {vis : List String},
    trace V fuel g vis a = some r → ∀ q ∈ r, ∀ x ∈ q.2, x ∈ vis → ∃ q' ∈ a, q'.1 = q.1 ∧ x ∈ q'.2 := by
  intro fuel
  induction fuel with
  | zero => intro g a r vis h; simp [trace] at h
  | succ fuel ih =>
    intro g a r vis h
    have hext : ∀ q ∈ extend a (next V vis g), ∀ x ∈ q.2, x ∈ vis → ∃ q' ∈ a, q'.1 = q.1 ∧ x ∈ q'.2 := by
      intro q hq x hx hv
      rcases mem_extend hq hx with h | ⟨q', hq', _, hx'⟩
      · exact h
      · obtain ⟨_, _, _, _, hall⟩ := mem_next hq'
        obtain ⟨n, _, hy, _⟩ := hall x hx'
        exact absurd hv (hfresh _ _ _ hy)
    simp only [trace] at h
    split at h
    · split at h
      · intro q hq x hx hv
        obtain ⟨q', hq', he, hx'⟩ := ih h q hq x hx (List.mem_append_left _ hv)
        obtain ⟨q'', hq'', he', hx''⟩ := hext q' hq' x hx' hv
        exact ⟨q'', hq'', he'.trans he, hx''⟩
      · rw [← Option.some.inj h]; exact hext
    · rw [← Option.some.inj h]
      intro q hq x hx _
      exact ⟨q, hq, rfl, hx⟩

/-- As `trace_inv`, for steps from nodes that no other row of the result shares. -/
theorem trace_apart {P : String → String → Prop} {bar : List String} {R : Rows}
    (hstep : ∀ src n y, P src n → (∀ q ∈ R, q.1 ≠ src → n ∈ q.2 → V.kind n = none) → y ∉ bar → (∃ vis, y ∈ fresh V vis n ∧ y ∉ vis) →
      V.sd n y = true → P src y)
    (hfresh : ∀ vis n y, y ∈ fresh V vis n → y ∉ vis) :
    ∀ {fuel : Nat} {g a : Rows} {vis : List String}, (∀ x ∈ bar, x ∈ vis) → (g.map Prod.fst).Nodup →
      (∀ q ∈ a, ∀ x ∈ q.2, x ∈ vis) → (∀ q ∈ g, ∃ q' ∈ a, q'.1 = q.1 ∧ ∀ x ∈ q.2, x ∈ q'.2) →
      (∀ r ∈ a, ∀ q ∈ a, r.1 ≠ q.1 → ∀ x ∈ r.2, x ∈ q.2 → V.kind x = none) →
      (∀ q ∈ g, ∀ x ∈ q.2, P q.1 x) → (∀ q ∈ a, ∀ x ∈ q.2, P q.1 x) → trace V fuel g vis a = some R →
      ∀ q ∈ R, ∀ x ∈ q.2, P q.1 x := by
  intro fuel
  induction fuel with
  | zero => intro g a vis _ _ _ _ _ _ _ h; simp [trace] at h
  | succ fuel ih =>
    intro g a vis hb hnd hvis hga hsep hg ha h
    have hkept := trace_kept hfresh h
    have hnew : ∀ q ∈ next V vis g, ∀ x ∈ q.2, x ∉ vis := by
      intro q hq x hx
      obtain ⟨_, _, _, _, hall⟩ := mem_next hq
      obtain ⟨n, _, hy, _⟩ := hall x hx
      exact hfresh _ _ _ hy
    have hnx : ∀ q ∈ next V vis g, ∀ x ∈ q.2, P q.1 x := by
      intro q hq x hx
      obtain ⟨_, q', hq', he, hall⟩ := mem_next hq
      obtain ⟨n, hn, hy, hsd⟩ := hall x hx
      rw [← he]
      have := hfresh _ _ _ hy
      refine hstep _ n _ (hg q' hq' n hn) ?_ (fun hc => this (hb x hc)) ⟨vis, hy, this⟩ hsd
      intro p hp hne hnp
      obtain ⟨a1, ha1, hk1, hin1⟩ := hga q' hq'
      obtain ⟨a2, ha2, hk2, hin2⟩ := hkept p hp n hnp (hvis a1 ha1 n (hin1 n hn))
      exact hsep a1 ha1 a2 ha2 (by rw [hk1, hk2]; exact Ne.symm hne) n (hin1 n hn) hin2
    have hext : ∀ q ∈ extend a (next V vis g), ∀ x ∈ q.2, P q.1 x := by
      intro q hq x hx
      rcases mem_extend hq hx with ⟨q', hq', he, hx'⟩ | ⟨q', hq', he, hx'⟩
      · rw [← he]; exact ha q' hq' x hx'
      · rw [← he]; exact hnx q' hq' x hx'
    simp only [trace] at h
    split at h
    · split at h
      · rename_i hap
        have hndx : ((next V vis g).map Prod.fst).Nodup := hnd.sublist (next_keys _ _)
        refine ih (fun x hx => List.mem_append_left _ (hb x hx)) hndx ?_ ?_ ?_ hnx hext h
        · intro q hq x hx
          rcases mem_extend hq hx with ⟨q', hq', _, hx'⟩ | ⟨q', hq', _, hx'⟩
          · exact List.mem_append_left _ (hvis q' hq' x hx')
          · exact List.mem_append_right _ (List.mem_flatMap.2 ⟨q', hq', hx'⟩)
        · intro q hq
          obtain ⟨_, g0, hg0, he, _⟩ := mem_next hq
          obtain ⟨a1, ha1, hk1, _⟩ := hga g0 hg0
          refine ⟨(a1.1, a1.2 ++ ((next V vis g).lookup a1.1).getD []), List.mem_map_of_mem (f := fun r => (r.1, r.2 ++ ((next V vis g).lookup r.1).getD [])) ha1, hk1.trans he, ?_⟩
          intro x hx
          have : (next V vis g).lookup a1.1 = some q.2 := by
            rw [hk1, he]
            exact (Hier.lookup_iff_mem hndx).2 hq
          simp only [this, Option.getD_some]
          exact List.mem_append_right _ hx
        · intro r hr q hq hne x hx hx'
          rcases mem_extend hr hx with ⟨r', hr', er, hxr⟩ | ⟨r', hr', er, hxr⟩ <;>
            rcases mem_extend hq hx' with ⟨q', hq', eq, hxq⟩ | ⟨q', hq', eq, hxq⟩
          · exact hsep r' hr' q' hq' (by rw [er, eq]; exact hne) x hxr hxq
          · exact absurd (hvis r' hr' x hxr) (hnew q' hq' x hxq)
          · exact absurd (hvis q' hq' x hxq) (hnew r' hr' x hxr)
          · exact (apart_spec hap hndx).2 r' hr' q' hq' (by rw [er, eq]; exact hne) x hxr hxq
      · rw [← Option.some.inj h]; exact hext
    · rw [← Option.some.inj h]; exact ha

end

section
variable {hash : String → Nat} {abs : Inst → String} {order : List String → List String} {L : Lib} {s : Sub} {fuel : Nat}
  {stop traversed : List String} {start : String}

/-- **C78, rows that meet.**  Of two rows of an array, every instance of the one is reached from an instance on the start net that
the other does not have, on a path that leaves no instance of the other: the search does not go on where rows meet. -/
theorem C78_apart (ho : ∀ l, (order l).Perm l) (hn : (s.elems.map Inst.name).Nodup) (hs : ∀ e ∈ s.elems, e.name ≠ start)
    {rows : List (List String)} (h : findArray (view hash abs order L s) fuel stop start traversed = some (some (.rows rows))) :
    rows.Pairwise fun p q =>
      (∃ e ∈ s.elems, start ∈ e.pins.map Prod.snd ∧ e.name ∈ p ∧ e.name ∉ q ∧ ∀ x ∈ p, Free L s (start :: stop) q e.name x) ∧
      (∃ e ∈ s.elems, start ∈ e.pins.map Prod.snd ∧ e.name ∈ q ∧ e.name ∉ p ∧ ∀ x ∈ q, Free L s (start :: stop) p e.name x) := by
  obtain ⟨gs, g, a, h1, h2, h3, h4⟩ := findArray_some h
  obtain ⟨g1, g2, g3, _⟩ := group_of (nodup_fresh ho) h1 h2
  have hp := group_path ho g1 h3
  have hfr : ∀ vis n y, y ∈ fresh (view hash abs order L s) vis n → y ∉ vis := fun vis n y hy => ((mem_fresh ho).1 hy).2
  have hk : (a.map Prod.fst).Nodup := by
    have := h3
    unfold traceGroup at this
    rw [trace_keys this]
    exact rows_keys g1
  -- one direction
  have key : ∀ p ∈ a, ∀ q ∈ a, p.1 ≠ q.1 → ∃ e ∈ s.elems, start ∈ e.pins.map Prod.snd ∧
      e.name ∈ (sorted p.2).filter (fun x => ((view hash abs order L s).kind x).isSome) ∧
      e.name ∉ (sorted q.2).filter (fun x => ((view hash abs order L s).kind x).isSome) ∧
      ∀ x ∈ (sorted p.2).filter (fun x => ((view hash abs order L s).kind x).isSome),
        Free L s (start :: stop) ((sorted q.2).filter fun x => ((view hash abs order L s).kind x).isSome) e.name x := by
    intro p hpa q hqa hne
    obtain ⟨p1, p2, p3⟩ := hp p hpa
    obtain ⟨p4, p5⟩ := (mem_fresh ho).1 (g3 _ p1)
    obtain ⟨e, he, hes⟩ := inst_of_neighbor hs hn p4
    obtain ⟨e1, e2⟩ := getEl_some he
    have hsome : ((view hash abs order L s).kind p.1).isSome := kind_isSome.2 ⟨e, he⟩
    have hnot : p.1 ∉ q.2 := by
      intro hc
      -- the sources are in the visited nodes
      have h3' := h3
      unfold traceGroup at h3'
      obtain ⟨q', hq', he', hx'⟩ := trace_kept hfr h3' q hqa p.1 hc (by simp [p1])
      obtain ⟨y, _, rfl⟩ := List.mem_map.1 hq'
      simp only [List.mem_singleton] at he' hx'
      exact hne (hx'.trans he')
    refine ⟨e, e1, hes, ?_, ?_, ?_⟩
    · rw [List.mem_filter, mem_sorted, e2]
      exact ⟨p2, hsome⟩
    · rw [List.mem_filter, mem_sorted, e2]
      exact fun hc => hnot hc.1
    · rw [e2]
      intro x hx
      rw [List.mem_filter, mem_sorted] at hx
      have h3' := h3
      unfold traceGroup at h3'
      have := trace_apart (V := view hash abs order L s) (R := a) (bar := start :: (stop ++ g))
        (P := fun src x => src = p.1 →
          Free L s (start :: stop) ((sorted q.2).filter fun x => ((view hash abs order L s).kind x).isSome) p.1 x)
        ?_ hfr ?_ (rows_keys g1) ?_ ?_ ?_ ?_ ?_ h3' p hpa x hx.1 rfl
      · exact this
      · rintro src n y hP hsep hb ⟨vis, hy, _⟩ hsd rfl
        refine .step (hP rfl) ?_ (touch_of_neighbor ((mem_fresh ho).1 hy).1) ?_ ?_
        · rw [List.mem_filter, mem_sorted]
          rintro ⟨hc1, hc2⟩
          rw [hsep q hqa (Ne.symm hne) hc1] at hc2
          cases hc2
        · simp only [view, reducedSD, List.any_eq_true] at hsd
          obtain ⟨w, hw, hw2⟩ := hsd
          refine ⟨w, hw, ?_⟩
          simpa using hw2
        · intro hc
          apply hb
          simp only [List.mem_cons, List.mem_append] at hc ⊢
          tauto
      · intro x hx
        simp only [List.mem_cons, List.mem_append] at hx ⊢
        tauto
      · intro r hr x hx
        obtain ⟨y, hy, rfl⟩ := List.mem_map.1 hr
        simp only [List.mem_singleton] at hx
        subst hx
        have := mem_sorted.1 hy
        simp [this]
      · intro r hr
        exact ⟨r, hr, rfl, fun _ h => h⟩
      · intro r hr q hq hne x hx hx'
        obtain ⟨y, _, rfl⟩ := List.mem_map.1 hr
        obtain ⟨z, _, rfl⟩ := List.mem_map.1 hq
        simp only [List.mem_singleton] at hx hx'
        exact absurd (hx.symm.trans hx') hne
      all_goals
        intro r hr x hx hrp
        obtain ⟨y, _, rfl⟩ := List.mem_map.1 hr
        simp only [List.mem_singleton] at hx hrp
        subst hx
        rw [hrp]
        exact .start
  rw [results_rows h4, List.pairwise_map]
  have hpw : a.Pairwise fun p q => p.1 ≠ q.1 := by
    rw [List.Nodup, List.pairwise_map] at hk
    exact hk
  exact hpw.imp_of_mem fun {p q} hp hq hne => ⟨key p hp q hq hne, key q hq p hp (Ne.symm hne)⟩

end

/-- Branches that meet in `M4`, behind which there is `M5`. -/
def exM : Sub := ⟨"MEET", ["IN", "VDD", "VSS"],
  [mos "M0" "NMOS" "A" "IN" "VSS", mos "M1" "NMOS" "B" "IN" "VSS", ⟨"M4", "TEE", [("X", "A"), ("Y", "B"), ("Z", "C")], []⟩,
    mos "M5" "PMOS" "C" "CK" "VDD"]⟩

/-- Both rows have `M4`, and neither has `M5`. -/
example : findArray (view exHash Inst.model id [] exM) 100 exStop "IN" exStop = some (some (.rows [["M0", "M4"], ["M1", "M4"]])) ∧
    (exM.elems.map Inst.name).Nodup ∧ (∀ e ∈ exM.elems, e.name ≠ "IN") := by decide +kernel

end Verif.Arr

import Verif.Arr.Props
import Verif.Sym.Nets
import Verif.Pnr.Subset

/-!
# C78: what the search for arrays finds

`C78_ends`: the search from a net ends and does not fail.  `C78_reach`: what is in a row is reached from the first of the row over
sources and drains.  `C78_rows_partial`: rows with as many elements as each other have the same numbers of elements of each abstract name.
`C78_align_partial`: instances to align are alike if no others can be reached.
`C78_violated_*`: the search fails from an instance; rows of an array differ; instances to be aligned differ; all but one group are
forgotten; the result depends on the order of iteration of a set.
-/

namespace Verif.Arr

open Verif (pySort mem_pySort pySort_perm length_pySort)
open Verif.Net (joinU joinU_inj NoU)
open Verif.Sym

/-! ## Specification -/

/-- Two instances of one model with the same parameters, on the same number of nets. -/
structure Alike (e d : Inst) : Prop where
  model : e.model = d.model
  params : ∀ k v, (k, v) ∈ e.params ↔ (k, v) ∈ d.params
  nets : (e.pins.map Prod.snd).toFinset.card = (d.pins.map Prod.snd).toFinset.card

/-- `e` and `d` are on the net with the same pins. -/
def SamePins (n : String) (e d : Inst) : Prop := ∀ p, (p, n) ∈ e.pins ↔ (p, n) ∈ d.pins

/-- One of the two is an instance, the other a net on one of its pins. -/
def Touch (s : Sub) (x y : String) : Prop :=
  ∃ e ∈ s.elems, (e.name = x ∧ y ∈ e.pins.map Prod.snd) ∨ (e.name = y ∧ x ∈ e.pins.map Prod.snd)

/-- A path over sources and drains (any pins but `B` and `G`, looked up in the leaves) that enters none of the nodes in `bar`. -/
inductive Path (L : Lib) (s : Sub) (bar : List String) (x : String) : String → Prop
  | start : Path L s bar x x
  | step {y z : String} : Path L s bar x y → Touch s y z → (∃ w ∈ weights L s.elems y z, w ≠ "B" ∧ w ≠ "G") → z ∉ bar →
      Path L s bar x z

/-- The number of names in the row that are instances with the abstract name `k`. -/
def howMany (s : Sub) (abs : Inst → String) (k : String) (row : List String) : Nat :=
  (row.filter fun x => s.elems.any fun e => decide (e.name = x) && decide (abs e = k)).length

/-- The names that the result mentions. -/
def names : Found → List String
  | .align l => l
  | .rows l => l.flatten

/-- C78 in full: the search succeeds; instances to be aligned are alike; the rows of an array have the same numbers of instances
of each abstract name; instances on the start net that are alike are all found. -/
def C78_statement (s : Sub) (abs : Inst → String) (start : String) (r : Option (Option Found)) : Prop :=
  ∃ f, r = some f ∧
    (∀ l, f = some (.align l) → ∀ e ∈ s.elems, ∀ d ∈ s.elems, e.name ∈ l → d.name ∈ l → Alike e d) ∧
    (∀ rows, f = some (.rows rows) → ∀ p ∈ rows, ∀ q ∈ rows, ∀ k, howMany s abs k p = howMany s abs k q) ∧
    ∀ e ∈ s.elems, ∀ d ∈ s.elems, e ≠ d → start ∈ e.pins.map Prod.snd → Alike e d → SamePins start e d →
      ∃ g, f = some g ∧ e.name ∈ names g

/-- What makes the key of an instance unambiguous. -/
structure Clear (hash : String → Nat) (s : Sub) : Prop where
  /-- the hash has no collisions on this subcircuit -/
  hash : ∀ e ∈ s.elems, ∀ d ∈ s.elems, hash (instText e) = hash (instText d) → instText e = instText d
  /-- names of parameters have no colon and are not `model`, their values have no underscore -/
  params : ∀ e ∈ s.elems, ∀ kv ∈ e.params, ':' ∉ kv.1.toList ∧ '_' ∉ kv.2.toList ∧ kv.1 ≠ "model"
  /-- names of models have no colon -/
  models : ∀ e ∈ s.elems, ':' ∉ e.model.toList
  /-- names of pins do not begin with a digit and have no underscore -/
  pins : ∀ e ∈ s.elems, ∀ pn ∈ e.pins, (∀ c, pn.1.toList.head? = some c → Schema.isDig c = false) ∧ '_' ∉ pn.1.toList

/-! ## Keys -/

theorem split_digits {a b t u : List Char} (ha : ∀ c ∈ a, Schema.isDig c = true) (hb : ∀ c ∈ b, Schema.isDig c = true)
    (ht : ∀ c, t.head? = some c → Schema.isDig c = false) (hu : ∀ c, u.head? = some c → Schema.isDig c = false)
    (h : a ++ t = b ++ u) : a = b ∧ t = u := by
  induction a generalizing b with
  | nil =>
    cases b with
    | nil => exact ⟨rfl, h⟩
    | cons c b =>
      exfalso
      rw [List.nil_append] at h
      have := ht c (by rw [h]; rfl)
      rw [hb c (by simp)] at this
      simp at this
  | cons d a ih =>
    cases b with
    | nil =>
      exfalso
      rw [List.nil_append] at h
      have := hu d (by rw [← h]; rfl)
      rw [ha d (by simp)] at this
      simp at this
    | cons c b =>
      simp only [List.cons_append, List.cons.injEq] at h
      obtain ⟨h1, h2⟩ := ih (fun x hx => ha x (by simp [hx])) (fun x hx => hb x (by simp [hx])) h.2
      exact ⟨by rw [h.1, h1], h2⟩

theorem head_joinU {l : List String} (h : ∀ w ∈ l, ∀ c, w.toList.head? = some c → Schema.isDig c = false) :
    ∀ c, (joinU l).toList.head? = some c → Schema.isDig c = false := by
  cases l with
  | nil => simp [joinU]
  | cons a l =>
    have ha := h a (by simp)
    cases l with
    | nil => simpa [joinU] using ha
    | cons b l =>
      rw [Sym.joinU_cons (by simp)]
      intro c hc
      cases hal : a.toList with
      | nil =>
        rw [hal] at hc
        simp only [List.nil_append, List.head?_cons, Option.some.injEq] at hc
        subst hc; decide
      | cons x t =>
        rw [hal] at hc ha
        exact ha c (by simpa using hc)

theorem key_alike {hash : String → Nat} {abs : Inst → String} {order : List String → List String} {L : Lib} {s : Sub}
    (hc : Clear hash s) {start x y k : String} {e d : Inst} (he : getEl s.elems x = some e) (hd : getEl s.elems y = some d)
    (hes : start ∈ e.pins.map Prod.snd) (hds : start ∈ d.pins.map Prod.snd)
    (hx : (view hash abs order L s).key start x = some k) (hy : (view hash abs order L s).key start y = some k) :
    Alike e d ∧ SamePins start e d := by
  simp only [view, he, hd, Option.map_some, Option.some.injEq] at hx hy
  have h := congrArg String.toList (hx.trans hy.symm)
  simp only [String.toList_append, List.append_assoc] at h
  have h := List.append_cancel_left h
  have em := (getEl_some he).1
  have dm := (getEl_some hd).1
  have hpin : ∀ i ∈ s.elems, ∀ w ∈ pySort (fun a b : String => decide (a ≤ b)) (edge i start),
      (∀ c, w.toList.head? = some c → Schema.isDig c = false) ∧ '_' ∉ w.toList := by
    intro i hi w hw
    exact hc.pins i hi _ (mem_edge.1 (mem_pySort.1 hw))
  obtain ⟨h1, h2⟩ := split_digits (by simpa [showNat] using Pnr.isDig_pyStr _) (by simpa [showNat] using Pnr.isDig_pyStr _)
    (head_joinU fun w hw => (hpin e em w hw).1) (head_joinU fun w hw => (hpin d dm w hw).1) h
  have h3 := hc.hash e em d dm (showNat_inj (String.toList_inj.1 h1))
  have h4 := alike_of_text (hc.params e em) (hc.params d dm) (hc.models e em) (hc.models d dm) h3
  refine ⟨⟨h4.model, h4.params, h4.nets⟩, ?_⟩
  have hne : ∀ i : Inst, start ∈ i.pins.map Prod.snd → pySort (fun a b : String => decide (a ≤ b)) (edge i start) ≠ [] := by
    intro i hi he
    obtain ⟨⟨p, n⟩, hp, rfl⟩ := List.mem_map.1 hi
    have : p ∈ pySort (fun a b : String => decide (a ≤ b)) (edge i n) := mem_pySort.2 (mem_edge.2 hp)
    simp only at he
    rw [he] at this
    simp at this
  have h5 := joinU_inj (hne e hes) (hne d hds) (fun w hw => (hpin e em w hw).2) (fun w hw => (hpin d dm w hw).2)
    (String.toList_inj.1 h2)
  intro p
  rw [← mem_edge, ← mem_edge, ← mem_pySort (le := fun a b : String => decide (a ≤ b)), h5, mem_pySort]

/-! ## The parts of the search -/

section
variable {hash : String → Nat} {abs : Inst → String} {order : List String → List String} {L : Lib} {s : Sub}
  {fuel : Nat} {stop traversed : List String} {start : String}

theorem mem_fresh (ho : ∀ l, (order l).Perm l) {tr : List String} {x y : String} :
    y ∈ fresh (view hash abs order L s) tr x ↔ y ∈ neighbors s.elems x ∧ y ∉ tr := by
  unfold fresh
  rw [show (view hash abs order L s).order = order from rfl, (ho _).mem_iff]
  simp [view]

theorem nodup_fresh (ho : ∀ l, (order l).Perm l) {tr : List String} {x : String} :
    (fresh (view hash abs order L s) tr x).Nodup := by
  unfold fresh
  rw [show (view hash abs order L s).order = order from rfl, (ho _).nodup_iff]
  exact (Hier.nodup_eraseDups _ _ (le_refl _)).filter _

theorem touch_of_neighbor {x y : String} (h : y ∈ neighbors s.elems x) : Touch s x y := by
  unfold neighbors at h
  split at h
  · rename_i e he
    obtain ⟨h1, h2⟩ := getEl_some he
    exact ⟨e, h1, .inl ⟨h2, mem_eraseDups.1 h⟩⟩
  · obtain ⟨e, he, rfl⟩ := List.mem_map.1 h
    rw [mem_users] at he
    exact ⟨e, he.1, .inr ⟨rfl, he.2⟩⟩

/-- A neighbour of a start net is an instance on it. -/
theorem inst_of_neighbor (hs : ∀ e ∈ s.elems, e.name ≠ start) (hn : (s.elems.map Inst.name).Nodup) {x : String}
    (h : x ∈ neighbors s.elems start) : ∃ e, getEl s.elems x = some e ∧ start ∈ e.pins.map Prod.snd := by
  unfold neighbors at h
  split at h
  · rename_i e he
    exact absurd (getEl_some he).2 (hs e (getEl_some he).1)
  · obtain ⟨e, he, rfl⟩ := List.mem_map.1 h
    rw [mem_users] at he
    exact ⟨e, getEl_of_mem hn he.1, he.2⟩

/-- How a result comes about. -/
theorem findArray_some {V : View} {f : Found} (h : findArray V fuel stop start traversed = some (some f)) :
    ∃ gs g a, matchingGroups V start (fresh V traversed start) = some gs ∧ g ∈ gs ∧ traceGroup V fuel stop start g = some a ∧
      results V a = some f := by
  unfold findArray at h
  split at h
  · simp at h
  · simp at h
  · rename_i g gs hg
    split at h
    · simp at h
    · rename_i as has
      split at h
      · simp at h
      · rename_i a ha
        simp only [Option.map_eq_some_iff, Option.some.injEq, exists_eq_right] at h
        obtain ⟨x, hx, hxa⟩ := (Pnr.mapM_all has).2 _ (List.mem_of_getLast? ha)
        exact ⟨_, x, a, hg, mem_pySort.1 hx, hxa, h⟩

theorem rows_keys {g : List String} (hg : g.Nodup) : (((sorted g).map fun x => (x, [x])).map (Prod.fst (β := List String))).Nodup := by
  rw [List.map_map]
  simpa [Function.comp_def, sorted] using ((pySort_perm g).nodup_iff).2 hg

/-- The nodes of a row are reached from its source. -/
theorem group_path (ho : ∀ l, (order l).Perm l) {g : List String} (hg : g.Nodup) {a : Rows}
    (h : traceGroup (view hash abs order L s) fuel stop start g = some a) :
    ∀ q ∈ a, q.1 ∈ g ∧ q.1 ∈ q.2 ∧ ∀ x ∈ q.2, Path L s (start :: (stop ++ g)) q.1 x := by
  intro q hq
  unfold traceGroup at h
  have h1 := trace_inv (V := view hash abs order L s) (P := fun src x => Path L s (start :: (stop ++ g)) src x)
    (bar := start :: (stop ++ g)) ?_ (fun vis n y hy => ((mem_fresh ho).1 hy).2) ?_ (rows_keys hg) ?_ ?_ h q hq
  · obtain ⟨p, hp, hpq, hpre⟩ := trace_prefix h q hq
    obtain ⟨x, hx, rfl⟩ := List.mem_map.1 hp
    simp only at hpq hpre
    subst hpq
    exact ⟨mem_sorted.1 hx, hpre.subset (by simp), h1⟩
  · rintro src n y hp hb ⟨vis, hy, _⟩ hsd
    refine .step hp (touch_of_neighbor ((mem_fresh ho).1 hy).1) ?_ hb
    simp only [view, reducedSD, List.any_eq_true] at hsd
    obtain ⟨w, hw, hw2⟩ := hsd
    refine ⟨w, hw, ?_⟩
    simpa using hw2
  · intro x hx
    simp only [List.mem_cons, List.mem_append] at hx ⊢
    tauto
  all_goals
    intro q hq x hx
    obtain ⟨y, _, rfl⟩ := List.mem_map.1 hq
    simp only [List.mem_singleton] at hx
    subst hx
    exact .start

/-- What a result says about the rows it comes from. -/
theorem results_rows {V : View} {a : Rows} {rows : List (List String)} (h : results V a = some (.rows rows)) :
    rows = a.map fun r => (sorted r.2).filter fun x => (V.kind x).isSome := by
  unfold results at h
  simp only at h
  split at h
  · simp at h
  · split at h
    · simp at h
    · simp only [Option.some.injEq, Found.rows.injEq] at h; exact h.symm

theorem results_align {V : View} {a : Rows} {l : List String} (h : results V a = some (.align l)) :
    ∀ x ∈ l, ∃ q ∈ a, x ∈ q.2 ∧ (V.kind x).isSome := by
  unfold results at h
  simp only at h
  split at h
  · simp at h
  · rename_i r rs hr
    split at h
    · simp only [Option.map_eq_some_iff, Found.align.injEq, exists_eq_right] at h
      intro x hx
      obtain ⟨y, hy, hyx⟩ := (Pnr.mapM_all h).2 _ hx
      have hxy := List.mem_of_head? hyx
      obtain ⟨q, hq, rfl⟩ := List.mem_map.1 hy
      simp only [List.mem_filter, mem_sorted] at hxy
      exact ⟨q, hq, hxy⟩
    · simp at h

theorem kind_isSome {x : String} : ((view hash abs order L s).kind x).isSome = true ↔ ∃ e, getEl s.elems x = some e := by
  simp [view, Option.isSome_iff_exists]

/-- **C78, the search ends.**  From a net the search always gives a result, whatever the circuit, the stop points and the order of
sets. -/
theorem C78_ends (ho : ∀ l, (order l).Perm l) (hn : (s.elems.map Inst.name).Nodup) (hs : ∀ e ∈ s.elems, e.name ≠ start)
    (hf : size s < fuel) : ∃ f, findArray (view hash abs order L s) fuel stop start traversed = some f := by
  have hel : ∀ x ∈ fresh (view hash abs order L s) traversed start, ∃ e, getEl s.elems x = some e := by
    intro x hx
    obtain ⟨e, he, _⟩ := inst_of_neighbor hs hn ((mem_fresh ho).1 hx).1
    exact ⟨e, he⟩
  have hm : (matchingGroups (view hash abs order L s) start (fresh (view hash abs order L s) traversed start)).isSome := by
    unfold matchingGroups
    rw [Option.isSome_map]
    apply Pnr.mapM_isSome
    intro x hx
    obtain ⟨e, he⟩ := hel x hx
    simp [view, he]
  obtain ⟨gs, hgs⟩ := Option.isSome_iff_exists.1 hm
  unfold findArray
  rw [hgs]
  cases gs with
  | nil => exact ⟨_, rfl⟩
  | cons g gs =>
    simp only
    have hgroup := fun x (hx : x ∈ g :: gs) => group_of (nodup_fresh ho) hgs hx
    have htr : ((pySort (fun a b : List String => decide (a.length ≤ b.length)) (g :: gs)).mapM
        (traceGroup (view hash abs order L s) fuel stop start)).isSome := by
      apply Pnr.mapM_isSome
      intro x _
      unfold traceGroup
      apply trace_ends (N := nodes s.elems)
      · intro vis n y hy
        exact ⟨((mem_fresh ho).1 hy).2, neighbors_nodes ((mem_fresh ho).1 hy).1⟩
      · have := List.length_filter_le (fun y => !(x ++ stop ++ (sorted x).drop (x.length - 1) ++ [start]).contains y) (nodes s.elems)
        rw [length_nodes] at this
        omega
    obtain ⟨as, has⟩ := Option.isSome_iff_exists.1 htr
    rw [has]
    simp only
    cases hl : as.getLast? with
    | none =>
      exfalso
      rw [List.getLast?_eq_none_iff] at hl
      have h1 := (Hier.mapM_forall₂ has).length_eq
      rw [hl, length_pySort] at h1
      simp at h1
    | some a =>
      simp only
      obtain ⟨x, hx, hxa⟩ := (Pnr.mapM_all has).2 _ (List.mem_of_getLast? hl)
      obtain ⟨h1, h2, h3, _⟩ := hgroup x (mem_pySort.1 hx)
      have hp := group_path ho h1 hxa
      have hkeys := by unfold traceGroup at hxa; exact trace_keys hxa
      have hne : ∀ q ∈ a, ((sorted q.2).filter fun x => ((view hash abs order L s).kind x).isSome) ≠ [] := by
        intro q hq he
        obtain ⟨g1, g2, _⟩ := hp q hq
        have : q.1 ∈ (sorted q.2).filter fun x => ((view hash abs order L s).kind x).isSome := by
          rw [List.mem_filter, mem_sorted]
          exact ⟨g2, kind_isSome.2 (hel _ (h3 _ g1))⟩
        rw [he] at this
        simp at this
      cases a with
      | nil =>
        exfalso
        have := congrArg List.length hkeys
        simp only [List.map_nil, List.length_nil, List.length_map] at this
        unfold sorted at this
        rw [length_pySort] at this
        omega
      | cons q a =>
        unfold results
        simp only [List.map_cons]
        split
        · have := Pnr.mapM_isSome (f := List.head?) (l := ((sorted q.2).filter fun x => ((view hash abs order L s).kind x).isSome) ::
            a.map fun r => (sorted r.2).filter fun x => ((view hash abs order L s).kind x).isSome) ?_
          · obtain ⟨l, hl⟩ := Option.isSome_iff_exists.1 this
            rw [hl]
            exact ⟨_, rfl⟩
          · intro y hy
            rw [← List.map_cons (f := fun r : String × List String => (sorted r.2).filter fun x => ((view hash abs order L s).kind x).isSome)] at hy
            obtain ⟨r, hr, rfl⟩ := List.mem_map.1 hy
            obtain ⟨z, t, hz⟩ := List.exists_cons_of_ne_nil (hne r hr)
            rw [hz]
            rfl
        · exact ⟨_, rfl⟩

/-- **C78, rows are connected.**  Each row of an array has an instance on the start net from which all its instances are reached
over sources and drains, not through the start net or a stop point. -/
theorem C78_reach (ho : ∀ l, (order l).Perm l) (hn : (s.elems.map Inst.name).Nodup) (hs : ∀ e ∈ s.elems, e.name ≠ start)
    {rows : List (List String)} (h : findArray (view hash abs order L s) fuel stop start traversed = some (some (.rows rows))) :
    ∀ row ∈ rows, ∃ e ∈ s.elems, start ∈ e.pins.map Prod.snd ∧ e.name ∉ traversed ∧ e.name ∈ row ∧
      ∀ x ∈ row, (∃ d ∈ s.elems, d.name = x) ∧ Path L s (start :: stop) e.name x := by
  obtain ⟨gs, g, a, h1, h2, h3, h4⟩ := findArray_some h
  obtain ⟨g1, g2, g3, _⟩ := group_of (nodup_fresh ho) h1 h2
  have hp := group_path ho g1 h3
  rw [results_rows h4]
  intro row hrow
  obtain ⟨q, hq, rfl⟩ := List.mem_map.1 hrow
  obtain ⟨p1, p2, p3⟩ := hp q hq
  obtain ⟨p4, p5⟩ := (mem_fresh ho).1 (g3 _ p1)
  obtain ⟨e, he, hes⟩ := inst_of_neighbor hs hn p4
  obtain ⟨e1, e2⟩ := getEl_some he
  refine ⟨e, e1, hes, e2 ▸ p5, ?_, ?_⟩
  · rw [List.mem_filter, mem_sorted, e2]
    exact ⟨p2, kind_isSome.2 ⟨e, he⟩⟩
  · intro x hx
    rw [List.mem_filter, mem_sorted, kind_isSome] at hx
    obtain ⟨hx1, d, hd⟩ := hx
    refine ⟨⟨d, getEl_some hd⟩, ?_⟩
    rw [e2]
    have := p3 x hx1
    clear hx1 hd d
    induction this with
    | start => exact .start
    | step _ t w b ih => exact .step ih t w fun hc => b (by simp only [List.mem_cons, List.mem_append] at hc ⊢; tauto)

theorem howMany_eq (hn : (s.elems.map Inst.name).Nodup) (k : String) (row : List String) :
    howMany s abs k ((sorted row).filter fun x => ((view hash abs order L s).kind x).isSome) =
      (row.map (view hash abs order L s).kind).count (some k) := by
  unfold howMany
  rw [List.filter_filter, List.count_eq_countP, List.countP_map, ← List.countP_eq_length_filter,
    (show (sorted row).Perm row from pySort_perm row).countP_eq]
  apply List.countP_congr
  intro x _
  simp only [Bool.and_eq_true, List.any_eq_true, decide_eq_true_eq, kind_isSome, Function.comp_apply, beq_iff_eq]
  constructor
  · rintro ⟨⟨e, he, rfl, rfl⟩, _⟩
    simp [view, getEl_of_mem hn he]
  · intro h
    simp only [view, Option.map_eq_some_iff] at h
    obtain ⟨e, he, rfl⟩ := h
    obtain ⟨h1, h2⟩ := getEl_some he
    exact ⟨⟨e, h1, h2, rfl⟩, e, he⟩

/-- The rows of an array are nested: of two rows one has at most as many instances of each abstract name as the other. -/
theorem rows_nested (ho : ∀ l, (order l).Perm l) (hn : (s.elems.map Inst.name).Nodup) (hs : ∀ e ∈ s.elems, e.name ≠ start)
    (hc : Clear hash s) (habs : ∀ e ∈ s.elems, ∀ d ∈ s.elems, Alike e d → abs e = abs d)
    {rows : List (List String)} (h : findArray (view hash abs order L s) fuel stop start traversed = some (some (.rows rows))) :
    ∀ p ∈ rows, ∀ q ∈ rows, (∀ k, howMany s abs k p ≤ howMany s abs k q) ∨ ∀ k, howMany s abs k q ≤ howMany s abs k p := by
  obtain ⟨gs, g, a, h1, h2, h3, h4⟩ := findArray_some h
  obtain ⟨g1, g2, g3, k0, g4⟩ := group_of (nodup_fresh ho) h1 h2
  have hkind : ∀ x ∈ g, ∀ y ∈ g, (view hash abs order L s).kind x = (view hash abs order L s).kind y := by
    intro x hx y hy
    obtain ⟨e, he, hes⟩ := inst_of_neighbor hs hn ((mem_fresh ho).1 (g3 x hx)).1
    obtain ⟨d, hd, hds⟩ := inst_of_neighbor hs hn ((mem_fresh ho).1 (g3 y hy)).1
    have := key_alike hc he hd hes hds (g4 x hx) (g4 y hy)
    simp only [view, he, hd, Option.map_some]
    rw [habs e (getEl_some he).1 d (getEl_some hd).1 this.1]
  have hrow : ∀ q ∈ (sorted g).map fun x => (x, [x]), ∃ x ∈ g, q = (x, [x]) := by
    intro q hq
    obtain ⟨x, hx, rfl⟩ := List.mem_map.1 hq
    exact ⟨x, mem_sorted.1 hx, rfl⟩
  have hle : ∀ r ∈ (sorted g).map fun x => (x, [x]), ∀ q ∈ (sorted g).map fun x => (x, [x]), Le (view hash abs order L s) r q := by
    intro r hr q hq k
    obtain ⟨x, hx, rfl⟩ := hrow r hr
    obtain ⟨y, hy, rfl⟩ := hrow q hq
    simp only [List.map_cons, List.map_nil, hkind x hx y hy]
    exact le_refl _
  have hnest : Nested (view hash abs order L s) ((sorted g).map fun x => (x, [x])) ((sorted g).map fun x => (x, [x])) :=
    ⟨fun r hr q hq => .inl (hle r hr q hq), fun r hr q hq _ => hle r hr q hq⟩
  have := by unfold traceGroup at h3; exact trace_nested hnest (rows_keys g1) h3
  rw [results_rows h4]
  intro p hp q hq
  obtain ⟨r, hr, rfl⟩ := List.mem_map.1 hp
  obtain ⟨t, ht, rfl⟩ := List.mem_map.1 hq
  simp only [howMany_eq hn]
  rcases this r hr t ht with h | h
  · exact .inl fun k => h (some k)
  · exact .inr fun k => h (some k)

/-- **C78, rows (partial).**  Rows of an array with as many instances as each other have the same numbers of instances of each
abstract name; of any two rows one has at most as many of each as the other.  Missing: rows may differ in length
(`C78_violated_rows`). -/
theorem C78_rows_partial (ho : ∀ l, (order l).Perm l) (hn : (s.elems.map Inst.name).Nodup) (hs : ∀ e ∈ s.elems, e.name ≠ start)
    (hc : Clear hash s) (habs : ∀ e ∈ s.elems, ∀ d ∈ s.elems, Alike e d → abs e = abs d)
    {rows : List (List String)} (h : findArray (view hash abs order L s) fuel stop start traversed = some (some (.rows rows))) :
    ∀ p ∈ rows, ∀ q ∈ rows,
      ((∀ k, howMany s abs k p ≤ howMany s abs k q) ∨ ∀ k, howMany s abs k q ≤ howMany s abs k p) ∧
      (p.length = q.length → ∀ k, howMany s abs k p = howMany s abs k q) := by
  have h0 := rows_nested ho hn hs hc habs h
  have hrd := C78_reach ho hn hs h
  -- counts of the abstract names in the list of abstract names of a row
  have hcount : ∀ p ∈ rows, ∀ k, howMany s abs k p = (p.map (view hash abs order L s).kind).count (some k) := by
    intro p hp k
    unfold howMany
    rw [List.count_eq_countP, List.countP_map, ← List.countP_eq_length_filter]
    apply List.countP_congr
    intro x _
    simp only [List.any_eq_true, Bool.and_eq_true, decide_eq_true_eq, Function.comp_apply, beq_iff_eq]
    constructor
    · rintro ⟨e, he, rfl, rfl⟩
      simp [view, getEl_of_mem hn he]
    · intro h
      simp only [view, Option.map_eq_some_iff] at h
      obtain ⟨e, he, rfl⟩ := h
      obtain ⟨h1, h2⟩ := getEl_some he
      exact ⟨e, h1, h2, rfl⟩
  have eq_of_le : ∀ p ∈ rows, ∀ q ∈ rows, p.length = q.length → (∀ k, howMany s abs k p ≤ howMany s abs k q) →
      ∀ k, howMany s abs k p = howMany s abs k q := by
    intro p hp q hq hlen hle k
    have hsub : (p.map (view hash abs order L s).kind).Subperm (q.map (view hash abs order L s).kind) := by
      rw [List.subperm_ext_iff]
      intro k hk
      obtain ⟨x, hx, rfl⟩ := List.mem_map.1 hk
      obtain ⟨_, _, _, _, _, hall⟩ := hrd p hp
      obtain ⟨⟨d, hd, rfl⟩, _⟩ := hall x hx
      have e1 : (view hash abs order L s).kind d.name = some (abs d) := by simp [view, getEl_of_mem hn hd]
      rw [e1, ← hcount p hp, ← hcount q hq]
      exact hle _
    have := hsub.perm_of_length_le (by simp [hlen])
    rw [hcount p hp, hcount q hq, this.count_eq]
  intro p hp q hq
  refine ⟨h0 p hp q hq, fun hlen => ?_⟩
  rcases h0 p hp q hq with h1 | h1
  · exact eq_of_le p hp q hq hlen h1
  · exact fun k => (eq_of_le q hq p hp hlen.symm h1 k).symm

/-- **C78, alignment (partial).**  Instances to be aligned are alike, if every instance that can be reached over sources and drains
from an instance on the start net, not through the start net or stop points, is alike that instance.  Missing: other instances may
be reached (`C78_violated_align`). -/
theorem C78_align_partial (ho : ∀ l, (order l).Perm l) (hn : (s.elems.map Inst.name).Nodup) (hs : ∀ e ∈ s.elems, e.name ≠ start)
    (hc : Clear hash s)
    (hreach : ∀ e ∈ s.elems, start ∈ e.pins.map Prod.snd → ∀ d ∈ s.elems, Path L s (start :: stop) e.name d.name → Alike e d)
    {l : List String} (h : findArray (view hash abs order L s) fuel stop start traversed = some (some (.align l))) :
    ∀ x ∈ l, ∀ y ∈ l, ∃ e ∈ s.elems, ∃ d ∈ s.elems, e.name = x ∧ d.name = y ∧ Alike e d := by
  obtain ⟨gs, g, a, h1, h2, h3, h4⟩ := findArray_some h
  obtain ⟨g1, g2, g3, k0, g4⟩ := group_of (nodup_fresh ho) h1 h2
  have hp := group_path ho g1 h3
  have hroot : ∀ x ∈ l, ∃ e ∈ s.elems, e.name = x ∧ ∃ r, getEl s.elems r.name = some r ∧ r.name ∈ g ∧
      start ∈ r.pins.map Prod.snd ∧ Alike r e := by
    intro x hx
    obtain ⟨q, hq, hxq, hk⟩ := results_align h4 x hx
    obtain ⟨p1, p2, p3⟩ := hp q hq
    obtain ⟨e, he⟩ := kind_isSome.1 hk
    obtain ⟨e1, e2⟩ := getEl_some he
    obtain ⟨r, hr, hrs⟩ := inst_of_neighbor hs hn ((mem_fresh ho).1 (g3 _ p1)).1
    obtain ⟨r1, r2⟩ := getEl_some hr
    refine ⟨e, e1, e2, r, by rw [r2]; exact hr, r2 ▸ p1, hrs, ?_⟩
    apply hreach r r1 hrs e e1
    rw [e2, r2]
    have := p3 x hxq
    clear hxq e2 he hk hx
    induction this with
    | start => exact .start
    | step _ t w b ih => exact .step ih t w fun hc => b (by simp only [List.mem_cons, List.mem_append] at hc ⊢; tauto)
  intro x hx y hy
  obtain ⟨e, e1, e2, r, hr, rg, rs, ra⟩ := hroot x hx
  obtain ⟨d, d1, d2, t, ht, tg, ts, ta⟩ := hroot y hy
  refine ⟨e, e1, d, d1, e2, d2, ?_⟩
  obtain ⟨m, _⟩ := key_alike hc hr ht rs ts (g4 _ rg) (g4 _ tg)
  exact ⟨ra.model.symm.trans (m.model.trans ta.model),
    fun k v => (ra.params k v).symm.trans ((m.params k v).trans (ta.params k v)), ra.nets.symm.trans (m.nets.trans ta.nets)⟩

end

end Verif.Arr

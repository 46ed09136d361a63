import Verif.Sd.Spec
import Verif.Sym.Nets

/-!
# Sources and drains are exchanged where they are the wrong way round (C75)
-/

namespace Verif.Sd

open Verif.Sym (Inst Sub Lib find nets getEl isInst isNet users edge neighbors getEl_some getEl_none getEl_of_mem mem_edge mem_users
  isInst_of_mem find_mem foldlM_inv nodes mem_nodes)

/-! ## Models -/

theorem find_of_mem {L : Lib} (hn : (L.map Sub.name).Nodup) {c : Sub} (hc : c ∈ L) : find L c.name = some c := by
  cases h : find L c.name with
  | none =>
    have := List.find?_eq_none.1 h c hc
    simp at this
  | some d =>
    have h1 := List.mem_of_find?_eq_some h
    have h2 := List.find?_some h
    rw [List.inj_on_of_nodup_map hn h1 hc (by simpa using h2)]

theorem find_name {L : Lib} {m : String} {c : Sub} (h : find L m = some c) : c.name = m := by
  have h2 := List.find?_some h
  simpa using h2

theorem lookup_mem {β : Type} {l : List (String × β)} {k : String} {v : β} (h : l.lookup k = some v) : (k, v) ∈ l := by
  induction l with
  | nil => simp at h
  | cons kv l ih =>
    rw [List.lookup_cons] at h
    split at h
    · rename_i hk
      simp only [beq_iff_eq] at hk
      cases h
      simp [hk]
    · exact List.mem_cons_of_mem _ (ih h)

theorem mem_lookup {β : Type} {l : List (String × β)} (hn : (l.map Prod.fst).Nodup) {k : String} {v : β} (h : (k, v) ∈ l) : l.lookup k = some v := by
  induction l with
  | nil => simp at h
  | cons kv l ih =>
    rw [List.map_cons, List.nodup_cons] at hn
    rcases List.mem_cons.1 h with h | h
    · subst h; simp
    · rw [List.lookup_cons]
      have : (k == kv.1) = false := by
        simp only [beq_eq_false_iff_ne]
        rintro rfl
        exact hn.1 (List.mem_map.2 ⟨_, h, rfl⟩)
      rw [this]
      exact ih hn.2 h

theorem kind_of_base {L : Library} : ∀ (fuel : Nat) {m b : String}, baseModel L fuel m = some b → Kind L m b := by
  intro fuel
  induction fuel with
  | zero => intro m b h; simp [baseModel] at h
  | succ fuel ih =>
    intro m b h
    rw [baseModel] at h
    split at h
    · rename_i s hs
      have hm := find_name hs
      split at h
      · rename_i e he
        exact hm ▸ Kind.wrapper (find_mem hs) he (ih h)
      · rename_i hne
        cases h
        exact hm ▸ Kind.block (find_mem hs) fun hc => by
          obtain ⟨e, he⟩ := List.length_eq_one_iff.1 hc
          exact hne e he
    · split at h
      · rename_i b' hb
        split at h
        · rename_i hb0
          cases h
          exact .unnamed (hb0 ▸ lookup_mem hb)
        · rename_i hb0
          cases h
          exact .derived (lookup_mem hb) hb0
      · rename_i hb
        cases h
        exact .root (lookup_mem hb)
      · cases h

theorem find_none {L : Library} (h : Ordered L) {m : String} {v : Option String} (hm : (m, v) ∈ L.models) :
    find L.subs m = none ∧ L.models.lookup m = some v := by
  have hn := List.nodup_append.1 h.names
  refine ⟨?_, mem_lookup hn.2.1 hm⟩
  rw [find, List.find?_eq_none]
  intro s hs hc
  simp only [decide_eq_true_eq] at hc
  exact hn.2.2 s.name (List.mem_map.2 ⟨s, hs, rfl⟩) m (List.mem_map.2 ⟨_, hm, rfl⟩) hc

theorem base_of_kind {L : Library} (h : Ordered L) {rank : String → Nat}
    (hr : ∀ c ∈ L.subs, ∀ e ∈ c.elems, ∀ d ∈ L.subs, d.name = e.model → rank d.name < rank c.name) {m b : String} (hk : Kind L m b) :
    ∀ fuel, (∀ c ∈ L.subs, c.name = m → rank m + 1 < fuel) → 0 < fuel → baseModel L fuel m = some b := by
  have hns : (L.subs.map Sub.name).Nodup := (List.nodup_append.1 h.names).1
  induction hk with
  | wrapper hs he hk ih =>
    rename_i s e b
    intro fuel hf h0
    obtain ⟨fuel, rfl⟩ := Nat.exists_eq_succ_of_ne_zero (by omega : fuel ≠ 0)
    rw [baseModel, find_of_mem hns hs]
    dsimp only
    rw [he]
    dsimp only
    have := hf s hs rfl
    refine ih _ (fun c hc hcc => ?_) (by omega)
    have := hr s hs e (by simp [he]) c hc hcc
    rw [hcc] at this
    omega
  | block hs hl =>
    rename_i s
    intro fuel hf h0
    obtain ⟨fuel, rfl⟩ := Nat.exists_eq_succ_of_ne_zero (by omega : fuel ≠ 0)
    rw [baseModel, find_of_mem hns hs]
    dsimp only
    split
    · rename_i he
      rw [he] at hl
      simp at hl
    · rfl
  | derived hm hb =>
    intro fuel hf h0
    obtain ⟨fuel, rfl⟩ := Nat.exists_eq_succ_of_ne_zero (by omega : fuel ≠ 0)
    rw [baseModel, (find_none h hm).1]
    dsimp only
    rw [(find_none h hm).2]
    dsimp only
    rw [if_neg hb]
  | unnamed hm =>
    intro fuel hf h0
    obtain ⟨fuel, rfl⟩ := Nat.exists_eq_succ_of_ne_zero (by omega : fuel ≠ 0)
    rw [baseModel, (find_none h hm).1]
    dsimp only
    rw [(find_none h hm).2]
    simp
  | root hm =>
    intro fuel hf h0
    obtain ⟨fuel, rfl⟩ := Nat.exists_eq_succ_of_ne_zero (by omega : fuel ≠ 0)
    rw [baseModel, (find_none h hm).1]
    dsimp only
    rw [(find_none h hm).2]

theorem baseModel_iff {L : Library} (h : Ordered L) {m b : String} : baseModel L (L.subs.length + 1) m = some b ↔ Kind L m b := by
  refine ⟨kind_of_base _, fun hk => ?_⟩
  obtain ⟨rank, h1, h2⟩ := h.levels
  refine base_of_kind h h2 hk _ (fun c hc hcm => ?_) (by omega)
  have := h1 c hc
  rw [hcm] at this
  omega

theorem base_exists {L : Library} {rank : String → Nat}
    (hr : ∀ c ∈ L.subs, ∀ e ∈ c.elems, ∀ d ∈ L.subs, d.name = e.model → rank d.name < rank c.name)
    (hc : ∀ c ∈ L.subs, ∀ e ∈ c.elems, e.model ∈ L.subs.map Sub.name ++ L.models.map Prod.fst) :
    ∀ (fuel : Nat) {m : String}, (∀ c ∈ L.subs, c.name = m → rank m + 1 < fuel) → 0 < fuel →
      m ∈ L.subs.map Sub.name ++ L.models.map Prod.fst → ∃ b, baseModel L fuel m = some b := by
  intro fuel
  induction fuel with
  | zero => intro m _ h0; omega
  | succ fuel ih =>
    intro m hf _ hm
    rw [baseModel]
    split
    · rename_i s hs
      have hsm := find_name hs
      split
      · rename_i e he
        have h1 := hf s (find_mem hs) hsm
        refine ih (fun c hc' hcc => ?_) (by omega) (hc s (find_mem hs) e (by simp [he]))
        have h2 := hr s (find_mem hs) e (by simp [he]) c hc' hcc
        rw [hcc, hsm] at h2
        omega
      · exact ⟨m, rfl⟩
    · rename_i hs
      have hmm : m ∈ L.models.map Prod.fst := by
        rcases List.mem_append.1 hm with hm | hm
        · obtain ⟨s, hs', hsm⟩ := List.mem_map.1 hm
          have := List.find?_eq_none.1 hs s hs'
          simp [hsm] at this
        · exact hm
      split
      · split
        · exact ⟨_, rfl⟩
        · exact ⟨_, rfl⟩
      · exact ⟨_, rfl⟩
      · rename_i hl
        obtain ⟨⟨m', v⟩, hmv, rfl⟩ := List.mem_map.1 hmm
        have := List.lookup_eq_none_iff.1 hl _ hmv
        simp at this

/-! ## The graph -/

section graph

variable {L : Library} {s : Sub} {power gnd : List String}

theorem getEl_net (hg : Good s power gnd) {e : Inst} (he : e ∈ s.elems) {p n : String} (hp : (p, n) ∈ e.pins) : getEl s.elems n = none := by
  cases h : getEl s.elems n with
  | none => rfl
  | some d =>
    obtain ⟨hd, hdn⟩ := getEl_some h
    exact absurd hdn.symm (hg.nets d hd e he p n hp)

theorem pinsBetween_comm (hg : Good s power gnd) {e : Inst} (he : e ∈ s.elems) {n : String} (hn : n ∈ nets e) :
    pinsBetween s.elems e.name n = edge e n ∧ pinsBetween s.elems n e.name = edge e n := by
  obtain ⟨⟨p, n'⟩, hp, rfl⟩ := List.mem_map.1 hn
  have h1 := getEl_net hg he hp
  have h2 := getEl_of_mem hg.names he
  constructor
  · simp [pinsBetween, h2]
  · simp [pinsBetween, h1, h2]

/-- The neighbours through source or drain. -/
def sd (l : List Inst) (x : String) (ns : List String) : List String :=
  ns.filter fun y => (pinsBetween l y x).contains "S" || (pinsBetween l y x).contains "D"

theorem mem_nets {e : Inst} {n : String} : n ∈ nets e ↔ ∃ p, (p, n) ∈ e.pins := by
  simp [nets]

theorem sd_neighbors (hg : Good s power gnd) {x y : String} (hx : x ∈ nodes s.elems) :
    y ∈ sd s.elems x (neighbors s.elems x) ↔ Joined s.elems x y := by
  simp only [sd, List.mem_filter, Bool.or_eq_true, List.contains_iff_mem]
  rcases mem_nodes.1 hx with ⟨e, he, rfl⟩ | ⟨e, he, hxn⟩
  · have h2 := getEl_of_mem hg.names he
    simp only [neighbors, h2, List.mem_eraseDups]
    constructor
    · rintro ⟨hy, hsd⟩
      rw [(pinsBetween_comm hg he hy).2] at hsd
      rcases hsd with h | h
      · exact ⟨e, he, "S", y, mem_edge.1 h, .inl rfl, .inl ⟨rfl, rfl⟩⟩
      · exact ⟨e, he, "D", y, mem_edge.1 h, .inr rfl, .inl ⟨rfl, rfl⟩⟩
    · rintro ⟨d, hd, p, n, hp, hsd, ⟨hx1, rfl⟩ | ⟨hx1, -⟩⟩
      · obtain rfl : d = e := List.inj_on_of_nodup_map hg.names hd he hx1.symm
        have hy : y ∈ nets d := mem_nets.2 ⟨p, hp⟩
        refine ⟨hy, ?_⟩
        rw [(pinsBetween_comm hg he hy).2, mem_edge, mem_edge]
        rcases hsd with rfl | rfl
        · exact .inl hp
        · exact .inr hp
      · exact absurd hx1.symm (hg.nets e he d hd p n hp)
  · obtain ⟨q, hq⟩ := mem_nets.1 hxn
    have h2 := getEl_net hg he hq
    simp only [neighbors, h2, List.mem_map, mem_users]
    constructor
    · rintro ⟨⟨d, ⟨hd, hxd⟩, rfl⟩, hsd⟩
      rw [(pinsBetween_comm hg hd hxd).1] at hsd
      rcases hsd with h | h
      · exact ⟨d, hd, "S", x, mem_edge.1 h, .inl rfl, .inr ⟨rfl, rfl⟩⟩
      · exact ⟨d, hd, "D", x, mem_edge.1 h, .inr rfl, .inr ⟨rfl, rfl⟩⟩
    · rintro ⟨d, hd, p, n, hp, hsd, ⟨rfl, -⟩ | ⟨rfl, rfl⟩⟩
      · exact absurd rfl (hg.nets d hd e he q d.name hq)
      · have hxd : x ∈ nets d := mem_nets.2 ⟨p, hp⟩
        refine ⟨⟨d, ⟨hd, hxd⟩, rfl⟩, ?_⟩
        rw [(pinsBetween_comm hg hd hxd).1, mem_edge, mem_edge]
        rcases hsd with rfl | rfl
        · exact .inl hp
        · exact .inr hp

/-- The step over gates and bulks leaves sources and drains. -/
theorem sd_nextLevel (hg : Good s power gnd) {x : String} (hx : x ∈ nodes s.elems) {ns : List String} (h : nextLevel L s.elems x = some ns)
    (y : String) : y ∈ sd s.elems x ns ↔ Joined s.elems x y := by
  rw [← sd_neighbors hg hx]
  unfold nextLevel at h
  split at h
  · rename_i hi
    obtain ⟨e, he⟩ := Option.isSome_iff_exists.1 hi
    obtain ⟨hel, hen⟩ := getEl_some he
    subst hen
    simp only [Option.map_eq_some_iff] at h
    obtain ⟨b, -, hb⟩ := h
    split at hb
    · subst hb
      simp only [sd, List.mem_filter, Bool.or_eq_true, List.contains_iff_mem]
      constructor
      · rintro ⟨⟨h1, -⟩, h2⟩
        exact ⟨h1, h2⟩
      · rintro ⟨h1, h2⟩
        have hy : y ∈ nets e := by simpa [neighbors, he] using h1
        refine ⟨⟨h1, ?_⟩, h2⟩
        rw [(pinsBetween_comm hg hel hy).2] at h2
        rw [(pinsBetween_comm hg hel hy).1, List.any_eq_true]
        rcases h2 with h2 | h2
        · exact ⟨"S", h2, by decide⟩
        · exact ⟨"D", h2, by decide⟩
    · rw [hb]
  · split at h
    · simp only [Option.map_eq_some_iff] at h
      obtain ⟨-, -, hb⟩ := h
      rw [hb]
    · cases h

/-! ## One traversal -/

/-- The edge from `x` to `y` calls for a change. -/
def wrong (L : Library) (l : List Inst) (pp pn x y : String) : Bool :=
  match baseOf L l y with
  | some b => if b = "PMOS" then (pinsBetween l y x).contains pp else if b = "NMOS" then (pinsBetween l y x).contains pn else false
  | none => false

theorem scanStep_visit {l : List Inst} {pp pn x y : String} {st st' : Scan} (h : scanStep L l pp pn x st y = some st') :
    st' = if (pinsBetween l y x).contains "S" || (pinsBetween l y x).contains "D" then visit (wrong L l pp pn) x st y else st := by
  unfold scanStep at h
  dsimp only at h
  split at h
  · rename_i hc
    cases h
    rw [Bool.or_eq_true] at hc
    rcases hc with hc | hc
    · rw [if_neg (by simpa using hc)]
    · split
      · rw [visit, if_pos (by simpa using hc)]
      · rfl
  · rename_i hc
    rw [Bool.or_eq_true, not_or] at hc
    rw [if_pos (by have := hc.1; simpa only [Bool.not_eq_true', Bool.not_eq_false] using this), visit, if_neg (by simpa using hc.2)]
    simp only [Option.map_eq_some_iff] at h
    obtain ⟨b, hb, rfl⟩ := h
    congr 1
    unfold wrong
    split at hb
    · rw [hb]
      dsimp only
      split
      · rfl
      · split
        · rfl
        · simp
    · rename_i hi
      have : baseOf L l y = none := by
        simp only [isInst, Bool.not_eq_true, Option.isSome_eq_false_iff, Option.isNone_iff_eq_none] at hi
        simp [baseOf, hi]
      rw [this]
      split at hb
      · cases hb
        simp
      · cases hb

theorem scanFold_visit {l : List Inst} {pp pn x : String} : ∀ (ns : List String) {st st' : Scan},
    ns.foldlM (scanStep L l pp pn x) st = some st' → st' = (sd l x ns).foldl (visit (wrong L l pp pn) x) st := by
  intro ns
  induction ns with
  | nil => intro st st' h; simp at h; simp [sd, h]
  | cons y ns ih =>
    intro st st' h
    rw [List.foldlM_cons] at h
    obtain ⟨st1, h1, h2⟩ := Option.bind_eq_some_iff.1 h
    have := ih h2
    have h1' := scanStep_visit h1
    simp only [sd, List.filter_cons] at this ⊢
    split
    · rename_i hc
      rw [if_pos hc] at h1'
      rw [List.foldl_cons, ← h1']
      exact this
    · rename_i hc
      rw [if_neg hc] at h1'
      rw [← h1']
      exact this

theorem joined_nodes {l : List Inst} {x y : String} (h : Joined l x y) : x ∈ nodes l ∧ y ∈ nodes l := by
  obtain ⟨e, he, p, n, hp, -, ⟨rfl, rfl⟩ | ⟨rfl, rfl⟩⟩ := h
  · exact ⟨mem_nodes.2 (.inl ⟨e, he, rfl⟩), mem_nodes.2 (.inr ⟨e, he, mem_nets.2 ⟨p, hp⟩⟩)⟩
  · exact ⟨mem_nodes.2 (.inr ⟨e, he, mem_nets.2 ⟨p, hp⟩⟩), mem_nodes.2 (.inl ⟨e, he, rfl⟩)⟩

theorem walk_nodes {src bar : String → Prop} (hs : ∀ x, src x → x ∈ nodes s.elems) {k : Nat} {x : String}
    (h : Walk (Joined s.elems) src bar k x) : x ∈ nodes s.elems := by
  cases h with
  | zero h => exact hs x h
  | step _ h _ => exact (joined_nodes h).2

theorem scan_outer (hg : Good s power gnd) {src bar : String → Prop} (hs : ∀ x, src x → x ∈ nodes s.elems) {pp pn : String} :
    ∀ (fuel : Nat) {st st' : Scan}, Outer (Joined s.elems) src bar (wrong L s.elems pp pn) st →
      scan L s.elems pp pn fuel st = some st' → Outer (Joined s.elems) src bar (wrong L s.elems pp pn) st' ∧ st'.queue = [] := by
  intro fuel
  induction fuel with
  | zero => intro st st' _ h; simp [scan] at h
  | succ fuel ih =>
    intro st st' ho h
    rw [scan] at h
    split at h
    · rename_i hq
      cases h
      exact ⟨ho, hq⟩
    · rename_i x q hq
      obtain ⟨ns, hns, h⟩ := Option.bind_eq_some_iff.1 h
      obtain ⟨st1, h1, h2⟩ := Option.bind_eq_some_iff.1 h
      have hx : x ∈ nodes s.elems := by
        obtain ⟨k, A, B, hAB, hA, hB, -⟩ := ho.queue
        have : x ∈ A ++ B := by rw [← hAB, hq]; simp
        rcases List.mem_append.1 this with h | h
        · exact walk_nodes hs (hA x h).1
        · exact walk_nodes hs (hB x h).1
      refine ih ?_ h2
      rw [scanFold_visit ns h1]
      exact outer_step ho hq (sd_nextLevel hg hx hns)

/-- What a traversal returns. -/
theorem scan_spec (hg : Good s power gnd) {src bar : String → Prop} (hs : ∀ x, src x → x ∈ nodes s.elems) {pp pn : String} {fuel : Nat}
    {q tr : List String} (hq : ∀ y, y ∈ q ↔ src y) (ht : ∀ y, y ∈ tr ↔ bar y ∨ src y) {st : Scan}
    (h : scan L s.elems pp pn fuel ⟨q, tr, []⟩ = some st) :
    (∀ y ∈ st.changes, ∃ x k, Dist (Joined s.elems) src bar k x ∧ Dist (Joined s.elems) src bar (k + 1) y ∧ Joined s.elems x y ∧
      wrong L s.elems pp pn x y = true) ∧
    ∀ y k, ¬ bar y → ¬ src y → Walk (Joined s.elems) src bar k y → ∃ x j, Dist (Joined s.elems) src bar j x ∧
      Dist (Joined s.elems) src bar (j + 1) y ∧ Joined s.elems x y ∧ (wrong L s.elems pp pn x y = true → y ∈ st.changes) := by
  obtain ⟨ho, hq'⟩ := scan_outer hg hs fuel (outer_init (wrong L s.elems pp pn) hq ht) h
  refine ⟨ho.reached.out, fun y k hb hs' hw => ?_⟩
  obtain ⟨j, -, hd⟩ := exists_dist hw
  rcases ho.reached.all y (outer_end ho hq' hd) with h | h | h
  · exact absurd h hb
  · exact absurd h hs'
  · exact h

/-- An edge that calls for a change: the pin is on the net. -/
theorem wrong_iff (hL : Ordered L) (hg : Good s power gnd) {d : Inst} (hd : d ∈ s.elems) {pp pn x : String} (hj : x ∈ nets d) :
    wrong L s.elems pp pn x d.name = true ↔ (Kind L d.model "PMOS" ∧ (pp, x) ∈ d.pins) ∨ (Kind L d.model "NMOS" ∧ (pn, x) ∈ d.pins) := by
  have hb : baseOf L s.elems d.name = baseModel L (L.subs.length + 1) d.model := by
    simp [baseOf, getEl_of_mem hg.names hd]
  rw [← baseModel_iff hL, ← baseModel_iff hL, wrong, hb, (pinsBetween_comm hg hd hj).1]
  cases baseModel L (L.subs.length + 1) d.model with
  | none => simp
  | some b =>
    dsimp only
    split
    · rename_i h; subst h
      simp [mem_edge]
    · split
      · rename_i h; subst h
        simp [mem_edge]
      · rename_i h1 h2
        simp [h1, h2]

theorem joined_elem (hg : Good s power gnd) {d : Inst} (hd : d ∈ s.elems) {x : String} (h : Joined s.elems x d.name) :
    ∃ p, (p = "S" ∨ p = "D") ∧ (p, x) ∈ d.pins := by
  obtain ⟨e, he, p, n, hp, hsd, ⟨rfl, h2⟩ | ⟨rfl, h2⟩⟩ := h
  · exact absurd h2.symm (hg.nets d hd e he p n hp)
  · obtain rfl : d = e := List.inj_on_of_nodup_map hg.names hd he h2
    exact ⟨p, hsd, hp⟩

theorem pin_unique {d : Inst} (hn : (d.pins.map Prod.fst).Nodup) {p a b : String} (ha : (p, a) ∈ d.pins) (hb : (p, b) ∈ d.pins) : a = b := by
  have := List.inj_on_of_nodup_map hn ha hb rfl
  exact congrArg Prod.snd this

/-- A transistor that is marked: its pin that should be far is not farther than the other one. -/
theorem marked_near (hL : Ordered L) (hg : Good s power gnd) {src bar : String → Prop} {pp pn : String} {d : Inst} (hd : d ∈ s.elems)
    {x : String} {k : Nat} (hx : Dist (Joined s.elems) src bar k x)
    (hy : Dist (Joined s.elems) src bar (k + 1) d.name) (hj : Joined s.elems x d.name) (hw : wrong L s.elems pp pn x d.name = true) (hb : ¬ bar d.name) :
    ∃ p, ((Kind L d.model "PMOS" ∧ p = pp) ∨ (Kind L d.model "NMOS" ∧ p = pn)) ∧ (p, x) ∈ d.pins ∧
      ∀ q n, (q = "S" ∨ q = "D") → (q, n) ∈ d.pins → NotFarther (Walk (Joined s.elems) src bar) x n := by
  obtain ⟨p', -, hp'⟩ := joined_elem hg hd hj
  have hn : x ∈ nets d := mem_nets.2 ⟨p', hp'⟩
  have near : ∀ q n, (q = "S" ∨ q = "D") → (q, n) ∈ d.pins → NotFarther (Walk (Joined s.elems) src bar) x n := by
    intro q n hq hqn
    refine ⟨k, hx.1, fun j hj' hwj => ?_⟩
    exact hy.2 (j + 1) (by omega) (.step hwj ⟨d, hd, q, n, hqn, hq, .inr ⟨rfl, rfl⟩⟩ hb)
  rcases (wrong_iff hL hg hd hn).1 hw with ⟨h1, h2⟩ | ⟨h1, h2⟩
  · exact ⟨pp, .inl ⟨h1, rfl⟩, h2, near⟩
  · exact ⟨pn, .inr ⟨h1, rfl⟩, h2, near⟩

/-- A transistor whose pin that should be far is nearer is marked. -/
theorem near_marked (hL : Ordered L) (hg : Good s power gnd) {src bar : String → Prop} {pp pn : String} {d : Inst} (hd : d ∈ s.elems)
    {p q a b : String} (hp : p = "S" ∨ p = "D") (hpq : q = other p) (ha : (p, a) ∈ d.pins) (hb : (q, b) ∈ d.pins)
    (hk : (Kind L d.model "PMOS" ∧ p = pp) ∨ (Kind L d.model "NMOS" ∧ p = pn))
    (hnear : Nearer (Walk (Joined s.elems) src bar) a b) (hbar : ¬ bar d.name) {changes : List String}
    (hsc : ∀ k, Walk (Joined s.elems) src bar k d.name → ∃ x j, Dist (Joined s.elems) src bar j x ∧
      Dist (Joined s.elems) src bar (j + 1) d.name ∧ Joined s.elems x d.name ∧ (wrong L s.elems pp pn x d.name = true → d.name ∈ changes)) :
    d.name ∈ changes := by
  obtain ⟨k, hwk, hfar⟩ := hnear
  have hwd : Walk (Joined s.elems) src bar (k + 1) d.name := .step hwk ⟨d, hd, p, a, ha, hp, .inr ⟨rfl, rfl⟩⟩ hbar
  obtain ⟨x, j, hx, hy, hj, hch⟩ := hsc _ hwd
  apply hch
  have hjk : j ≤ k := by
    by_contra hc
    exact hy.2 (k + 1) (by omega) hwd
  obtain ⟨p', hsd, hp'⟩ := joined_elem hg hd hj
  have hxb : x ≠ b := by
    rintro rfl
    exact hfar j hjk hx.1
  have hpp : p' = p := by
    by_contra hc
    have : p' = q := by
      rw [hpq]
      rcases hp with rfl | rfl <;> rcases hsd with rfl | rfl <;> simp_all [other]
    subst this
    exact hxb (pin_unique (hg.pins d hd) hp' hb)
  subst hpp
  rw [wrong_iff hL hg hd (mem_nets.2 ⟨p', hp'⟩)]
  rcases hk with ⟨h1, rfl⟩ | ⟨h1, rfl⟩
  · exact .inl ⟨h1, hp'⟩
  · exact .inr ⟨h1, hp'⟩

end graph

/-! ## The exchange -/

/-- The element with source and drain exchanged. -/
def turn (d : Inst) : Inst :=
  { d with pins := d.pins.map fun pn => if pn.1 = "D" then ("D", (d.pins.lookup "S").getD "") else
      if pn.1 = "S" then ("S", (d.pins.lookup "D").getD "") else pn }

theorem turned_turn {d : Inst} (hn : (d.pins.map Prod.fst).Nodup) {a b : String} (hd : (("D" : String), a) ∈ d.pins)
    (hs : (("S" : String), b) ∈ d.pins) : Turned d (turn d) := by
  have h1 := mem_lookup hn hd
  have h2 := mem_lookup hn hs
  refine ⟨rfl, rfl, rfl, ?_, fun p n => ?_⟩
  · simp only [turn, List.map_map]
    refine List.map_congr_left fun pn _ => ?_
    simp only [Function.comp]
    split
    · rename_i h; rw [h]
    · split
      · rename_i h; rw [h]
      · rfl
  · simp only [turn, h1, h2, Option.getD_some, List.mem_map, other]
    constructor
    · rintro ⟨⟨q, m⟩, hq, heq⟩
      dsimp only at heq
      split at heq
      · cases heq; simpa using hs
      · split at heq
        · cases heq; simpa using hd
        · rename_i h1 h2
          cases heq
          simpa [h1, h2] using hq
    · intro h
      split at h
      · rename_i hp
        subst hp
        obtain rfl := pin_unique hn h hs
        exact ⟨("D", a), hd, by simp⟩
      · split at h
        · rename_i hp
          subst hp
          obtain rfl := pin_unique hn h hd
          exact ⟨("S", b), hs, by simp⟩
        · rename_i h1 h2
          exact ⟨(p, n), h, by simp [h1, h2]⟩

theorem swap_eq {l l' : List Inst} (hn : (l.map Inst.name).Nodup) {x : String} (h : swap l x = some l') :
    l' = l.map fun d => if d.name = x then turn d else d := by
  unfold swap at h
  obtain ⟨e, he, h⟩ := Option.bind_eq_some_iff.1 h
  obtain ⟨nd, hnd, h⟩ := Option.bind_eq_some_iff.1 h
  obtain ⟨ns, hns, rfl⟩ := Option.map_eq_some_iff.1 h
  obtain ⟨hel, hex⟩ := getEl_some he
  refine List.map_congr_left fun d hd => ?_
  split
  · rename_i hdx
    obtain rfl : d = e := List.inj_on_of_nodup_map hn hd hel (hdx.trans hex.symm)
    simp [turn, hnd, hns]
  · rfl

theorem swaps_eq : ∀ (xs : List String) {l l' : List Inst}, (l.map Inst.name).Nodup → xs.Nodup → xs.foldlM swap l = some l' →
    l' = l.map fun d => if d.name ∈ xs then turn d else d := by
  intro xs
  induction xs with
  | nil => intro l l' _ _ h; simp at h; simp [h]
  | cons x xs ih =>
    intro l l' hn hx h
    rw [List.foldlM_cons] at h
    obtain ⟨l1, h1, h2⟩ := Option.bind_eq_some_iff.1 h
    have h1' := swap_eq hn h1
    have hnames : l1.map Inst.name = l.map Inst.name := by
      rw [h1', List.map_map]
      refine List.map_congr_left fun d _ => ?_
      simp only [Function.comp]
      split <;> rfl
    rw [List.nodup_cons] at hx
    rw [ih (hnames ▸ hn) hx.2 h2, h1', List.map_map]
    refine List.map_congr_left fun d _ => ?_
    simp only [Function.comp, List.mem_cons]
    by_cases hd : d.name = x
    · rw [if_pos hd, if_neg (by change d.name ∉ xs; exact hd ▸ hx.1), if_pos (.inl hd)]
    · rw [if_neg hd]
      simp [hd]

theorem swaps_some : ∀ (xs : List String) {l : List Inst}, (l.map Inst.name).Nodup → (∀ e ∈ l, (e.pins.map Prod.fst).Nodup) → xs.Nodup →
    (∀ x ∈ xs, ∃ d ∈ l, d.name = x ∧ (∃ a, ("D", a) ∈ d.pins) ∧ ∃ b, ("S", b) ∈ d.pins) → ∃ l', xs.foldlM swap l = some l' := by
  intro xs
  induction xs with
  | nil => intro l _ _ _ _; exact ⟨l, rfl⟩
  | cons x xs ih =>
    intro l hn hp hx h
    obtain ⟨d, hd, rfl, ⟨a, ha⟩, ⟨b, hb⟩⟩ := h x (by simp)
    have h1 : ∃ l1, swap l d.name = some l1 := by
      simp [swap, getEl_of_mem hn hd, mem_lookup (hp d hd) ha, mem_lookup (hp d hd) hb]
    obtain ⟨l1, h1⟩ := h1
    have h1' := swap_eq hn h1
    have hnames : l1.map Inst.name = l.map Inst.name := by
      rw [h1', List.map_map]
      refine List.map_congr_left fun d _ => ?_
      simp only [Function.comp]
      split <;> rfl
    rw [List.nodup_cons] at hx
    rw [List.foldlM_cons, h1]
    refine ih (hnames ▸ hn) (fun e he => ?_) hx.2 fun y hy => ?_
    · rw [h1'] at he
      obtain ⟨e', he', rfl⟩ := List.mem_map.1 he
      split
      · rename_i hee
        obtain rfl : e' = d := List.inj_on_of_nodup_map hn he' hd hee
        rw [(turned_turn (hp e' hd) ha hb).keys]
        exact hp e' hd
      · exact hp e' he'
    · obtain ⟨c, hc, rfl, h2, h3⟩ := h y (by simp [hy])
      refine ⟨c, ?_, rfl, h2, h3⟩
      rw [h1']
      refine List.mem_map.2 ⟨c, hc, if_neg ?_⟩
      intro hcd
      exact hx.1 (hcd ▸ hy)

end Verif.Sd

import Verif.Sym.Blocks
import Mathlib.Tactic.Tauto

/-!
# C72: generated symmetric nets list corresponding pins
-/

namespace Verif.Sym

open Verif (pySort mem_pySort)

/-! ## Specification -/

/-- A pin called `q` of a device is connected to the net `n` of `s`, through ports of subcircuits. -/
inductive Leaf (L : Lib) : Sub → String → String → Prop
  | dev {s : Sub} {e : Inst} {p n : String} : e ∈ s.elems → (p, n) ∈ e.pins → find L e.model = none → Leaf L s n p
  | sub {s c : Sub} {e : Inst} {p n q : String} : e ∈ s.elems → (p, n) ∈ e.pins → find L e.model = some c → Leaf L c p q →
      Leaf L s n q

/-- The library has levels: subcircuits contain only subcircuits of lower levels. -/
def Levels (L : Lib) (s : Sub) : Prop :=
  ∃ rank : String → Nat, (∀ c ∈ L, rank c.name < L.length) ∧
    (∀ c ∈ L, ∀ e ∈ c.elems, ∀ d, find L e.model = some d → rank d.name < rank c.name) ∧
    ∀ e ∈ s.elems, ∀ d, find L e.model = some d → d.name ≠ s.name

/-- The terminal is on the net. -/
def OnNet (s : Sub) (n : String) : Term → Prop
  | .pin i p => ∃ e ∈ s.elems, e.name = i ∧ (p, n) ∈ e.pins
  | .port m => m = n ∧ n ∈ s.ports

/-- The instance or the port. -/
def Term.owner : Term → String
  | .pin i _ => i
  | .port n => n

/-- Terminals of the nets `a` and `b` that correspond: pins of instances of the same model that are connected in the same way, or
ports whose nets are connected to the same kinds of device pins.  Bulk pins do not count. -/
def Corr (E : Env) (a b : String) : Term → Term → Prop
  | .pin i p, .pin j q => ∃ e ∈ E.sub.elems, ∃ d ∈ E.sub.elems, e.name = i ∧ d.name = j ∧ e.model = d.model ∧
      (find E.lib e.model = none → p = q ∧ p ≠ "B") ∧
      ∀ c, find E.lib e.model = some c → (∃ r, r ≠ "B" ∧ Leaf E.lib c p r) ∧ ∀ r, r ≠ "B" → (Leaf E.lib c p r ↔ Leaf E.lib c q r)
  | .port _, .port _ => ∀ r, r ≠ "B" → (Leaf E.lib E.sub a r ↔ Leaf E.lib E.sub b r)
  | _, _ => False

/-- `i` and `j` are a symmetric pair of the user, or of a generated constraint, or of one that was there before. -/
def SymPair (E : Env) (w : List Entry) (cons : List Con) (i j : String) : Prop :=
  Entry.set i j ∈ w ∨ Entry.set j i ∈ w ∨ ∃ b, (Con.blocks b ∈ cons ∨ E.old (.blocks b) = true) ∧
    ([i, j] ∈ b ∨ [j, i] ∈ b ∨ (i = j ∧ [i] ∈ b))

/-- The pairs of terminals of a generated constraint: they are on the two nets and correspond; instances are symmetric pairs and
not constrained by name; there are at least two instances or ports. -/
structure Pins (E : Env) (w : List Entry) (cons : List Con) (a b : String) (ts : List (Term × Term)) : Prop where
  on : ∀ t ∈ ts, OnNet E.sub a t.1 ∧ OnNet E.sub b t.2
  corr : ∀ t ∈ ts, Corr E a b t.1 t.2
  sym : ∀ t ∈ ts, ∀ i p j q, t = (.pin i p, .pin j q) → SymPair E w cons i j ∧ .one i ∉ w ∧ .one j ∉ w
  two : ∃ t ∈ ts, ∃ u ∈ ts, t.1.owner ≠ u.1.owner

/-- C72 in full: no terminal is listed twice. -/
def C72_statement (E : Env) (w : List Entry) (cons : List Con) : Prop :=
  ∀ a b pa pb, .nets a b pa pb ∈ cons → a ≠ b ∧ ∃ ts, pa = ts.map (fun t => t.1.show) ∧ pb = ts.map (fun t => t.2.show) ∧
    Pins E w cons a b ts ∧ (ts.map Prod.fst).Nodup ∧ (ts.map Prod.snd).Nodup

/-- No instance is in two different symmetric pairs of the user. -/
def Disjoint (w : List Entry) : Prop :=
  ∀ x y x' y', Entry.set x y ∈ w → Entry.set x' y' ∈ w → (x = x' ∨ x = y' ∨ y = x' ∨ y = y') → (x = x' ∧ y = y') ∨ (x = y' ∧ y = x')

/-! ## Leaf connections -/

theorem mem_edge {e : Inst} {n p : String} : p ∈ edge e n ↔ (p, n) ∈ e.pins := by
  simp only [edge, List.mem_map, List.mem_filter, decide_eq_true_eq]
  constructor
  · rintro ⟨⟨q, m⟩, ⟨h, rfl⟩, rfl⟩; exact h
  · exact fun h => ⟨(p, n), ⟨h, rfl⟩, rfl⟩

theorem mem_users' {l : List Inst} {n : String} {e : Inst} {p : String} (he : e ∈ l) (hp : (p, n) ∈ e.pins) : e ∈ users l n :=
  mem_users.2 ⟨he, List.mem_map.2 ⟨(p, n), hp, rfl⟩⟩

theorem find_mem {L : Lib} {m : String} {c : Sub} (h : find L m = some c) : c ∈ L := List.mem_of_find?_eq_some h

theorem leaf_sound {L : Lib} {rank : String → Nat}
    (hr : ∀ c ∈ L, ∀ e ∈ c.elems, ∀ d, find L e.model = some d → rank d.name < rank c.name) :
    ∀ (fuel : Nat) (s : Sub), (∀ e ∈ s.elems, ∀ d, find L e.model = some d → d.name ≠ s.name) → ∀ n q, q ∈ leaf L fuel s n → Leaf L s n q := by
  intro fuel
  induction fuel with
  | zero => intro s _ n q h; simp [leaf] at h
  | succ fuel ih =>
    intro s hs n q h
    simp only [leaf, List.mem_flatMap] at h
    obtain ⟨e, he, p, hp, h⟩ := h
    have he' := (mem_users.1 he).1
    split at h
    · rename_i c hc
      rw [if_pos (hs e he' c hc)] at h
      refine .sub he' (mem_edge.1 hp) hc (ih c (fun x hx d hd => ?_) _ _ h)
      exact fun hcc => absurd (hr c (find_mem hc) x hx d hd) (by rw [hcc]; omega)
    · rename_i hc
      simp only [List.mem_singleton] at h
      subst h
      exact .dev he' (mem_edge.1 hp) hc

theorem leaf_complete {L : Lib} {rank : String → Nat}
    (hr : ∀ c ∈ L, ∀ e ∈ c.elems, ∀ d, find L e.model = some d → rank d.name < rank c.name) {s : Sub} {n q : String}
    (h : Leaf L s n q) : (∀ e ∈ s.elems, ∀ d, find L e.model = some d → d.name ≠ s.name) →
    ∀ fuel, (∀ e ∈ s.elems, ∀ d, find L e.model = some d → rank d.name + 2 ≤ fuel) → 1 ≤ fuel → q ∈ leaf L fuel s n := by
  induction h with
  | dev he hp hc =>
    intro _ fuel _ h1
    match fuel, h1 with
    | f + 1, _ =>
      simp only [leaf, List.mem_flatMap]
      exact ⟨_, mem_users' he hp, _, mem_edge.2 hp, by rw [hc]; simp⟩
  | @sub s c e p n q he hp hc hl ih =>
    intro hs fuel hf h1
    have := hf e he c hc
    match fuel, this with
    | f + 1, this =>
      simp only [leaf, List.mem_flatMap]
      refine ⟨e, mem_users' he hp, p, mem_edge.2 hp, ?_⟩
      rw [hc]
      dsimp only
      rw [if_pos (hs e he c hc)]
      refine ih (fun x hx d hd hcc => ?_) f (fun x hx d hd => ?_) (by omega)
      · exact absurd (hr c (find_mem hc) x hx d hd) (by rw [hcc]; omega)
      · have := hr c (find_mem hc) x hx d hd
        omega

theorem leaf_iff {L : Lib} {s : Sub} (h : Levels L s) (n q : String) : q ∈ leaf L (depth L) s n ↔ Leaf L s n q := by
  obtain ⟨rank, h1, h2, h3⟩ := h
  refine ⟨leaf_sound h2 _ s h3 n q, fun hl => leaf_complete h2 hl h3 _ (fun e he d hd => ?_) (by simp [depth])⟩
  have := h1 d (find_mem hd)
  simp only [depth]; omega

theorem levels_child {L : Lib} {s c : Sub} (h : Levels L s) (hc : c ∈ L) : Levels L c := by
  obtain ⟨rank, h1, h2, h3⟩ := h
  exact ⟨rank, h1, h2, fun e he d hd hcc => absurd (h2 c hc e he d hd) (by rw [hcc]; omega)⟩

/-! ## Connections -/

theorem mem_connection {E : Env} (hord : ∀ l : List String, (E.ord l).Perm l) {n : String} {t : Term} {lc : List String}
    (h : (t, lc) ∈ connection E n) :
    (∃ e ∈ E.sub.elems, ∃ p, t = .pin e.name p ∧ (p, n) ∈ e.pins ∧
      ((find E.lib e.model = none ∧ p ≠ "B" ∧ lc = [p]) ∨
        ∃ c, find E.lib e.model = some c ∧ lc = (asSet (leaf E.lib (depth E.lib) c p)).filter (fun x => x ≠ "B") ∧ lc ≠ [])) ∨
    (t = .port n ∧ n ∈ E.sub.ports ∧ lc = (asSet (leaf E.lib (depth E.lib) E.sub n)).filter fun x => x ≠ "B") := by
  unfold connection at h
  rcases List.mem_append.1 h with h | h
  · simp only [List.mem_flatMap, List.mem_filterMap] at h
    obtain ⟨e, he, p, hp, h⟩ := h
    left
    have he' := (mem_users.1 he).1
    have hp' := mem_edge.1 ((hord _).mem_iff.1 hp)
    split at h
    · rename_i c hc
      split at h
      · cases h
      · rename_i hne
        simp only [Option.some.injEq, Prod.mk.injEq] at h
        obtain ⟨rfl, rfl⟩ := h
        exact ⟨e, he', p, rfl, hp', .inr ⟨c, hc, rfl, hne⟩⟩
    · rename_i hc
      split at h
      · rename_i hB
        simp only [Option.some.injEq, Prod.mk.injEq] at h
        obtain ⟨rfl, rfl⟩ := h
        exact ⟨e, he', p, rfl, hp', .inl ⟨hc, hB, rfl⟩⟩
      · cases h
  · right
    split at h
    · rename_i hp
      simp only [List.mem_singleton, Prod.mk.injEq] at h
      exact ⟨h.1, by simpa using hp, h.2⟩
    · simp at h

theorem sameSet_iff {a b : List String} : sameSet a b = true ↔ ∀ x, x ∈ a ↔ x ∈ b := by
  simp only [sameSet, Bool.and_eq_true, List.all_eq_true, List.contains_eq_mem, decide_eq_true_eq]
  exact ⟨fun h x => ⟨h.1 x, h.2 x⟩, fun h => ⟨fun x => (h x).1, fun x => (h x).2⟩⟩

/-! ## Matching -/

theorem hasSet_iff {w : List Entry} {a b : String} : hasSet w a b = true ↔ Entry.set a b ∈ w ∨ Entry.set b a ∈ w := by
  simp only [hasSet, List.any_eq_true]
  constructor
  · rintro ⟨e, he, h⟩
    cases e with
    | one x => cases h
    | set x y =>
      simp only [decide_eq_true_eq] at h
      rcases h with ⟨rfl, rfl⟩ | ⟨rfl, rfl⟩
      · exact .inl he
      · exact .inr he
  · rintro (h | h)
    · exact ⟨_, h, by simp⟩
    · exact ⟨_, h, by simp⟩

theorem mem_put_keys {d : List (String × String)} {k v x : String} (h : x ∈ (put d k v).map Prod.fst) : x = k ∨ x ∈ d.map Prod.fst := by
  obtain ⟨e, he, rfl⟩ := List.mem_map.1 h
  rcases mem_put he with he | rfl
  · exact .inr (List.mem_map_of_mem he)
  · exact .inl rfl

theorem put_keys_nodup {d : List (String × String)} {k v : String} (h : (d.map Prod.fst).Nodup) : ((put d k v).map Prod.fst).Nodup := by
  unfold put
  split
  · have : (d.map fun e => if e.1 = k then (k, v) else e).map Prod.fst = d.map Prod.fst := by
      rw [List.map_map]
      refine List.map_congr_left fun e _ => ?_
      simp only [Function.comp]
      split
      · rename_i he; exact he.symm
      · rfl
    rw [this]; exact h
  · rename_i hn
    rw [List.map_append]
    refine List.Nodup.append h (by simp) ?_
    intro x hx hx'
    simp at hx'
    subst hx'
    obtain ⟨e, he, hk⟩ := List.mem_map.1 hx
    exact hn (List.any_eq_true.2 ⟨e, he, by simpa using hk⟩)

theorem put_mem {d : List (String × String)} {k v : String} : (k, v) ∈ put d k v := by
  unfold put
  split
  · rename_i h
    obtain ⟨e, he, hk⟩ := List.any_eq_true.1 h
    exact List.mem_map.2 ⟨e, he, by simp at hk; simp [hk]⟩
  · simp

theorem put_other {d : List (String × String)} {k v : String} {e : String × String} (he : e ∈ d) (hk : e.1 = k → e.2 = v) :
    e ∈ put d k v := by
  unfold put
  split
  · refine List.mem_map.2 ⟨e, he, ?_⟩
    split
    · rename_i h; rw [← h, ← hk h]
    · rfl
  · exact List.mem_append_left _ he

/-- What holds while terminals are matched. -/
structure MInv (E : Env) (w skip : List Entry) (a b : String) (st : Match) : Prop where
  src : ∀ t ∈ st.pins, ∃ la lb, (t.1, la) ∈ connection E a ∧ (t.2, lb) ∈ connection E b ∧ sameSet la lb = true
  pin : ∀ t ∈ st.pins, ∀ i p j q, t = (.pin i p, .pin j q) → hasSet w i j = true ∧ hasName skip i = false ∧ hasName skip j = false ∧
    (getEl E.sub.elems i).map Inst.model = (getEl E.sub.elems j).map Inst.model
  kind : ∀ t ∈ st.pins, (∃ i p j q, t = (.pin i p, .pin j q)) ∨ ∃ m k, t = (.port m, .port k)
  keys : (st.pairs.map Prod.fst).Nodup
  owner : ∀ k ∈ st.pairs.map Prod.fst, ∃ t ∈ st.pins, t.1.owner = k

theorem matchStep_inv {E : Env} {w skip : List Entry} {a b : String} {st st' : Match} {ab : (Term × List String) × Term × List String}
    (ha : ab.1 ∈ connection E a) (hb : ab.2 ∈ connection E b) (h : MInv E w skip a b st)
    (hs : matchStep E w (some skip) false st ab = some st') : MInv E w skip a b st' := by
  unfold matchStep at hs
  split at hs
  · rename_i i p j q hi hj
    split at hs
    · cases hs; exact h
    rename_i hsk
    split at hs
    · rename_i hsame
      split at hs
      · cases hs
      · split at hs
        · cases hs; exact h
        · rename_i hset
          cases hs
          rw [Bool.and_eq_true, beq_iff_eq] at hsame
          simp only [Option.any_some, Bool.or_eq_true, not_or, Bool.not_eq_true] at hsk
          have hset : hasSet w i j = true := by simpa using hset
          refine ⟨?_, ?_, ?_, put_keys_nodup h.keys, ?_⟩
          · intro t ht
            rcases List.mem_append.1 ht with ht | ht
            · exact h.src t ht
            · simp only [List.mem_singleton] at ht
              subst ht
              exact ⟨ab.1.2, ab.2.2, ha, hb, hsame.1⟩
          · intro t ht i' p' j' q' hp'
            rcases List.mem_append.1 ht with ht | ht
            · exact h.pin t ht i' p' j' q' hp'
            · simp only [List.mem_singleton] at ht
              rw [ht, hi, hj] at hp'
              simp only [Prod.mk.injEq, Term.pin.injEq] at hp'
              obtain ⟨⟨rfl, rfl⟩, rfl, rfl⟩ := hp'
              exact ⟨hset, hsk.1, hsk.2, hsame.2⟩
          · intro t ht
            rcases List.mem_append.1 ht with ht | ht
            · exact h.kind t ht
            · simp only [List.mem_singleton] at ht
              exact .inl ⟨i, p, j, q, by rw [ht, hi, hj]⟩
          · intro k hk
            rcases mem_put_keys hk with rfl | hk
            · exact ⟨(ab.1.1, ab.2.1), by simp, by rw [hi]; rfl⟩
            · obtain ⟨t, ht, hk⟩ := h.owner k hk
              exact ⟨t, List.mem_append_left _ ht, hk⟩
    · cases hs; exact h
  · rename_i m k hm hk
    split at hs
    · rename_i hc
      cases hs
      rw [Bool.and_eq_true, Bool.and_eq_true] at hc
      refine ⟨?_, ?_, ?_, put_keys_nodup h.keys, ?_⟩
      · intro t ht
        rcases List.mem_append.1 ht with ht | ht
        · exact h.src t ht
        · simp only [List.mem_singleton] at ht
          subst ht
          exact ⟨ab.1.2, ab.2.2, by rw [← hm]; exact ha, by rw [← hk]; exact hb, hc.1.1⟩
      · intro t ht i' p' j' q' hp'
        rcases List.mem_append.1 ht with ht | ht
        · exact h.pin t ht i' p' j' q' hp'
        · simp only [List.mem_singleton] at ht
          rw [ht] at hp'
          simp at hp'
      · intro t ht
        rcases List.mem_append.1 ht with ht | ht
        · exact h.kind t ht
        · simp only [List.mem_singleton] at ht
          exact .inr ⟨m, k, ht⟩
      · intro x hx
        rcases mem_put_keys hx with rfl | hx
        · exact ⟨(.port x, .port k), by simp, rfl⟩
        · obtain ⟨t, ht, hx⟩ := h.owner x hx
          exact ⟨t, List.mem_append_left _ ht, hx⟩
    · cases hs; exact h
  · cases hs; exact h

theorem devicePairs_spec {E : Env} {w skip : List Entry} {a b : String} {r : Match}
    (h : devicePairs E w (some skip) false a b = some (some r)) :
    ((connection E a).flatMap fun x => (connection E b).map fun y => (x, y)).foldlM (matchStep E w (some skip) false) ⟨[], []⟩ = some r ∧
    MInv E w skip a b r ∧ 1 < r.pairs.length := by
  unfold devicePairs at h
  split at h
  · cases h
  · simp only [Option.some.injEq, Option.bind_eq_some_iff] at h
    obtain ⟨r', hr, h⟩ := h
    split at h
    · rename_i hl
      simp only [Option.some.injEq] at h
      subst h
      refine ⟨hr, ?_, hl⟩
      refine foldlM_inv (P := MInv E w skip a b) (fun st ab hab st' hst hs => ?_) ⟨by simp, by simp, by simp, by simp, by simp⟩ hr
      simp only [List.mem_flatMap, List.mem_map] at hab
      obtain ⟨x, hx, y, hy, rfl⟩ := hab
      exact matchStep_inv hx hy hst hs
    · cases h

/-! ## Every terminal once -/

/-- Sets that share a name are the same. -/
structure OInv (w : List Entry) (st : Match) : Prop where
  pin : ∀ t ∈ st.pins, ∀ i p j q, t = (.pin i p, .pin j q) → hasSet w i j = true ∧ (i, j) ∈ st.pairs
  kind : ∀ t ∈ st.pins, (∃ i p j q, t = (.pin i p, .pin j q)) ∨ ∃ m k, t = (.port m, .port k)
  fst : (st.pins.map Prod.fst).Nodup
  snd : (st.pins.map Prod.snd).Nodup

theorem hasSet_fun {w : List Entry} (hw : Disjoint w) {i j j' : String} (h : hasSet w i j = true) (h' : hasSet w i j' = true) : j = j' := by
  rw [hasSet_iff] at h h'
  rcases h with h | h <;> rcases h' with h' | h' <;> have := hw _ _ _ _ h h' (by tauto) <;> grind

/-- Whether a pair of terminals is one of pins, in case the owner of the pin is not the port. -/
theorem matchStep_once {E : Env} {w skip : List Entry} (hw : Disjoint w)
    {st st' : Match} {ab : (Term × List String) × Term × List String}
    (hport : ∀ m k, ab.1.1 = .port m → ab.2.1 = .port k → ∀ t ∈ st.pins, ∀ i p j q, t = (.pin i p, .pin j q) → i ≠ m)
    (h : OInv w st) (hs : matchStep E w (some skip) false st ab = some st') : OInv w st' := by
  unfold matchStep at hs
  split at hs
  · rename_i i p j q hi hj
    split at hs
    · cases hs; exact h
    split at hs
    · split at hs
      · cases hs
      · rename_i hval
        split at hs
        · cases hs; exact h
        · rename_i hset
          cases hs
          have hset : hasSet w i j = true := by simpa using hset
          have hval : ∀ e ∈ st.pairs, e.2 ≠ j := by
            intro e he hc
            exact hval (List.any_eq_true.2 ⟨e, he, by simpa using hc⟩)
          refine ⟨?_, ?_, ?_, ?_⟩
          · intro t ht i' p' j' q' hp'
            rcases List.mem_append.1 ht with ht | ht
            · obtain ⟨h1, h2⟩ := h.pin t ht i' p' j' q' hp'
              refine ⟨h1, put_other h2 fun hk => ?_⟩
              dsimp only at hk ⊢
              subst hk
              exact hasSet_fun hw h1 hset
            · simp only [List.mem_singleton] at ht
              rw [ht, hi, hj] at hp'
              simp only [Prod.mk.injEq, Term.pin.injEq] at hp'
              obtain ⟨⟨rfl, rfl⟩, rfl, rfl⟩ := hp'
              exact ⟨hset, put_mem⟩
          · intro t ht
            rcases List.mem_append.1 ht with ht | ht
            · exact h.kind t ht
            · simp only [List.mem_singleton] at ht
              exact .inl ⟨i, p, j, q, by rw [ht, hi, hj]⟩
          · rw [List.map_append]
            refine List.Nodup.append h.fst (by simp) ?_
            intro x hx hx'
            simp at hx'
            subst hx'
            obtain ⟨t, ht, hte⟩ := List.mem_map.1 hx
            rcases h.kind t ht with ⟨i', p', j', q', rfl⟩ | ⟨m, k, rfl⟩
            · rw [hi] at hte
              simp only [Term.pin.injEq] at hte
              obtain ⟨rfl, rfl⟩ := hte
              obtain ⟨h1, h2⟩ := h.pin _ ht _ _ _ _ rfl
              exact hval _ h2 (hasSet_fun hw h1 hset)
            · rw [hi] at hte; cases hte
          · rw [List.map_append]
            refine List.Nodup.append h.snd (by simp) ?_
            intro x hx hx'
            simp at hx'
            subst hx'
            obtain ⟨t, ht, hte⟩ := List.mem_map.1 hx
            rcases h.kind t ht with ⟨i', p', j', q', rfl⟩ | ⟨m, k, rfl⟩
            · rw [hj] at hte
              simp only [Term.pin.injEq] at hte
              obtain ⟨rfl, rfl⟩ := hte
              exact hval _ (h.pin _ ht _ _ _ _ rfl).2 rfl
            · rw [hj] at hte; cases hte
    · cases hs; exact h
  · rename_i m k hm hk
    split at hs
    · rename_i hc
      cases hs
      rw [Bool.and_eq_true, Bool.and_eq_true] at hc
      have h1 : ∀ t ∈ st.pins, t.1.show ≠ m := by
        intro t ht he
        have := hc.1.2
        rw [Bool.not_eq_true', List.any_eq_false] at this
        exact this t ht (by simpa using he)
      have h2 : ∀ t ∈ st.pins, t.2.show ≠ k := by
        intro t ht he
        have := hc.2
        rw [Bool.not_eq_true', List.any_eq_false] at this
        exact this t ht (by simpa using he)
      refine ⟨?_, ?_, ?_, ?_⟩
      · intro t ht i' p' j' q' hp'
        rcases List.mem_append.1 ht with ht | ht
        · obtain ⟨g1, g2⟩ := h.pin t ht i' p' j' q' hp'
          exact ⟨g1, put_other g2 fun hk' => absurd hk' (hport m k hm hk t ht i' p' j' q' hp')⟩
        · simp only [List.mem_singleton] at ht
          rw [ht] at hp'
          simp at hp'
      · intro t ht
        rcases List.mem_append.1 ht with ht | ht
        · exact h.kind t ht
        · simp only [List.mem_singleton] at ht
          exact .inr ⟨m, k, ht⟩
      · rw [List.map_append]
        refine List.Nodup.append h.fst (by simp) ?_
        intro x hx hx'
        simp at hx'
        subst hx'
        obtain ⟨t, ht, hte⟩ := List.mem_map.1 hx
        exact h1 t ht (by rw [hte]; rfl)
      · rw [List.map_append]
        refine List.Nodup.append h.snd (by simp) ?_
        intro x hx hx'
        simp at hx'
        subst hx'
        obtain ⟨t, ht, hte⟩ := List.mem_map.1 hx
        exact h2 t ht (by rw [hte]; rfl)
    · cases hs; exact h
  · cases hs; exact h

/-! ## What has been written -/

/-- Names of instances are different, and different from those of ports. -/
def Names (s : Sub) : Prop := (s.elems.map Inst.name).Nodup ∧ ∀ e ∈ s.elems, e.name ∉ s.ports

theorem getEl_of_mem {l : List Inst} (hn : (l.map Inst.name).Nodup) {e : Inst} (he : e ∈ l) : getEl l e.name = some e := by
  cases h : getEl l e.name with
  | none => exact absurd rfl (getEl_none h e he)
  | some d =>
    have := getEl_some h
    rw [List.inj_on_of_nodup_map hn this.1 he this.2]

theorem isInst_of_mem {l : List Inst} {e : Inst} (he : e ∈ l) : isInst l e.name = true := by
  simp only [isInst, getEl, List.find?_isSome]
  exact ⟨e, he, by simp⟩

/-- Where the entries of the list come from. -/
def From (E : Env) (w : List Entry) (cons : List Con) (t : Entry) : Prop :=
  t ∈ w ∨ (∃ b pr, (Con.blocks b ∈ cons ∨ E.old (.blocks b) = true) ∧ pr ∈ b ∧ t = entryOf pr) ∨
    ∃ x y, t = .set x y ∧ isInst E.sub.elems x = false

theorem From.mono {E : Env} {w : List Entry} {cons cons' : List Con} {t : Entry} (hc : ∀ c ∈ cons, c ∈ cons') (h : From E w cons t) :
    From E w cons' t := by
  rcases h with h | ⟨b, pr, hb, h⟩ | h
  · exact .inl h
  · exact .inr (.inl ⟨b, pr, hb.imp (hc _) id, h⟩)
  · exact .inr (.inr h)

theorem SymPair.mono {E : Env} {w : List Entry} {cons cons' : List Con} {i j : String} (hc : ∀ c ∈ cons, c ∈ cons')
    (h : SymPair E w cons i j) : SymPair E w cons' i j := by
  rcases h with h | h | ⟨b, hb, h⟩
  · exact .inl h
  · exact .inr (.inl h)
  · exact .inr (.inr ⟨b, hb.imp (hc _) id, h⟩)

theorem Pins.mono {E : Env} {w : List Entry} {cons cons' : List Con} {a b : String} {ts : List (Term × Term)}
    (hc : ∀ c ∈ cons, c ∈ cons') (h : Pins E w cons a b ts) : Pins E w cons' a b ts :=
  ⟨h.on, h.corr, fun t ht i p j q e => let ⟨h1, h2⟩ := h.sym t ht i p j q e; ⟨h1.mono hc, h2⟩, h.two⟩

theorem entryOf_set {pr : List String} {x y : String} (h : entryOf pr = .set x y) : pr = [x, y] ∨ (x = y ∧ pr = [x]) := by
  match pr, h with
  | [a], h => simp only [entryOf, Entry.set.injEq] at h; exact .inr ⟨h.1 ▸ h.2, by rw [h.1]⟩
  | [a, b], h => simp only [entryOf, Entry.set.injEq] at h; exact .inl (by rw [h.1, h.2])
  | [], h => simp [entryOf] at h
  | _ :: _ :: _ :: _, h => simp [entryOf] at h

theorem symPair_of {E : Env} {w : List Entry} {cons : List Con} {written : List Entry} (hf : ∀ t ∈ written, From E w cons t) {i j : String}
    (hi : isInst E.sub.elems i = true) (hj : isInst E.sub.elems j = true) (h : hasSet written i j = true) : SymPair E w cons i j := by
  have key : ∀ x y, isInst E.sub.elems x = true → Entry.set x y ∈ written → SymPair E w cons x y := by
    intro x y hx hm
    rcases hf _ hm with h | ⟨b, pr, hb, hpr, he⟩ | ⟨a, c, he, ha⟩
    · exact .inl h
    · refine .inr (.inr ⟨b, hb, ?_⟩)
      rcases entryOf_set he.symm with rfl | ⟨rfl, rfl⟩
      · exact .inl hpr
      · exact .inr (.inr ⟨rfl, hpr⟩)
    · simp only [Entry.set.injEq] at he
      rw [← he.1, hx] at ha
      cases ha
  rcases hasSet_iff.1 h with h | h
  · exact key i j hi h
  · rcases key j i hj h with h | h | ⟨b, hb, h | h | ⟨rfl, h'⟩⟩
    · exact .inr (.inl h)
    · exact .inl h
    · exact .inr (.inr ⟨b, hb, .inr (.inl h)⟩)
    · exact .inr (.inr ⟨b, hb, .inl h⟩)
    · exact .inr (.inr ⟨b, hb, .inr (.inr ⟨rfl, h'⟩)⟩)

theorem mem_strip {l : List String} {r : String} (hr : r ≠ "B") : r ∈ (asSet l).filter (fun x => decide (x ≠ "B")) ↔ r ∈ l := by
  rw [List.mem_filter, mem_asSet]
  simp [hr]

theorem corr_of {E : Env} (hord : ∀ l : List String, (E.ord l).Perm l) (hl : Levels E.lib E.sub) (hn : Names E.sub) {a b : String}
    {t : Term × Term} (hsrc : ∃ la lb, (t.1, la) ∈ connection E a ∧ (t.2, lb) ∈ connection E b ∧ sameSet la lb = true)
    (hkind : (∃ i p j q, t = (.pin i p, .pin j q)) ∨ ∃ m k, t = (.port m, .port k))
    (hmod : ∀ i p j q, t = (.pin i p, .pin j q) → (getEl E.sub.elems i).map Inst.model = (getEl E.sub.elems j).map Inst.model) :
    Corr E a b t.1 t.2 := by
  obtain ⟨la, lb, ha, hb, hs⟩ := hsrc
  rw [sameSet_iff] at hs
  rcases hkind with ⟨i, p, j, q, rfl⟩ | ⟨m, k, rfl⟩
  · have hm := hmod i p j q rfl
    rcases mem_connection hord ha with ⟨e, he, p', hpe, -, hc⟩ | ⟨hc, -⟩
    swap
    · cases hc
    rcases mem_connection hord hb with ⟨d, hd, q', hqd, -, hc'⟩ | ⟨hc', -⟩
    swap
    · cases hc'
    simp only [Term.pin.injEq] at hpe hqd
    obtain ⟨rfl, rfl⟩ := hpe
    obtain ⟨rfl, rfl⟩ := hqd
    rw [getEl_of_mem hn.1 he, getEl_of_mem hn.1 hd] at hm
    have hm : e.model = d.model := by simpa using hm
    refine ⟨e, he, d, hd, rfl, rfl, hm, fun hnone => ?_, fun c hsome => ?_⟩
    · rcases hc with ⟨-, hB, rfl⟩ | ⟨c, hc, -⟩
      swap
      · rw [hc] at hnone; cases hnone
      rcases hc' with ⟨-, -, rfl⟩ | ⟨c, hc', -⟩
      · exact ⟨by simpa using (hs p).1 (by simp), hB⟩
      · rw [← hm, hnone] at hc'; cases hc'
    · have hcl := levels_child hl (find_mem hsome)
      rcases hc with ⟨hc, -⟩ | ⟨c', hc, hla, hne⟩
      · rw [hc] at hsome; cases hsome
      obtain rfl : c = c' := by rw [hc] at hsome; exact (Option.some.inj hsome).symm
      rcases hc' with ⟨hc', -⟩ | ⟨c', hc', hlb, -⟩
      · rw [← hm, hsome] at hc'; cases hc'
      obtain rfl : c = c' := by rw [← hm, hsome] at hc'; exact Option.some.inj hc'
      refine ⟨?_, fun r hr => ?_⟩
      · obtain ⟨r, hr⟩ := List.exists_mem_of_ne_nil _ hne
        have hr' := hr
        rw [hla, List.mem_filter] at hr'
        have hrB : r ≠ "B" := by simpa using hr'.2
        exact ⟨r, hrB, (leaf_iff hcl p r).1 (mem_asSet.1 hr'.1)⟩
      · have := hs r
        rw [hla, hlb, mem_strip hr, mem_strip hr, leaf_iff hcl, leaf_iff hcl] at this
        exact this
  · rcases mem_connection hord ha with ⟨e, he, p', hpe, -⟩ | ⟨hm, -, hla⟩
    · cases hpe
    rcases mem_connection hord hb with ⟨e, he, p', hpe, -⟩ | ⟨hk, -, hlb⟩
    · cases hpe
    intro r hr
    have := hs r
    rw [hla, hlb, mem_strip hr, mem_strip hr, leaf_iff hl, leaf_iff hl] at this
    exact this

theorem onNet_of {E : Env} (hord : ∀ l : List String, (E.ord l).Perm l) {n : String} {t : Term} {lc : List String}
    (h : (t, lc) ∈ connection E n) : OnNet E.sub n t := by
  rcases mem_connection hord h with ⟨e, he, p, rfl, hp, -⟩ | ⟨rfl, hp, -⟩
  · exact ⟨e, he, rfl, hp⟩
  · exact ⟨rfl, hp⟩

theorem pins_of {E : Env} (hord : ∀ l : List String, (E.ord l).Perm l) (hl : Levels E.lib E.sub) (hn : Names E.sub) {w written : List Entry}
    {cons : List Con} (hf : ∀ t ∈ written, From E w cons t) {a b : String} {r : Match} (h : MInv E written w a b r) (h1 : 1 < r.pairs.length) :
    Pins E w cons a b r.pins := by
  refine ⟨fun t ht => ?_, fun t ht => corr_of hord hl hn (h.src t ht) (h.kind t ht)
    (fun i p j q he => (h.pin t ht i p j q he).2.2.2), fun t ht i p j q he => ?_, ?_⟩
  · obtain ⟨la, lb, ha, hb, -⟩ := h.src t ht
    exact ⟨onNet_of hord ha, onNet_of hord hb⟩
  · obtain ⟨g1, g2, g3, -⟩ := h.pin t ht i p j q he
    obtain ⟨la, lb, ha, hb, -⟩ := h.src t ht
    have ha := onNet_of hord ha
    have hb := onNet_of hord hb
    rw [he] at ha hb
    obtain ⟨e, hee, rfl, -⟩ := ha
    obtain ⟨d, hdd, rfl, -⟩ := hb
    refine ⟨symPair_of hf (isInst_of_mem hee) (isInst_of_mem hdd) g1, ?_, ?_⟩
    · simpa [hasName] using g2
    · simpa [hasName] using g3
  · have hk := h.keys
    have ho := h.owner
    match hp : r.pairs, h1 with
    | x :: y :: l, _ =>
      rw [hp] at hk ho
      simp only [List.map_cons, List.nodup_cons, List.mem_cons, not_or] at hk
      obtain ⟨t, ht, htx⟩ := ho x.1 (by simp)
      obtain ⟨u, hu, huy⟩ := ho y.1 (by simp)
      exact ⟨t, ht, u, hu, by rw [htx, huy]; exact hk.1.1⟩

/-- What holds between the rounds: the first part of the property. -/
structure NInv (E : Env) (w : List Entry) (st : St) : Prop where
  from_ : ∀ t ∈ st.written, From E w st.cons t
  nets : ∀ a b pa pb, .nets a b pa pb ∈ st.cons → a ≠ b ∧ ∃ ts, pa = ts.map (fun t => t.1.show) ∧ pb = ts.map (fun t => t.2.show) ∧
    Pins E w st.cons a b ts

theorem mem_append_con {E : Env} {cons : List Con} {c : Con} : (∀ x ∈ cons, x ∈ append E cons c) ∧ (∀ x ∈ append E cons c, x ∈ cons ∨ x = c) ∧
    (c ∈ append E cons c ∨ E.old c = true) := by
  unfold append
  split
  · rename_i h
    refine ⟨fun x hx => hx, fun x hx => .inl hx, ?_⟩
    simp only [Bool.or_eq_true, List.contains_eq_mem, decide_eq_true_eq] at h
    exact h.symm
  · exact ⟨fun x hx => List.mem_append_left _ hx, fun x hx => by simpa using hx, .inl (by simp)⟩

theorem addBlocks_ninv {E : Env} {w : List Entry} {st : St} {b : List (List String)} (h : NInv E w st) : NInv E w (addBlocks E st b) := by
  rcases addBlocks_cases E st b with he | ⟨-, -, he⟩
  · rw [he]; exact h
  · rw [he]
    obtain ⟨m1, m2, m3⟩ := mem_append_con (E := E) (cons := st.cons) (c := .blocks b)
    refine ⟨fun t ht => ?_, fun x y pa pb hx => ?_⟩
    · rcases List.mem_append.1 ht with ht | ht
      · exact (h.from_ t ht).mono m1
      · obtain ⟨pr, hpr, rfl⟩ := List.mem_map.1 ht
        exact .inr (.inl ⟨b, pr, m3, hpr, rfl⟩)
    · rcases m2 _ hx with hx | hx
      · obtain ⟨g1, ts, g2, g3, g4⟩ := h.nets x y pa pb hx
        exact ⟨g1, ts, g2, g3, g4.mono m1⟩
      · cases hx

theorem netStep_cases {E : Env} {skip : List Entry} {st st' : St} {kv : String × String} (h : netStep E skip st kv = some st') :
    st' = st ∨ ∃ r, preFilter E st.written kv.1 kv.2 = some false ∧ isInst E.sub.elems kv.1 = false ∧ kv.1 ≠ kv.2 ∧
      devicePairs E st.written (some skip) false kv.1 kv.2 = some (some r) ∧
      st' = ⟨append E st.cons (.nets kv.1 kv.2 (r.pins.map fun t => t.1.show) (r.pins.map fun t => t.2.show)),
        st.written ++ [.set kv.1 kv.2]⟩ := by
  unfold netStep at h
  rw [Option.bind_eq_some_iff] at h
  obtain ⟨sk, hsk, h⟩ := h
  split at h
  · cases h; exact .inl rfl
  · rename_i hc
    simp only [Bool.or_eq_true, decide_eq_true_eq, not_or, Bool.not_eq_true] at hc
    obtain ⟨⟨rfl, hc1⟩, hc2⟩ := hc
    rw [Option.map_eq_some_iff] at h
    obtain ⟨r, hr, h⟩ := h
    split at h
    · exact .inl h.symm
    · rename_i r'
      exact .inr ⟨r', hsk, hc1, hc2, hr, h.symm⟩

theorem netStep_ninv {E : Env} (hord : ∀ l : List String, (E.ord l).Perm l) (hl : Levels E.lib E.sub) (hn : Names E.sub) {w : List Entry}
    {st st' : St} {kv : String × String} (h : NInv E w st) (hs : netStep E w st kv = some st') : NInv E w st' := by
  rcases netStep_cases hs with rfl | ⟨r, -, hi, hne, hr, rfl⟩
  · exact h
  · obtain ⟨m1, m2, -⟩ := mem_append_con (E := E) (cons := st.cons)
      (c := .nets kv.1 kv.2 (r.pins.map fun t => t.1.show) (r.pins.map fun t => t.2.show))
    obtain ⟨-, hm, h1⟩ := devicePairs_spec hr
    refine ⟨fun t ht => ?_, fun x y pa pb hx => ?_⟩
    · rcases List.mem_append.1 ht with ht | ht
      · exact (h.from_ t ht).mono m1
      · exact .inr (.inr ⟨kv.1, kv.2, by simpa using ht, hi⟩)
    · rcases m2 _ hx with hx | hx
      · obtain ⟨g1, ts, g2, g3, g4⟩ := h.nets x y pa pb hx
        exact ⟨g1, ts, g2, g3, g4.mono m1⟩
      · simp only [Con.nets.injEq] at hx
        obtain ⟨rfl, rfl, rfl, rfl⟩ := hx
        exact ⟨hne, r.pins, rfl, rfl, (pins_of hord hl hn h.from_ hm h1).mono m1⟩

/-- An invariant of both kinds of steps is one of the generation. -/
theorem loops {E : Env} {w : List Entry} {P : List (List String) → St → Prop}
    (hadd : ∀ b st, P b st → P b (addBlocks E st b))
    (hnet : ∀ b st kv st', P b st → netStep E w st kv = some st' → P b st')
    (hfil : ∀ b st p b', P b st → filterBlocks E st.written (items p) = some b' → P b' st)
    (h0 : P [] ⟨[], w⟩) {found : List (List (String × String))} {st : St} (h : generate E w found = some st) : ∃ b, P b st := by
  have first : ∀ (ps : List (List (String × String))) st b r, P b st → firstLoop E st b ps = some r → P r.2 r.1 := by
    intro ps
    induction ps with
    | nil => intro st b r h hr; cases hr; exact h
    | cons p ps ih =>
      intro st b r h hr
      rw [firstLoop, Option.bind_eq_some_iff] at hr
      obtain ⟨b', hb', hr⟩ := hr
      exact ih _ _ r (hadd b' st (hfil b st p b' h hb')) hr
  have second : ∀ (ps : List (List (String × String))) b st st', P b st → secondLoop E w b st ps = some st' → P b st' := by
    intro ps
    induction ps with
    | nil => intro b st st' h hr; cases hr; exact h
    | cons p ps ih =>
      intro b st st' h hr
      rw [secondLoop, Option.bind_eq_some_iff] at hr
      obtain ⟨s1, h1, hr⟩ := hr
      exact ih b _ st' (hadd b s1 (foldlM_inv (P := P b) (fun s kv _ s' hs hk => hnet b s kv s' hs hk) h h1)) hr
  unfold generate at h
  rw [Option.bind_eq_some_iff] at h
  obtain ⟨r, hr, h⟩ := h
  exact ⟨r.2, second _ r.2 r.1 st (first _ _ _ r h0 hr) h⟩

/-- C72 without the part that no terminal is listed twice. -/
theorem C72_pins_partial (E : Env) (w : List Entry) (found : List (List (String × String))) (st : St) (h : generate E w found = some st)
    (hord : ∀ l : List String, (E.ord l).Perm l) (hl : Levels E.lib E.sub) (hn : Names E.sub) :
    ∀ a b pa pb, .nets a b pa pb ∈ st.cons → a ≠ b ∧ ∃ ts, pa = ts.map (fun t => t.1.show) ∧ pb = ts.map (fun t => t.2.show) ∧
      Pins E w st.cons a b ts := by
  obtain ⟨-, hi⟩ := loops (P := fun _ st => NInv E w st) (fun b st h => addBlocks_ninv h) (fun b st kv st' h hs => netStep_ninv hord hl hn h hs)
    (fun b st p b' h _ => h) ⟨fun t ht => .inl ht, by simp⟩ h
  exact hi.nets

/-! ## Every terminal once -/

theorem disjoint_congr {w w' : List Entry} (h : ∀ t ∈ w', t ∈ w) (hw : Disjoint w) : Disjoint w' :=
  fun x y x' y' h1 h2 => hw x y x' y' (h _ h1) (h _ h2)

theorem disjoint_add {w l : List Entry} (hw : Disjoint w) (hl : Disjoint l) (hd : ∀ t ∈ l, ∀ x ∈ t.names, ∀ u ∈ w, x ∉ u.names) :
    Disjoint (w ++ l) := by
  intro x y x' y' h1 h2 h3
  rcases List.mem_append.1 h1 with h1 | h1 <;> rcases List.mem_append.1 h2 with h2 | h2
  · exact hw x y x' y' h1 h2 h3
  · have a1 := hd _ h2 x' (by simp [Entry.names]) _ h1
    have a2 := hd _ h2 y' (by simp [Entry.names]) _ h1
    simp only [Entry.names, List.mem_cons, List.not_mem_nil, or_false, not_or] at a1 a2
    grind
  · have a1 := hd _ h1 x (by simp [Entry.names]) _ h2
    have a2 := hd _ h1 y (by simp [Entry.names]) _ h2
    simp only [Entry.names, List.mem_cons, List.not_mem_nil, or_false, not_or] at a1 a2
    grind
  · exact hl x y x' y' h1 h2 h3

/-- In a list of lists without repetition, two lists that share a name are the same. -/
theorem eq_of_shared {b : List (List String)} (h : b.flatten.Nodup) {p q : List String} (hp : p ∈ b) (hq : q ∈ b) {x : String} (hxp : x ∈ p)
    (hxq : x ∈ q) : p = q := by
  induction b with
  | nil => cases hp
  | cons r b ih =>
    rw [List.flatten_cons, List.nodup_append] at h
    obtain ⟨-, h2, h3⟩ := h
    rcases List.mem_cons.1 hp with hp' | hp' <;> rcases List.mem_cons.1 hq with hq' | hq'
    · rw [hp', hq']
    · exact absurd rfl (h3 x (hp' ▸ hxp) x (List.mem_flatten.2 ⟨q, hq', hxq⟩))
    · exact absurd rfl (h3 x (hq' ▸ hxq) x (List.mem_flatten.2 ⟨p, hp', hxp⟩))
    · exact ih h2 hp' hq'

theorem entryOf_names {pr : List String} {x y : String} (h : entryOf pr = .set x y) {z : String} : z ∈ pr ↔ z = x ∨ z = y := by
  rcases entryOf_set h with rfl | ⟨rfl, rfl⟩ <;> simp

theorem disjoint_entries {b : List (List String)} (h : b.flatten.Nodup) : Disjoint (b.map entryOf) := by
  intro x y x' y' h1 h2 h3
  obtain ⟨p, hp, he⟩ := List.mem_map.1 h1
  obtain ⟨q, hq, he'⟩ := List.mem_map.1 h2
  have key : ∀ z, (z = x ∨ z = y) → (z = x' ∨ z = y') → p = q := fun z hz hz' =>
    eq_of_shared h hp hq ((entryOf_names he).2 hz) ((entryOf_names he').2 hz')
  have hpq : p = q := by
    rcases h3 with h3 | h3 | h3 | h3
    · exact key x (.inl rfl) (.inl h3)
    · exact key x (.inl rfl) (.inr h3)
    · exact key y (.inr rfl) (.inl h3)
    · exact key y (.inr rfl) (.inr h3)
  subst hpq
  rw [he] at he'
  simp only [Entry.set.injEq] at he'
  exact .inl he'

/-- What holds between the rounds: the second part of the property. -/
structure DInv (E : Env) (w : List Entry) (b : List (List String)) (st : St) : Prop where
  ninv : NInv E w st
  dis : Disjoint st.written
  nodup : b.flatten.Nodup
  shape : ∀ pr ∈ b, (∃ x y, pr = [x, y]) ∨ ∃ x, pr = [x]
  stale : (∀ pr ∈ b, entryOf pr ∈ st.written) ∨ ∀ x ∈ b.flatten, isInst E.sub.elems x = true → ∀ e ∈ st.written, x ∉ e.names
  nets : C72_statement E w st.cons

theorem nets_mono {E : Env} {w : List Entry} {cons cons' : List Con} (hc : ∀ c ∈ cons, c ∈ cons') (h : C72_statement E w cons)
    {a b : String} {pa pb : List String} (hn : .nets a b pa pb ∈ cons) :
    a ≠ b ∧ ∃ ts, pa = ts.map (fun t => t.1.show) ∧ pb = ts.map (fun t => t.2.show) ∧
      Pins E w cons' a b ts ∧ (ts.map Prod.fst).Nodup ∧ (ts.map Prod.snd).Nodup := by
  obtain ⟨g1, ts, g2, g3, g4, g5⟩ := h a b pa pb hn
  exact ⟨g1, ts, g2, g3, g4.mono hc, g5⟩

theorem addBlocks_dinv {E : Env} {w : List Entry} {st : St} {b : List (List String)} (h : DInv E w b st) : DInv E w b (addBlocks E st b) := by
  have hni := addBlocks_ninv (b := b) h.ninv
  rcases addBlocks_cases E st b with he | ⟨-, hv, he⟩
  · rw [he]; exact h
  · rw [he] at hni ⊢
    obtain ⟨m1, m2, -⟩ := mem_append_con (E := E) (cons := st.cons) (c := .blocks b)
    refine ⟨hni, ?_, h.nodup, h.shape, .inl fun pr hpr => List.mem_append_right _ (List.mem_map_of_mem hpr), fun x y pa pb hx => ?_⟩
    · rcases h.stale with hs | hs
      · refine disjoint_congr (fun t ht => ?_) h.dis
        rcases List.mem_append.1 ht with ht | ht
        · exact ht
        · obtain ⟨pr, hpr, rfl⟩ := List.mem_map.1 ht
          exact hs pr hpr
      · refine disjoint_add h.dis (disjoint_entries h.nodup) fun t ht x hx u hu => ?_
        obtain ⟨pr, hpr, rfl⟩ := List.mem_map.1 ht
        have hxp : x ∈ pr := by
          rcases h.shape pr hpr with ⟨y, z, rfl⟩ | ⟨y, rfl⟩ <;> simpa [entryOf, Entry.names] using hx
        obtain ⟨e, hee, rfl⟩ := valid_there hv pr hpr x hxp
        exact hs _ (List.mem_flatten.2 ⟨pr, hpr, hxp⟩) (isInst_of_mem hee) u hu
    · rcases m2 _ hx with hx | hx
      · exact nets_mono m1 h.nets hx
      · cases hx

theorem preFilter_nets {E : Env} {w : List Entry} {k v : String} (h : preFilter E w k v = some false) (hk : isInst E.sub.elems k = false) :
    isInst E.sub.elems v = false := by
  unfold preFilter at h
  split at h
  · cases h
  split at h
  · cases h
  split at h
  · cases h
  rename_i hnode
  split at h
  · split at h
    · rename_i hc
      simp only [Bool.and_eq_true, Bool.not_eq_true'] at hc
      exact hc.1.2
    · cases h
  · rename_i hnet
    simp [isNode, hk] at hnode
    exact absurd hnode hnet

theorem devicePairs_once {E : Env} (hord : ∀ l : List String, (E.ord l).Perm l) (hn : Names E.sub) {w skip : List Entry} (hw : Disjoint w)
    {a b : String} {r : Match} (h : devicePairs E w (some skip) false a b = some (some r)) : OInv w r := by
  obtain ⟨hr, -, -⟩ := devicePairs_spec h
  have := foldlM_inv (P := fun r => MInv E w skip a b r ∧ OInv w r) (fun st ab hab st' hst hs => ?_)
    ⟨⟨by simp, by simp, by simp, by simp, by simp⟩, ⟨by simp, by simp, by simp, by simp⟩⟩ hr
  · exact this.2
  · simp only [List.mem_flatMap, List.mem_map] at hab
    obtain ⟨x, hx, y, hy, rfl⟩ := hab
    refine ⟨matchStep_inv hx hy hst.1 hs, matchStep_once hw (fun m k hm hk t ht i p j q he him => ?_) hst.2 hs⟩
    obtain ⟨la, lb, ha, -, -⟩ := hst.1.src t ht
    have h1 := onNet_of hord ha
    rw [he] at h1
    obtain ⟨e, hee, hei, -⟩ := h1
    have h2 := onNet_of hord (n := a) (t := x.1) (lc := x.2) hx
    dsimp only at hm
    rw [hm] at h2
    obtain ⟨rfl, h2⟩ := h2
    exact hn.2 e hee (by rw [hei, him]; exact h2)

theorem netStep_dinv {E : Env} (hord : ∀ l : List String, (E.ord l).Perm l) (hl : Levels E.lib E.sub) (hn : Names E.sub) {w : List Entry}
    {b : List (List String)} {st st' : St} {kv : String × String} (h : DInv E w b st) (hs : netStep E w st kv = some st') : DInv E w b st' := by
  have hni := netStep_ninv hord hl hn h.ninv hs
  rcases netStep_cases hs with rfl | ⟨r, hpf, hi, hne, hr, rfl⟩
  · exact h
  · obtain ⟨m1, m2, -⟩ := mem_append_con (E := E) (cons := st.cons)
      (c := .nets kv.1 kv.2 (r.pins.map fun t => t.1.show) (r.pins.map fun t => t.2.show))
    have hi2 := preFilter_nets hpf hi
    have hfree := preFilter_free hpf
    refine ⟨hni, disjoint_add h.dis ?_ ?_, h.nodup, h.shape, ?_, fun x y pa pb hx => ?_⟩
    · intro x y x' y' h1 h2 _
      simp only [List.mem_singleton, Entry.set.injEq] at h1 h2
      exact .inl ⟨h1.1.trans h2.1.symm, h1.2.trans h2.2.symm⟩
    · intro t ht x hx u hu
      simp only [List.mem_singleton] at ht
      subst ht
      simp only [Entry.names, List.mem_cons, List.not_mem_nil, or_false] at hx
      rcases hx with rfl | rfl
      · exact (hfree u hu).1
      · exact (hfree u hu).2
    · rcases h.stale with hs | hs
      · exact .inl fun pr hpr => List.mem_append_left _ (hs pr hpr)
      · refine .inr fun x hx hxi e he => ?_
        rcases List.mem_append.1 he with he | he
        · exact hs x hx hxi e he
        · simp only [List.mem_singleton] at he
          subst he
          simp only [Entry.names, List.mem_cons, List.not_mem_nil, or_false, not_or]
          refine ⟨fun hc => ?_, fun hc => ?_⟩
          · rw [hc, hi] at hxi; cases hxi
          · rw [hc, hi2] at hxi; cases hxi
    · rcases m2 _ hx with hx | hx
      · exact nets_mono m1 h.nets hx
      · simp only [Con.nets.injEq] at hx
        obtain ⟨rfl, rfl, rfl, rfl⟩ := hx
        have := devicePairs_once hord hn h.dis hr
        obtain ⟨-, hm, h1⟩ := devicePairs_spec hr
        exact ⟨hne, r.pins, rfl, rfl, (pins_of hord hl hn h.ninv.from_ hm h1).mono m1, this.fst, this.snd⟩

/-- The second part of C72 is lost when the user gives an instance two partners (see `C72_violated_twice`); otherwise all of it
holds. -/
theorem C72_once_partial (E : Env) (w : List Entry) (found : List (List (String × String))) (st : St) (h : generate E w found = some st)
    (hord : ∀ l : List String, (E.ord l).Perm l) (hl : Levels E.lib E.sub) (hn : Names E.sub) (hw : Disjoint w) :
    C72_statement E w st.cons := by
  obtain ⟨b, hi⟩ := loops (P := DInv E w) (fun b st h => addBlocks_dinv h) (fun b st kv st' h hs => netStep_dinv hord hl hn h hs)
    (fun b st p b' h hb => by
      have hf := filterBlocks_filt hb
      refine ⟨h.ninv, h.dis, hf.nodup, fun pr hpr => ?_, .inr fun x hx _ e he => hf.free x hx e he, h.nets⟩
      rcases hf.shape pr hpr with ⟨x, y, rfl, -⟩ | ⟨x, rfl, -⟩
      · exact .inl ⟨x, y, rfl⟩
      · exact .inr ⟨x, rfl⟩)
    ⟨⟨fun t ht => .inl ht, by simp⟩, hw, by simp, by simp, .inl (by simp), by simp [C72_statement]⟩ h
  exact hi.nets

/-! ## Examples -/

theorem exE_levels : Levels exE.lib exE.sub := ⟨fun _ => 0, by simp [exE], by simp [exE], by simp [exE, find]⟩

/-- The outputs of the differential stage are symmetric: the transistors, the resistors and the ports. -/
example : (generate exE [] exFound).map St.cons = some [.blocks [["M2", "M1"]], .blocks [["R1", "R2"]],
    .nets "INN" "INP" ["M2/G", "INN"] ["M1/G", "INP"],
    .nets "OUTP" "OUTN" ["M2/D", "R2/N", "OUTP"] ["M1/D", "R1/N", "OUTN"]] := by decide +kernel

/-- The hypotheses are met by the differential stage. -/
example : Levels exE.lib exE.sub ∧ Names exE.sub ∧ Disjoint ([] : List Entry) :=
  ⟨exE_levels, by unfold Names; decide +kernel, by simp [Disjoint]⟩

/-- A subcircuit in which the user has given `A` two partners. -/
def twS : Sub where
  name := "TW"
  ports := []
  elems := [⟨"A", "NMOS", [("D", "P"), ("G", "X1"), ("S", "Y"), ("B", "Y")], []⟩, ⟨"A2", "NMOS", [("D", "X2"), ("G", "P"), ("S", "Y"), ("B", "Y")], []⟩,
    ⟨"C", "RES", [("PLUS", "P"), ("MINUS", "Z")], []⟩, ⟨"D", "RES", [("PLUS", "N"), ("MINUS", "Z")], []⟩,
    ⟨"B1", "NMOS", [("D", "N"), ("G", "X3"), ("S", "Y"), ("B", "Y")], []⟩, ⟨"B2", "NMOS", [("D", "N"), ("G", "X4"), ("S", "Y"), ("B", "Y")], []⟩]

def twE : Env := { exE with sub := twS }

def twW : List Entry := [.set "A" "B1", .set "A" "B2", .set "C" "D"]

theorem tw_generate : (generate twE twW [[("P", "N"), ("Z", "Z")]]).map St.cons =
    some [.nets "P" "N" ["A/D", "A/D", "C/PLUS"] ["B1/D", "B2/D", "D/PLUS"]] := by decide +kernel

theorem tw_term {t : Term} (h : OnNet twS "P" t) (hs : t.show = "A/D") : t = .pin "A" "D" := by
  cases t with
  | port m => simp [OnNet, twS] at h
  | pin i p =>
    obtain ⟨e, he, rfl, hp⟩ := h
    simp only [twS, List.mem_cons, List.not_mem_nil, or_false] at he
    rcases he with rfl | rfl | rfl | rfl | rfl | rfl <;> simp at hp <;> subst hp
    · rfl
    · exact absurd hs (by decide)
    · exact absurd hs (by decide)

/-- The code violates C72: when the user gives an instance two partners, its pin is listed twice. -/
theorem C72_violated_twice : ∃ (E : Env) (w : List Entry) (found : List (List (String × String))) (st : St),
    generate E w found = some st ∧ (∀ l : List String, (E.ord l).Perm l) ∧ Levels E.lib E.sub ∧ Names E.sub ∧
      ¬ C72_statement E w st.cons := by
  obtain ⟨st, hst, hc⟩ := Option.map_eq_some_iff.1 tw_generate
  refine ⟨twE, twW, _, st, hst, fun l => List.Perm.refl l, ⟨fun _ => 0, by simp [twE, exE], by simp [twE, exE], by simp [twE, exE, find]⟩,
    by unfold Names; decide +kernel, fun h => ?_⟩
  obtain ⟨-, ts, h1, -, hp, hn, -⟩ := h "P" "N" ["A/D", "A/D", "C/PLUS"] ["B1/D", "B2/D", "D/PLUS"] (by rw [hc]; simp)
  obtain _ | ⟨t, _ | ⟨u, l⟩⟩ := ts
  · simp at h1
  · simp at h1
  · simp only [List.map_cons, List.cons.injEq] at h1
    have e1 := tw_term (hp.on t (by simp)).1 h1.1.symm
    have e2 := tw_term (hp.on u (by simp)).1 h1.2.1.symm
    simp [e1, e2] at hn

end Verif.Sym

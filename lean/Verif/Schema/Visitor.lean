import Mathlib.Tactic.ByContra

/-!
# C135-C137: visitors and transformers of the schema

`align/schema/visitor.py`: `cache` 9-47, `Visitor` 50-116, `Transformer` 119-151.

Objects are numbers of places in memory. An object has a class and values: fields of a model, items of a list, values of a dictionary (with the names or keys as part of the class).
Strings, numbers and `None` are atoms. A subclass is taken to have methods for atoms only (such as `visit_str`); `f` is what they return.
Simplifications: `x is y` of two atoms is equality of them; the constructor of a model keeps the values it is given; a cycle of objects is not a tree, so nothing is said about it.
The recursion is bounded by a number; the theorems hold for all numbers that are large enough.
-/

namespace Verif.Visitor

/-! ## The code -/

/-- A value: an atom or an object. -/
inductive Val (α : Type) where
  | atom (a : α)
  | ref (i : Nat)
  deriving DecidableEq

/-- An object. `cached` is false for plain `list` and `dict`, true for models and the lists and dictionaries of the schema (96, 134). -/
structure Obj (α : Type) where
  cls : Nat
  cached : Bool
  vals : List (Val α)

/-- The memory and `self.cache`. -/
structure St (α β : Type) where
  heap : List (Obj α)
  cache : Nat → Option β

/-- The loop over the values, with the state. -/
def mapSt {α β γ : Type} (g : St α β → Val α → γ × St α β) : List (Val α) → St α β → List γ × St α β
  | [], st => ([], st)
  | v :: vs, st =>
    let r := g st v
    let rs := mapSt g vs r.2
    (r.1 :: rs.1, rs.2)

/-- What is stored after a visit (44, 45). -/
def keep {α β : Type} (o : Obj α) (i : Nat) (r : β) (st : St α β) : St α β :=
  if o.cached then ⟨st.heap, fun j => if j = i then some r else st.cache j⟩ else st

/-- `Transformer.visit` (76-81) with `generic_visit` (134-151). -/
def transform {α : Type} [DecidableEq α] (f : α → α) : Nat → St α (Val α) → Val α → Val α × St α (Val α)
  | 0, st, v => (v, st)
  | _ + 1, st, .atom a => (.atom (f a), st)
  | n + 1, st, .ref i =>
    match st.heap[i]? with
    | none => (.ref i, st)
    | some o =>
      match (if o.cached then st.cache i else none) with
      | some r => (r, st)
      | none =>
        let rs := mapSt (transform f n) o.vals st
        if rs.1 = o.vals then (.ref i, keep o i (.ref i) rs.2)
        else
          let st' : St α (Val α) := ⟨rs.2.heap ++ [⟨o.cls, o.cached, rs.1⟩], rs.2.cache⟩
          (.ref rs.2.heap.length, keep o i (.ref rs.2.heap.length) st')

/-- `flatten` (91-98): lists are joined, `None` is left out. -/
inductive Res (γ : Type) where
  | none
  | one (x : γ)
  | many (xs : List γ)

def flatten {γ : Type} : List (Res γ) → List γ
  | [] => []
  | .none :: rs => flatten rs
  | .one x :: rs => [x] ++ flatten rs
  | .many xs :: rs => xs ++ flatten rs

/-- `Visitor.visit` with `generic_visit` (100-116). -/
def collect {α γ : Type} (f : α → Res γ) : Nat → St α (Res γ) → Val α → Res γ × St α (Res γ)
  | 0, st, _ => (.none, st)
  | _ + 1, st, .atom a => (f a, st)
  | n + 1, st, .ref i =>
    match st.heap[i]? with
    | none => (.none, st)
    | some o =>
      match (if o.cached then st.cache i else none) with
      | some r => (r, st)
      | none =>
        let rs := mapSt (collect f n) o.vals st
        let r := Res.many (flatten rs.1)
        (r, keep o i r rs.2)

/-! ## What the properties say -/

/-- The contents of a value, as a tree. -/
inductive Tree (α : Type) where
  | leaf (a : α)
  | node (cls : Nat) (ts : List (Tree α))

/-- The value has these contents. -/
inductive Sees {α : Type} (h : List (Obj α)) : Val α → Tree α → Prop where
  | atom (a : α) : Sees h (.atom a) (.leaf a)
  | ref (i : Nat) (o : Obj α) (ts : List (Tree α)) : h[i]? = some o → o.vals.length = ts.length →
      (∀ (k : Nat) (v : Val α) (t : Tree α), o.vals[k]? = some v → ts[k]? = some t → Sees h v t) → Sees h (.ref i) (.node o.cls ts)

/-- The tree with all atoms replaced. -/
def Tree.map {α : Type} (f : α → α) : Tree α → Tree α
  | .leaf a => .leaf (f a)
  | .node c ts => .node c (ts.map (Tree.map f))

/-- What the methods return for the atoms of the tree, from left to right. -/
def Tree.gather {α γ : Type} (f : α → List γ) : Tree α → List γ
  | .leaf a => f a
  | .node _ ts => ts.flatMap (Tree.gather f)

/-- Elements of a result. -/
def Res.items {γ : Type} : Res γ → List γ
  | .none => []
  | .one x => [x]
  | .many xs => xs

/-! ## Proofs -/

variable {α : Type}

theorem Sees.inj {h : List (Obj α)} {v : Val α} {t : Tree α} (h1 : Sees h v t) : ∀ {t' : Tree α}, Sees h v t' → t = t' := by
  induction h1 with
  | atom a => intro t' h2; cases h2; rfl
  | ref i o ts ho hl _ ih =>
    intro t' h2
    cases h2 with
    | ref _ o' ts' ho' hl' hk' =>
      have : o = o' := Option.some.inj (ho.symm.trans ho')
      subst this
      congr 1
      apply List.ext_getElem (hl.symm.trans hl')
      intro k k1 k2
      have hv : k < o.vals.length := by omega
      exact ih k _ _ (List.getElem?_eq_getElem hv) (List.getElem?_eq_getElem k1) (hk' k _ _ (List.getElem?_eq_getElem hv) (List.getElem?_eq_getElem k2))

theorem Sees.mono {h e : List (Obj α)} {v : Val α} {t : Tree α} (h1 : Sees h v t) : Sees (h ++ e) v t := by
  induction h1 with
  | atom a => exact .atom a
  | ref i o ts ho hl _ ih =>
    refine .ref i o ts ?_ hl ih
    rw [List.getElem?_append_left]
    · exact ho
    · by_contra hlt
      rw [List.getElem?_eq_none (by omega)] at ho
      simp at ho

theorem heap_lt {h : List (Obj α)} {i : Nat} {o : Obj α} (ho : h[i]? = some o) : i < h.length := by
  by_contra hlt
  rw [List.getElem?_eq_none (by omega)] at ho
  simp at ho

/-- Parts of contents of the original memory are found in the same place later. -/
theorem heap_ext {h e : List (Obj α)} {i : Nat} {o : Obj α} (ho : h[i]? = some o) : (h ++ e)[i]? = some o := by
  rw [List.getElem?_append_left (heap_lt ho)]
  exact ho

section Trans
variable [DecidableEq α]

/-- The state of a transformer that was started with the memory `h`. -/
structure Inv (f : α → α) (h : List (Obj α)) (st : St α (Val α)) : Prop where
  ext : ∃ e, st.heap = h ++ e
  hit : ∀ i r, st.cache i = some r → ∀ t, Sees h (.ref i) t → Sees st.heap r (t.map f) ∧ (t.map f = t → r = .ref i)

/-- A later state. -/
structure After {β : Type} (st st' : St α β) : Prop where
  heap : ∃ e, st'.heap = st.heap ++ e
  cache : ∀ i r, st.cache i = some r → st'.cache i = some r

omit [DecidableEq α] in
theorem After.rfl {β : Type} {st : St α β} : After st st := ⟨⟨[], by simp⟩, fun _ _ h => h⟩
omit [DecidableEq α] in
theorem After.trans {β : Type} {a b c : St α β} (h1 : After a b) (h2 : After b c) : After a c := by
  obtain ⟨⟨e1, h1a⟩, h1b⟩ := h1
  obtain ⟨⟨e2, h2a⟩, h2b⟩ := h2
  exact ⟨⟨e1 ++ e2, by rw [h2a, h1a, List.append_assoc]⟩, fun i r h => h2b i r (h1b i r h)⟩

/-- What one visit does. -/
structure Good (f : α → α) (h : List (Obj α)) (st : St α (Val α)) (v : Val α) (t : Tree α) (r : Val α × St α (Val α)) : Prop where
  inv : Inv f h r.2
  after : After st r.2
  sees : Sees r.2.heap r.1 (t.map f)
  same : t.map f = t → r.1 = v
  cached : ∀ i o, v = .ref i → h[i]? = some o → o.cached = true → r.2.cache i = some r.1

omit [DecidableEq α] in
theorem sees_after {β : Type} {st st' : St α β} (h : After st st') {v : Val α} {t : Tree α} (hs : Sees st.heap v t) : Sees st'.heap v t := by
  obtain ⟨⟨e, he⟩, _⟩ := h
  rw [he]
  exact hs.mono

omit [DecidableEq α] in
theorem mapSt_good {f : α → α} {h : List (Obj α)} {g : St α (Val α) → Val α → Val α × St α (Val α)} : ∀ (vs : List (Val α)) (ts : List (Tree α)) (st : St α (Val α)),
    vs.length = ts.length → Inv f h st →
    (∀ (k : Nat) (v : Val α) (t : Tree α), vs[k]? = some v → ts[k]? = some t → ∀ st, Inv f h st → Good f h st v t (g st v)) →
    Inv f h (mapSt g vs st).2 ∧ After st (mapSt g vs st).2 ∧ (mapSt g vs st).1.length = vs.length
      ∧ (∀ (k : Nat) (r : Val α) (t : Tree α), (mapSt g vs st).1[k]? = some r → ts[k]? = some t → Sees (mapSt g vs st).2.heap r (t.map f))
      ∧ (ts.map (Tree.map f) = ts → (mapSt g vs st).1 = vs)
      ∧ ∀ (k : Nat) (r : Val α) (i : Nat) (o : Obj α), (mapSt g vs st).1[k]? = some r → vs[k]? = some (.ref i) → h[i]? = some o → o.cached = true →
        (mapSt g vs st).2.cache i = some r
  | [], ts, st, hl, hi, _ => ⟨hi, After.rfl, rfl, fun k r t hk => by simp [mapSt] at hk, fun _ => rfl, fun k r i o hk => by simp [mapSt] at hk⟩
  | v :: vs, [], st, hl, hi, _ => by simp at hl
  | v :: vs, t :: ts, st, hl, hi, hg => by
    have g1 := hg 0 v t rfl rfl st hi
    obtain ⟨i1, i2, i3, i4, i5, i6⟩ := mapSt_good vs ts (g st v).2 (by simpa using hl) g1.inv fun k v' t' hv ht => hg (k + 1) v' t' (by simpa using hv) (by simpa using ht)
    refine ⟨i1, g1.after.trans i2, by simp [mapSt, i3], ?_, ?_, ?_⟩
    · intro k r t' hr ht
      cases k with
      | zero =>
        simp only [mapSt, List.getElem?_cons_zero, Option.some.injEq] at hr ht
        subst hr; subst ht
        exact sees_after i2 g1.sees
      | succ k =>
        exact i4 k r t' (by simpa [mapSt] using hr) (by simpa using ht)
    · intro hm
      simp only [List.map_cons, List.cons.injEq] at hm
      simp only [mapSt, List.cons.injEq]
      exact ⟨g1.same hm.1, i5 hm.2⟩
    · intro k r i o hr hv ho hc
      cases k with
      | zero =>
        simp only [mapSt, List.getElem?_cons_zero, Option.some.injEq] at hr hv
        subst hr
        exact i2.cache _ _ (g1.cached i o hv ho hc)
      | succ k =>
        exact i6 k r i o (by simpa [mapSt] using hr) (by simpa using hv) ho hc

omit [DecidableEq α] in
/-- Finitely many bounds have a bound. -/
theorem bound {P : Nat → Nat → Prop} : ∀ (l : Nat), (∀ k < l, ∃ N, ∀ n ≥ N, P k n) → ∃ N, ∀ k < l, ∀ n ≥ N, P k n
  | 0, _ => ⟨0, fun k hk => absurd hk (by omega)⟩
  | l + 1, h => by
    obtain ⟨N, hN⟩ := bound l fun k hk => h k (by omega)
    obtain ⟨M, hM⟩ := h l (by omega)
    refine ⟨max N M, fun k hk n hn => ?_⟩
    by_cases e : k = l
    · subst e; exact hM n (by omega)
    · exact hN k (by omega) n (by omega)

omit [DecidableEq α] in
theorem keep_inv {f : α → α} {h : List (Obj α)} {st : St α (Val α)} {o : Obj α} {i : Nat} {r : Val α} {t : Tree α} (hi : Inv f h st) (hs : Sees h (.ref i) t)
    (hr : Sees st.heap r (t.map f)) (hsame : t.map f = t → r = .ref i) : Inv f h (keep o i r st) := by
  unfold keep
  split
  · refine ⟨hi.ext, fun j r' hj t' ht' => ?_⟩
    simp only at hj
    by_cases e : j = i
    · subst e
      rw [if_pos rfl] at hj
      have : t = t' := hs.inj ht'
      subst this
      have e' := Option.some.inj hj
      subst e'
      exact ⟨hr, hsame⟩
    · rw [if_neg e] at hj
      exact hi.hit j r' hj t' ht'
  · exact hi

omit [DecidableEq α] in
theorem keep_heap {β : Type} (o : Obj α) (i : Nat) (r : β) (st : St α β) : (keep o i r st).heap = st.heap := by
  unfold keep; split <;> rfl

/-- A visit of a value that is a tree is good, if the bound is large enough. -/
theorem transform_good (f : α → α) {h : List (Obj α)} {v : Val α} {t : Tree α} (hs : Sees h v t) :
    ∃ N, ∀ n ≥ N, ∀ st, Inv f h st → Good f h st v t (transform f n st v) := by
  induction hs with
  | atom a =>
    refine ⟨1, fun n hn st hi => ?_⟩
    obtain ⟨m, rfl⟩ : ∃ m, n = m + 1 := ⟨n - 1, by omega⟩
    refine ⟨hi, After.rfl, ?_, ?_, ?_⟩
    · simp only [transform, Tree.map]
      exact .atom _
    · intro e
      simp only [Tree.map, Tree.leaf.injEq] at e
      simp only [transform, e]
    · intro i o e
      exact absurd e (by simp)
  | ref i o ts ho hl hk ih =>
    have hs : Sees h (.ref i) (.node o.cls ts) := .ref i o ts ho hl hk
    obtain ⟨N, hN⟩ := bound (P := fun k n => ∀ v t, o.vals[k]? = some v → ts[k]? = some t → ∀ st, Inv f h st → Good f h st v t (transform f n st v)) o.vals.length (by
      intro k hk'
      obtain ⟨N, hN⟩ := ih k _ _ (List.getElem?_eq_getElem hk') (List.getElem?_eq_getElem (by omega))
      refine ⟨N, fun n hn v t hv ht => ?_⟩
      have e1 : o.vals[k] = v := Option.some.inj ((List.getElem?_eq_getElem hk').symm.trans hv)
      have e2 : ts[k]'(by omega) = t := Option.some.inj ((List.getElem?_eq_getElem (by omega)).symm.trans ht)
      subst e1; subst e2
      exact hN n hn)
    refine ⟨N + 1, fun n hn st hi => ?_⟩
    obtain ⟨m, rfl⟩ : ∃ m, n = m + 1 := ⟨n - 1, by omega⟩
    obtain ⟨e, he⟩ := hi.ext
    have ho' : st.heap[i]? = some o := by rw [he]; exact heap_ext ho
    simp only [transform, ho']
    cases hc : (if o.cached then st.cache i else none) with
    | some r =>
      simp only
      have hcc : o.cached = true ∧ st.cache i = some r := by
        by_cases ho2 : o.cached = true
        · rw [if_pos ho2] at hc; exact ⟨ho2, hc⟩
        · rw [if_neg ho2] at hc; exact absurd hc (by simp)
      obtain ⟨s1, s2⟩ := hi.hit i r hcc.2 _ hs
      refine ⟨hi, After.rfl, s1, s2, fun j o' ej _ _ => ?_⟩
      simp only [Val.ref.injEq] at ej
      rw [← ej]
      exact hcc.2
    | none =>
      simp only
      have hkey := mapSt_good (g := transform f m) o.vals ts st hl hi fun k v t hv ht st' hi' => by
        have hlt : k < o.vals.length := by
          by_contra hlt
          rw [List.getElem?_eq_none (by omega)] at hv
          simp at hv
        exact hN k hlt m (by omega) v t hv ht st' hi'
      generalize hrs : mapSt (transform f m) o.vals st = rs at hkey
      obtain ⟨i1, i2, i3, i4, i5, _⟩ := hkey
      have hci : ∀ (r : Val α) (st' : St α (Val α)), ∀ j o', (Val.ref i : Val α) = .ref j → h[j]? = some o' → o'.cached = true → (keep o i r st').cache j = some r := by
        intro r st' j o' ej hj hcj
        simp only [Val.ref.injEq] at ej
        subst ej
        have : o = o' := Option.some.inj (ho.symm.trans hj)
        subst this
        unfold keep
        rw [if_pos hcj]
        simp
      have hold : ∀ (r : Val α) (st' : St α (Val α)), After st st' → After st (keep o i r st') := by
        intro r st' ha
        refine ⟨by rw [keep_heap]; exact ha.heap, fun j r' hj => ?_⟩
        unfold keep
        by_cases ho2 : o.cached = true
        · rw [if_pos ho2]
          simp only
          have : j ≠ i := fun ej => by
            subst ej
            rw [if_pos ho2, hj] at hc
            exact absurd hc (by simp)
          rw [if_neg this]
          exact ha.cache j r' hj
        · rw [if_neg ho2]
          exact ha.cache j r' hj
      have hmap : (Tree.node o.cls ts).map f = .node o.cls (ts.map (Tree.map f)) := by rw [Tree.map]
      by_cases heq : rs.1 = o.vals
      · rw [if_pos heq]
        obtain ⟨e2, he2⟩ := i1.ext
        have hsee : Sees rs.2.heap (.ref i) ((Tree.node o.cls ts).map f) := by
          rw [hmap]
          refine .ref i o _ (by rw [he2]; exact heap_ext ho) (by simpa using hl) fun k v t hv ht => ?_
          rw [List.getElem?_map] at ht
          cases htk : ts[k]? with
          | none => rw [htk] at ht; simp at ht
          | some t0 =>
            rw [htk] at ht
            have := Option.some.inj ht
            subst this
            exact i4 k v t0 (by rw [heq]; exact hv) htk
        refine ⟨keep_inv i1 hs hsee fun _ => rfl, hold _ _ i2, ?_, fun _ => rfl, hci _ _⟩
        rw [keep_heap]
        exact hsee
      · rw [if_neg heq]
        have hne : (Tree.node o.cls ts).map f ≠ .node o.cls ts := by
          rw [hmap]
          intro e'
          simp only [Tree.node.injEq, true_and] at e'
          exact heq (i5 e')
        have hsee : Sees (rs.2.heap ++ [⟨o.cls, o.cached, rs.1⟩]) (.ref rs.2.heap.length) ((Tree.node o.cls ts).map f) := by
          rw [hmap]
          refine .ref rs.2.heap.length ⟨o.cls, o.cached, rs.1⟩ _ (by simp) (by simpa [i3] using hl) fun k v t hv ht => ?_
          rw [List.getElem?_map] at ht
          cases htk : ts[k]? with
          | none => rw [htk] at ht; simp at ht
          | some t0 =>
            rw [htk] at ht
            have := Option.some.inj ht
            subst this
            exact (i4 k v t0 hv htk).mono
        have hi' : Inv f h ⟨rs.2.heap ++ [⟨o.cls, o.cached, rs.1⟩], rs.2.cache⟩ := by
          obtain ⟨e2, he2⟩ := i1.ext
          refine ⟨⟨e2 ++ [⟨o.cls, o.cached, rs.1⟩], by simp only; rw [he2, List.append_assoc]⟩, fun j r hj t ht => ?_⟩
          obtain ⟨s1, s2⟩ := i1.hit j r hj t ht
          exact ⟨s1.mono, s2⟩
        refine ⟨keep_inv hi' hs hsee fun e' => absurd e' hne, hold _ _ ⟨?_, i2.cache⟩, ?_, fun e' => absurd e' hne, hci _ _⟩
        · obtain ⟨e3, he3⟩ := i2.heap
          exact ⟨e3 ++ [⟨o.cls, o.cached, rs.1⟩], by simp only; rw [he3, List.append_assoc]⟩
        · rw [keep_heap]
          exact hsee

/-- A new transformer. -/
def fresh {β : Type} (h : List (Obj α)) : St α β := ⟨h, fun _ => none⟩

omit [DecidableEq α] in
theorem inv_fresh (f : α → α) (h : List (Obj α)) : Inv f h (fresh h) := ⟨⟨[], by simp [fresh]⟩, fun i r hr => by simp [fresh] at hr⟩

/-! ## The theorems -/

/-- C135: a transformer gives the contents with all atoms replaced, at every place; objects that were there are not changed. -/
theorem C135_transform (f : α → α) (h : List (Obj α)) {v : Val α} {t : Tree α} (hs : Sees h v t) :
    ∃ N, ∀ n ≥ N, Sees (transform f n (fresh h) v).2.heap (transform f n (fresh h) v).1 (t.map f) ∧ ∃ e, (transform f n (fresh h) v).2.heap = h ++ e := by
  obtain ⟨N, hN⟩ := transform_good f hs
  exact ⟨N, fun n hn => ⟨(hN n hn _ (inv_fresh f h)).sees, (hN n hn _ (inv_fresh f h)).inv.ext⟩⟩

/-- C135: what does not change is returned itself, not a copy, and only that. -/
theorem C135_same (f : α → α) (h : List (Obj α)) {v : Val α} {t : Tree α} (hs : Sees h v t) :
    ∃ N, ∀ n ≥ N, (t.map f = t ↔ (transform f n (fresh h) v).1 = v) := by
  obtain ⟨N, hN⟩ := transform_good f hs
  refine ⟨N, fun n hn => ⟨(hN n hn _ (inv_fresh f h)).same, fun e => ?_⟩⟩
  have h1 := (hN n hn _ (inv_fresh f h)).sees
  obtain ⟨x, hx⟩ := (hN n hn _ (inv_fresh f h)).inv.ext
  rw [e, hx] at h1
  exact h1.inj hs.mono

/-- C136: an object (a model, a list or dictionary of the schema) that occurs twice among the values of another is replaced by one object. -/
theorem C136_shared (f : α → α) (h : List (Obj α)) (vs : List (Val α)) (ts : List (Tree α)) (hl : vs.length = ts.length)
    (hs : ∀ (k : Nat) (v : Val α) (t : Tree α), vs[k]? = some v → ts[k]? = some t → Sees h v t) :
    ∃ N, ∀ n ≥ N, ∀ (j k i : Nat) (o : Obj α) (a b : Val α), vs[j]? = some (.ref i) → vs[k]? = some (.ref i) → h[i]? = some o → o.cached = true →
      (mapSt (transform f n) vs (fresh h)).1[j]? = some a → (mapSt (transform f n) vs (fresh h)).1[k]? = some b → a = b := by
  obtain ⟨N, hN⟩ := bound (P := fun k n => ∀ v t, vs[k]? = some v → ts[k]? = some t → ∀ st, Inv f h st → Good f h st v t (transform f n st v)) vs.length (by
    intro k hk'
    obtain ⟨N, hN⟩ := transform_good f (hs k _ _ (List.getElem?_eq_getElem hk') (List.getElem?_eq_getElem (by omega : k < ts.length)))
    refine ⟨N, fun n hn v t hv ht => ?_⟩
    have e1 : vs[k] = v := Option.some.inj ((List.getElem?_eq_getElem hk').symm.trans hv)
    have e2 : ts[k]'(by omega) = t := Option.some.inj ((List.getElem?_eq_getElem (by omega)).symm.trans ht)
    subst e1; subst e2
    exact hN n hn)
  refine ⟨N, fun n hn j k i o a b hj hk ho hc ha hb => ?_⟩
  obtain ⟨_, _, _, _, _, i6⟩ := mapSt_good (g := transform f n) vs ts (fresh h) hl (inv_fresh f h) fun k v t hv ht st' hi' => by
    have hlt : k < vs.length := by
      by_contra hlt
      rw [List.getElem?_eq_none (by omega)] at hv
      simp at hv
    exact hN k hlt n hn v t hv ht st' hi'
  exact Option.some.inj ((i6 j a i o ha hj ho hc).symm.trans (i6 k b i o hb hk ho hc))

end Trans

theorem flatten_items {γ : Type} : ∀ rs : List (Res γ), flatten rs = rs.flatMap Res.items
  | [] => rfl
  | .none :: rs => by rw [flatten, flatten_items rs]; simp [Res.items]
  | .one x :: rs => by rw [flatten, flatten_items rs]; simp [Res.items]
  | .many xs :: rs => by rw [flatten, flatten_items rs]; simp [Res.items]

/-- The state of a visitor. -/
structure VInv {γ : Type} (f : α → Res γ) (h : List (Obj α)) (st : St α (Res γ)) : Prop where
  heap : st.heap = h
  hit : ∀ i r, st.cache i = some r → ∀ t, Sees h (.ref i) t → r = .many (t.gather fun a => (f a).items)

theorem mapSt_collect {γ : Type} {f : α → Res γ} {h : List (Obj α)} {g : St α (Res γ) → Val α → Res γ × St α (Res γ)} : ∀ (vs : List (Val α)) (ts : List (Tree α)) (st : St α (Res γ)),
    vs.length = ts.length → VInv f h st →
    (∀ (k : Nat) (v : Val α) (t : Tree α), vs[k]? = some v → ts[k]? = some t → ∀ st, VInv f h st → VInv f h (g st v).2 ∧ (g st v).1.items = t.gather fun a => (f a).items) →
    VInv f h (mapSt g vs st).2 ∧ (mapSt g vs st).1.flatMap Res.items = ts.flatMap (Tree.gather fun a => (f a).items)
  | [], [], st, _, hi, _ => ⟨hi, rfl⟩
  | [], _ :: _, st, hl, _, _ => by simp at hl
  | _ :: _, [], st, hl, _, _ => by simp at hl
  | v :: vs, t :: ts, st, hl, hi, hg => by
    obtain ⟨g1, g2⟩ := hg 0 v t rfl rfl st hi
    obtain ⟨i1, i2⟩ := mapSt_collect vs ts (g st v).2 (by simpa using hl) g1 fun k v' t' hv ht => hg (k + 1) v' t' (by simpa using hv) (by simpa using ht)
    refine ⟨i1, ?_⟩
    simp only [mapSt, List.flatMap_cons, g2, i2]

theorem collect_good {γ : Type} (f : α → Res γ) {h : List (Obj α)} {v : Val α} {t : Tree α} (hs : Sees h v t) :
    ∃ N, ∀ n ≥ N, ∀ st, VInv f h st → VInv f h (collect f n st v).2 ∧ (collect f n st v).1.items = t.gather fun a => (f a).items := by
  induction hs with
  | atom a =>
    refine ⟨1, fun n hn st hi => ?_⟩
    obtain ⟨m, rfl⟩ : ∃ m, n = m + 1 := ⟨n - 1, by omega⟩
    simp only [collect, Tree.gather]
    exact ⟨hi, trivial⟩
  | ref i o ts ho hl hk ih =>
    have hs : Sees h (.ref i) (.node o.cls ts) := .ref i o ts ho hl hk
    obtain ⟨N, hN⟩ := bound (P := fun k n => ∀ v t, o.vals[k]? = some v → ts[k]? = some t → ∀ st, VInv f h st → VInv f h (collect f n st v).2
        ∧ (collect f n st v).1.items = t.gather fun a => (f a).items) o.vals.length (by
      intro k hk'
      obtain ⟨N, hN⟩ := ih k _ _ (List.getElem?_eq_getElem hk') (List.getElem?_eq_getElem (by omega))
      refine ⟨N, fun n hn v t hv ht => ?_⟩
      have e1 : o.vals[k] = v := Option.some.inj ((List.getElem?_eq_getElem hk').symm.trans hv)
      have e2 : ts[k]'(by omega) = t := Option.some.inj ((List.getElem?_eq_getElem (by omega)).symm.trans ht)
      subst e1; subst e2
      exact hN n hn)
    refine ⟨N + 1, fun n hn st hi => ?_⟩
    obtain ⟨m, rfl⟩ : ∃ m, n = m + 1 := ⟨n - 1, by omega⟩
    have ho' : st.heap[i]? = some o := by rw [hi.heap]; exact ho
    simp only [collect, ho']
    cases hc : (if o.cached then st.cache i else none) with
    | some r =>
      simp only
      have hcc : st.cache i = some r := by
        by_cases ho2 : o.cached = true
        · rw [if_pos ho2] at hc; exact hc
        · rw [if_neg ho2] at hc; exact absurd hc (by simp)
      refine ⟨hi, ?_⟩
      rw [hi.hit i r hcc _ hs]
      rfl
    | none =>
      simp only
      obtain ⟨i1, i2⟩ := mapSt_collect (g := collect f m) o.vals ts st hl hi fun k v t hv ht st' hi' => by
        have hlt : k < o.vals.length := by
          by_contra hlt
          rw [List.getElem?_eq_none (by omega)] at hv
          simp at hv
        exact hN k hlt m (by omega) v t hv ht st' hi'
      have hgat : (Tree.node o.cls ts).gather (fun a => (f a).items) = flatten (mapSt (collect f m) o.vals st).1 := by
        rw [flatten_items, i2, Tree.gather]
      refine ⟨?_, hgat.symm⟩
      unfold keep
      split
      · refine ⟨i1.heap, fun j r hj t' ht' => ?_⟩
        simp only at hj
        by_cases e : j = i
        · subst e
          rw [if_pos rfl] at hj
          have : Tree.node o.cls ts = t' := hs.inj ht'
          subst this
          rw [hgat]
          exact (Option.some.inj hj).symm
        · rw [if_neg e] at hj
          exact i1.hit j r hj t' ht'
      · exact i1

/-- C137: a visitor gives what its methods return for all atoms, from left to right, those of an object that occurs often as often. -/
theorem C137_collect {γ : Type} (f : α → Res γ) (h : List (Obj α)) {v : Val α} {t : Tree α} (hs : Sees h v t) :
    ∃ N, ∀ n ≥ N, (collect f n (fresh h) v).1.items = t.gather fun a => (f a).items := by
  obtain ⟨N, hN⟩ := collect_good f hs
  exact ⟨N, fun n hn => (hN n hn (fresh h) ⟨rfl, fun i r hr => by simp [fresh] at hr⟩).2⟩

/-- A model with a string and a list of strings, and a model with that twice. -/
def exHeap : List (Obj String) := [⟨1, true, [.atom "a", .atom "b"]⟩, ⟨2, true, [.atom "c", .ref 0]⟩, ⟨3, true, [.ref 1, .ref 1]⟩]
theorem ex_sees : Sees exHeap (.ref 0) (.node 1 [.leaf "a", .leaf "b"]) := by
  refine .ref 0 ⟨1, true, [.atom "a", .atom "b"]⟩ [.leaf "a", .leaf "b"] rfl rfl fun k v t hv ht => ?_
  match k, hv, ht with
  | 0, hv, ht => cases hv; cases ht; exact .atom _
  | 1, hv, ht => cases hv; cases ht; exact .atom _
example : ∃ v t, Sees exHeap v t := ⟨_, _, ex_sees⟩
def exF (s : String) : String := if s = "a" then "z" else s
example : (transform exF 9 (fresh exHeap) (.ref 2)).1 = .ref 5 ∧ (transform exF 9 (fresh exHeap) (.ref 2)).2.heap.map (·.vals)
    = exHeap.map (·.vals) ++ [[.atom "z", .atom "b"], [.atom "c", .ref 3], [.ref 4, .ref 4]] := by decide +kernel
/-- A plain list is not kept in the cache: it is copied twice. -/
example : (transform exF 9 (fresh [⟨1, false, [.atom "a"]⟩, ⟨3, true, [.ref 0, .ref 0]⟩]) (.ref 1)).2.heap.map (·.vals)
    = [[.atom "a"], [.ref 0, .ref 0], [.atom "z"], [.atom "z"], [.ref 2, .ref 3]] := by decide +kernel
example : (collect (fun s => Res.one s) 9 (fresh exHeap) (.ref 2)).1.items = ["c", "a", "b", "c", "a", "b"] := by decide +kernel

end Verif.Visitor

import Verif.Pre.Params

/-! # C46: parameters of devices at any depth

`C46_two_levels_partial` of `Verif.Pre.Params` is about a top and subcircuits of devices.  Here the hierarchy has any depth; what
is asked is that the parameters of instances of subcircuits do not depend on which of several parameter sets the subcircuit around them
has. -/

namespace Verif.Pre.Params

/-- The path leads from the top to an occurrence of the subcircuit of this name, whose parameters there are `env`. -/
inductive Occ (G : Params) (L : Lib) (top : String) : List String → String → Params → Prop
  | top {M : Mod} {env : Params} : L.lookup top = some M → Bound M.params G env → Occ G L top [] top env
  | step {p : List String} {m : String} {M M' : Mod} {env given env' : Params} {e : Inst} :
      Occ G L top p m env → L.lookup m = some M → e ∈ M.elems → L.lookup e.model = some M' → Values G env e.params given →
      Bound M'.params given env' → Occ G L top (p ++ [e.name]) e.model env'

/-- Parameters have different names; no name ends with an underscore and a number; where a subcircuit occurs with different parameters,
the instances of subcircuits in it are given the same values, which are not themselves names of parameters; a parameter that some
instance does not give has its default value everywhere. -/
structure Steady (G : Params) (L : Lib) (top : String) : Prop where
  params : ∀ n M, L.lookup n = some M → (M.params.map Prod.fst).Nodup
  names : ∀ n M, L.lookup n = some M → ∀ a k, n ≠ nm a k ∧ ∀ e ∈ M.elems, e.model ≠ nm a k
  same : ∀ p p' m env env', Occ G L top p m env → Occ G L top p' m env' → env ≠ env' → ∀ M, L.lookup m = some M → ∀ e ∈ M.elems,
    (L.lookup e.model).isSome → ∀ given, Values G env e.params given → Values G env' e.params given ∧ Values G env' given given
  default : ∀ p m env M, Occ G L top p m env → L.lookup m = some M → ∀ e ∈ M.elems, ∀ M', L.lookup e.model = some M' →
    ∀ p' env', Occ G L top p' e.model env' → ∀ q ∈ env', e.params.lookup q.1 = none → q ∈ M'.params

section

variable {G : Params} {limit : Nat} {L : Lib} {top : String}

theorem Occ.some' {p : List String} {m : String} {env : Params} (h : Occ G L top p m env) : ∃ M, L.lookup m = some M := by
  cases h with
  | top h _ => exact ⟨_, h⟩
  | step _ _ _ h _ _ => exact ⟨_, h⟩

theorem Occ.bound {p : List String} {m : String} {env : Params} (h : Occ G L top p m env) {M : Mod} (hM : L.lookup m = some M) :
    ∃ given, env = override M.params given := by
  cases h with
  | top h hb => rw [h] at hM; cases hM; exact ⟨_, bound_iff.mp hb⟩
  | step _ _ _ h _ hb => rw [h] at hM; cases hM; exact ⟨_, bound_iff.mp hb⟩

/-- Of the names that were given parameters: the subcircuit of the netlist it is, and the parameters. -/
abbrev Ghost := String → Option (String × Params)

/-- An element while its subcircuit is worked on. -/
def Weak (G : Params) (L : Lib) (g : Ghost) (env : Params) (e e' : Inst) : Prop :=
  e' = e ∨ ∃ M1, L.lookup e.model = some M1 ∧ e'.name = e.name ∧ e'.pins = e.pins ∧ e'.params = vals G env e.params ∧
    (e'.model = e.model ∨ g e'.model = some (e.model, override M1.params (vals G env e.params)))

/-- An element that is still to be worked on. -/
def Ready (G : Params) (L : Lib) (g : Ghost) (env : Params) (e e' : Inst) : Prop :=
  e' = e ∨ ((∃ M1, L.lookup e.model = some M1 ∧ e'.name = e.name ∧ e'.pins = e.pins ∧ e'.params = vals G env e.params ∧
    (e'.model = e.model ∨ g e'.model = some (e.model, override M1.params (vals G env e.params)))) ∧
    vals G env (vals G env e.params) = vals G env e.params)

/-- An element that is finished. -/
def Fin' (G : Params) (L : Lib) (g : Ghost) (env : Params) (e e' : Inst) : Prop :=
  (L.lookup e.model = none ∧ e' = e) ∨ ∃ M1, L.lookup e.model = some M1 ∧ e'.name = e.name ∧ e'.pins = e.pins ∧
    e'.params = vals G env e.params ∧ g e'.model = some (e.model, override M1.params (vals G env e.params))

theorem Ready.weak {g : Ghost} {env : Params} {e e' : Inst} (h : Ready G L g env e e') : Weak G L g env e e' := by
  rcases h with h | ⟨h, _⟩
  · exact .inl h
  · exact .inr h

theorem Fin'.weak {g : Ghost} {env : Params} {e e' : Inst} (h : Fin' G L g env e e') : Weak G L g env e e' := by
  rcases h with ⟨_, h⟩ | ⟨M1, h1, h2, h3, h4, h5⟩
  · exact .inl h
  · exact .inr ⟨M1, h1, h2, h3, h4, .inr h5⟩

def Le (g g' : Ghost) : Prop := ∀ n x, g n = some x → g' n = some x

theorem Le.refl (g : Ghost) : Le g g := fun _ _ h => h

theorem Le.trans {g h k : Ghost} (a : Le g h) (b : Le h k) : Le g k := fun n x hx => b n x (a n x hx)

theorem Weak.mono {g g' : Ghost} (hl : Le g g') {env : Params} {e e' : Inst} (h : Weak G L g env e e') : Weak G L g' env e e' := by
  rcases h with h | ⟨M1, h1, h2, h3, h4, h5⟩
  · exact .inl h
  · exact .inr ⟨M1, h1, h2, h3, h4, h5.imp id fun h => hl _ _ h⟩

theorem Ready.mono {g g' : Ghost} (hl : Le g g') {env : Params} {e e' : Inst} (h : Ready G L g env e e') : Ready G L g' env e e' := by
  rcases h with h | ⟨⟨M1, h1, h2, h3, h4, h5⟩, h6⟩
  · exact .inl h
  · exact .inr ⟨⟨M1, h1, h2, h3, h4, h5.imp id fun h => hl _ _ h⟩, h6⟩

theorem Fin'.mono {g g' : Ghost} (hl : Le g g') {env : Params} {e e' : Inst} (h : Fin' G L g env e e') : Fin' G L g' env e e' := by
  rcases h with h | ⟨M1, h1, h2, h3, h4, h5⟩
  · exact .inl h
  · exact .inr ⟨M1, h1, h2, h3, h4, hl _ _ h5⟩

/-- What holds of the library all the time. -/
structure SInv (G : Params) (L : Lib) (top : String) (g : Ghost) (st : St) : Prop where
  orig : ∀ n M, L.lookup n = some M → n ∉ st.multi → st.lib.lookup n = some M
  dom : ∀ n, n ∈ st.multi ↔ (g n).isSome
  entry : ∀ n m env, g n = some (m, env) → (∃ p, Occ G L top p m env) ∧ ∃ M0 M', L.lookup m = some M0 ∧ st.lib.lookup n = some M' ∧
    M'.info = M0.info ∧ M'.params = env ∧ List.Forall₂ (Weak G L g env) M0.elems M'.elems
  keys : ∀ n M', st.lib.lookup n = some M' → (L.lookup n).isSome ∨ ∃ a k env, n = nm a k ∧ g n = some (a, env)
  self : ∀ n m env, (L.lookup n).isSome → g n = some (m, env) → m = n

/-- The entry is finished. -/
def Complete (G : Params) (L : Lib) (g : Ghost) (st : St) (n : String) : Prop :=
  ∀ m env, g n = some (m, env) → ∃ M0 M', L.lookup m = some M0 ∧ st.lib.lookup n = some M' ∧
    M'.info = M0.info ∧ M'.params = env ∧ List.Forall₂ (Fin' G L g env) M0.elems M'.elems

/-- Nothing that was given parameters changes, and what is new is finished. -/
structure Ext (G : Params) (L : Lib) (g : Ghost) (st : St) (g' : Ghost) (st' : St) : Prop where
  le : Le g g'
  multi : ∀ n ∈ st.multi, n ∈ st'.multi
  keep : ∀ n ∈ st.multi, st'.lib.lookup n = st.lib.lookup n
  done : ∀ n ∈ st'.multi, n ∉ st.multi → Complete G L g' st' n

theorem Ext.refl (g : Ghost) (st : St) : Ext G L g st g st :=
  ⟨Le.refl g, fun _ h => h, fun _ _ => rfl, fun _ h h' => absurd h h'⟩

theorem Complete.mono {g g' : Ghost} {st st' : St} (hl : Le g g') {n : String} (hg : (g n).isSome)
    (hk : st'.lib.lookup n = st.lib.lookup n) (h : Complete G L g st n) : Complete G L g' st' n := by
  intro m env hn
  obtain ⟨x, hx⟩ := Option.isSome_iff_exists.mp hg
  have := hl _ _ hx
  rw [this] at hn
  cases hn
  obtain ⟨M0, M', h1, h2, h3, h4, h5⟩ := h m env hx
  exact ⟨M0, M', h1, hk.trans h2, h3, h4, h5.imp fun a b hab => hab.mono hl⟩

theorem Ext.trans {g g' g'' : Ghost} {st st' st'' : St} (hd : ∀ n, n ∈ st'.multi ↔ (g' n).isSome)
    (h1 : Ext G L g st g' st') (h2 : Ext G L g' st' g'' st'') : Ext G L g st g'' st'' := by
  refine ⟨h1.le.trans h2.le, fun n hn => h2.multi n (h1.multi n hn), fun n hn => (h2.keep n (h1.multi n hn)).trans (h1.keep n hn), ?_⟩
  intro n hn hn'
  by_cases h : n ∈ st'.multi
  · exact (h1.done n h hn').mono h2.le ((hd n).1 h) (h2.keep n h)
  · exact h2.done n hn h

/-- What is asked when parameters are given to a name. -/
def Call (G : Params) (L : Lib) (top : String) (g : Ghost) (name : String) (param : Params) (m : String) (env : Params) : Prop :=
  g name = some (m, env) ∧ env = override env param ∨
  (m = name ∧ (∃ p, Occ G L top p m env) ∧ (∀ M, L.lookup name = some M → env = override M.params param) ∧
    ((g name).isSome → ∀ p' env', Occ G L top p' name env' → override env' param = env))

/-- What is promised of a function that gives parameters to a name. -/
def RecOK (G : Params) (L : Lib) (top : String) (rec : St → String → Params → Option (St × String)) : Prop :=
  ∀ g st name param m env r, SInv G L top g st → Call G L top g name param m env → rec st name param = some r →
    ∃ g', SInv G L top g' r.1 ∧ Ext G L g st g' r.1 ∧ g' r.2 = some (m, env)

theorem override_idem (ps given : Params) : override (override ps given) given = override ps given := by
  unfold override
  rw [List.map_map]
  refine List.map_congr_left fun p _ => ?_
  simp only [Function.comp_apply]
  cases given.lookup p.1 <;> simp

/-- An instance of a subcircuit asks for the parameters of its path. -/
theorem call_of (hs : Steady G L top) {p : List String} {m : String} {env : Params} {M M' : Mod} {e : Inst} {g : Ghost}
    (ho : Occ G L top p m env) (hM : L.lookup m = some M) (he : e ∈ M.elems) (hM' : L.lookup e.model = some M') {n : String}
    (hn : n = e.model ∨ g n = some (e.model, override M'.params (vals G env e.params))) :
    Call G L top g n (vals G env e.params) e.model (override M'.params (vals G env e.params)) := by
  rcases hn with rfl | hn
  · right
    refine ⟨rfl, ⟨_, Occ.step ho hM he hM' (values_iff.mpr rfl) (bound_iff.mpr rfl)⟩, ?_, ?_⟩
    · intro M1 h1
      rw [hM'] at h1
      cases h1
      rfl
    · intro _ p' env' ho'
      obtain ⟨given', hg'⟩ := ho'.bound hM'
      have hd := hs.default p m env M ho hM e he M' hM' p' env' ho'
      have hnd := hs.params _ _ hM'
      subst hg'
      unfold override at hd ⊢
      rw [List.map_map]
      refine List.map_congr_left fun q hq => ?_
      simp only [Function.comp_apply]
      cases hl : (vals G env e.params).lookup q.1 with
      | some x => rfl
      | none =>
        simp only [Option.getD_none]
        rw [lookup_vals, Option.map_eq_none_iff] at hl
        have := hd (q.1, (given'.lookup q.1).getD q.2) (List.mem_map.mpr ⟨q, hq, rfl⟩) hl
        have h1 := lookup_of_nodup hnd this
        have h2 := lookup_of_nodup hnd hq
        simp only at h1
        rw [h2] at h1
        simp only [Option.some.injEq] at h1
        rw [← h1]
  · exact .inl ⟨hn, (override_idem _ _).symm⟩

/-- Where nothing of the ghost names it, the name of a device is not in the library. -/
theorem device_none (hs : Steady G L top) {g : Ghost} {st : St} (hi : SInv G L top g st) {m : String} {M : Mod} (hM : L.lookup m = some M)
    {e : Inst} (he : e ∈ M.elems) (hn : L.lookup e.model = none) : st.lib.lookup e.model = none := by
  cases h : st.lib.lookup e.model with
  | none => rfl
  | some M' =>
    exfalso
    rcases hi.keys _ _ h with h | ⟨a, k, _, h, _⟩
    · rw [hn] at h; cases h
    · exact (hs.names m M hM a k).2 e he h

theorem forall₂_set {α β : Type} {R : α → β → Prop} : ∀ {l : List α} {l' : List β} {j : Nat} {a : α} {b : β}, List.Forall₂ R l l' →
    l[j]? = some a → R a b → List.Forall₂ R l (l'.set j b)
  | [], _, _, _, _, h, hj, _ => by simp at hj
  | x :: l, _, 0, a, b, .cons h hl, hj, hr => by
    simp only [List.getElem?_cons_zero, Option.some.injEq] at hj
    subst hj
    exact .cons hr hl
  | x :: l, _, j + 1, a, b, .cons h hl, hj, hr => .cons h (forall₂_set hl hj hr)

theorem forall₂_get {α β : Type} {R : α → β → Prop} : ∀ {l : List α} {l' : List β} {j : Nat} {b : β}, List.Forall₂ R l l' →
    l'[j]? = some b → ∃ a, l[j]? = some a ∧ R a b
  | [], _, _, _, .nil, hj => by simp at hj
  | x :: l, _, 0, b, .cons h hl, hj => by
    simp only [List.getElem?_cons_zero, Option.some.injEq] at hj
    subst hj
    exact ⟨x, rfl, h⟩
  | x :: l, _, j + 1, b, .cons h hl, hj => forall₂_get (l := l) (j := j) hl hj

/-- The entry may be replaced by another one that is right so far. -/
theorem SInv.setMod {g : Ghost} {st : St} (hi : SInv G L top g st) {n m : String} {env : Params} (hn : g n = some (m, env)) {M0 M1 : Mod}
    (h0 : L.lookup m = some M0) (h1 : M1.info = M0.info) (h2 : M1.params = env) (h3 : List.Forall₂ (Weak G L g env) M0.elems M1.elems) :
    SInv G L top g { st with lib := setMod st.lib n M1 } := by
  obtain ⟨_, _, M', _, hM', _⟩ := hi.entry n m env hn
  have hmem : n ∈ st.multi := (hi.dom n).2 (by rw [hn]; rfl)
  constructor
  · intro a M hM ha
    have hne : a ≠ n := fun h => ha (h ▸ hmem)
    rw [lookup_setMod, if_neg hne]
    exact hi.orig a M hM ha
  · exact hi.dom
  · intro a m' env' ha
    by_cases hne : a = n
    · subst hne
      rw [hn] at ha
      cases ha
      exact ⟨(hi.entry a m env hn).1, M0, M1, h0, by rw [lookup_setMod, if_pos rfl, hM']; rfl, h1, h2, h3⟩
    · obtain ⟨o, A, B, e1, e2, e3⟩ := hi.entry a m' env' ha
      exact ⟨o, A, B, e1, by rw [lookup_setMod, if_neg hne]; exact e2, e3⟩
  · intro a M ha
    rw [lookup_setMod] at ha
    by_cases hne : a = n
    · subst hne
      exact hi.keys a M' hM'
    · rw [if_neg hne] at ha
      exact hi.keys a M ha
  · exact hi.self

/-- State of the loop over the elements of `n`: those before `j` are finished, the others still to be worked on. -/
structure Loop (G : Params) (L : Lib) (top : String) (st0 : St) (g : Ghost) (st : St) (n m : String) (env : Params) (M0 : Mod) (j : Nat) :
    Prop where
  inv : SInv G L top g st
  own : g n = some (m, env)
  elems : ∃ M', st.lib.lookup n = some M' ∧ M'.info = M0.info ∧ M'.params = env ∧ M'.elems.length = M0.elems.length ∧
    ∀ i e e', M0.elems[i]? = some e → M'.elems[i]? = some e' → (i < j → Fin' G L g env e e') ∧ (j ≤ i → Ready G L g env e e')
  keep : ∀ a ∈ st0.multi, st.lib.lookup a = st0.lib.lookup a
  multi : ∀ a ∈ st0.multi, a ∈ st.multi
  done : ∀ a ∈ st.multi, a ∉ st0.multi → a ≠ n → Complete G L g st a

theorem forall₂_of_get {α β : Type} {R : α → β → Prop} : ∀ {l : List α} {l' : List β}, l'.length = l.length →
    (∀ (i : Nat) a b, l[i]? = some a → l'[i]? = some b → R a b) → List.Forall₂ R l l'
  | [], [], _, _ => .nil
  | [], _ :: _, h, _ => by simp at h
  | _ :: _, [], h, _ => by simp at h
  | a :: l, b :: l', h, hr => .cons (hr 0 a b rfl rfl) (forall₂_of_get (by simpa using h) fun i x y hx hy => hr (i + 1) x y hx hy)

theorem loop_step (hs : Steady G L top) {rec : St → String → Params → Option (St × String)} (hrec : RecOK G L top rec) {st0 : St} {g : Ghost}
    {st st' : St} {n m : String} {env : Params} {M0 : Mod} (h0 : L.lookup m = some M0) (hn0 : n ∉ st0.multi) {j : Nat}
    (hj : j < M0.elems.length) (h : Loop G L top st0 g st n m env M0 j) (hst : updateElem G rec n st j = some st') :
    ∃ g', Le g g' ∧ Loop G L top st0 g' st' n m env M0 (j + 1) := by
  obtain ⟨M', hM', hinfo, hpar, hlen, hel⟩ := h.elems
  have hej : M0.elems[j]? = some M0.elems[j] := List.getElem?_eq_getElem hj
  have hej' : M'.elems[j]? = some (M'.elems[j]'(by omega)) := List.getElem?_eq_getElem (by omega)
  generalize hE : M0.elems[j] = e at hej
  generalize hE' : M'.elems[j]'(by omega) = i at hej'
  have hmem : e ∈ M0.elems := List.mem_of_getElem? hej
  have hready := (hel j e i hej hej').2 (le_refl _)
  obtain ⟨⟨p, hocc⟩, _⟩ := h.inv.entry n m env h.own
  subst hpar
  unfold updateElem at hst
  rw [hM', Option.bind_some, hej', Option.bind_some] at hst
  by_cases hdev : L.lookup e.model = none
  · -- a device
    have hi : i = e := by
      rcases hready with hr | ⟨⟨M1, hr, _⟩, _⟩
      · exact hr
      · rw [hdev] at hr; cases hr
    subst hi
    rw [device_none hs h.inv h0 hmem hdev] at hst
    simp only [Option.isSome_none, Bool.false_eq_true, if_false, Option.some.injEq] at hst
    subst hst
    refine ⟨g, Le.refl g, ⟨h.inv, h.own, ⟨M', hM', hinfo, rfl, hlen, ?_⟩, h.keep, h.multi, h.done⟩⟩
    intro a x x' hx hx'
    refine ⟨fun ha => ?_, fun ha => (hel a x x' hx hx').2 (by omega)⟩
    by_cases haj : a = j
    · subst haj
      rw [hej] at hx
      rw [hej'] at hx'
      cases hx
      cases hx'
      exact .inl ⟨hdev, rfl⟩
    · exact (hel a x x' hx hx').1 (by omega)
  · obtain ⟨M1, hM1⟩ := Option.ne_none_iff_exists'.mp hdev
    -- the values it is given
    have hv : vals G M'.params i.params = vals G M'.params e.params := by
      rcases hready with rfl | ⟨⟨_, _, _, _, hr, _⟩, hr'⟩
      · rfl
      · rw [hr, hr']
    have hnm : i.name = e.name ∧ i.pins = e.pins := by
      rcases hready with rfl | ⟨⟨_, _, h1, h2, _⟩, _⟩
      · exact ⟨rfl, rfl⟩
      · exact ⟨h1, h2⟩
    have hmod : i.model = e.model ∨ g i.model = some (e.model, override M1.params (vals G M'.params e.params)) := by
      rcases hready with rfl | ⟨⟨M2, h2, _, _, _, h1⟩, _⟩
      · exact .inl rfl
      · rw [hM1] at h2; cases h2; exact h1
    have hsome : (st.lib.lookup i.model).isSome := by
      rcases hmod with hm | hm
      · rw [hm]
        by_cases hmm : e.model ∈ st.multi
        · obtain ⟨x, hx⟩ := Option.isSome_iff_exists.mp ((h.inv.dom _).1 hmm)
          obtain ⟨_, _, A, _, hA, _⟩ := h.inv.entry _ x.1 x.2 hx
          rw [hA]; rfl
        · rw [h.inv.orig _ _ hM1 hmm]; rfl
      · obtain ⟨_, _, A, _, hA, _⟩ := h.inv.entry _ _ _ hm
        rw [hA]; rfl
    rw [if_pos hsome, hv] at hst
    have hweak : List.Forall₂ (Weak G L g M'.params) M0.elems M'.elems := forall₂_of_get hlen fun a x x' hx hx' => by
      by_cases ha : a < j
      · exact ((hel a x x' hx hx').1 ha).weak
      · exact ((hel a x x' hx hx').2 (by omega)).weak
    -- the state in which the function is called
    have hinv1 : SInv G L top g { st with lib :=
        (setMod st.lib n { M' with elems := M'.elems.set j { i with params := vals G M'.params e.params } }) } := by
      refine h.inv.setMod h.own h0 hinfo rfl (forall₂_set hweak hej (.inr ⟨M1, hM1, hnm.1, hnm.2, rfl, ?_⟩))
      exact hmod
    obtain ⟨⟨st2, new⟩, hr, hst⟩ := Option.bind_eq_some_iff.mp hst
    obtain ⟨g', hi2, hx2, hg2⟩ := hrec _ _ _ _ _ _ _ hinv1 (call_of hs hocc h0 hmem hM1 hmod) hr
    simp only at hi2 hx2 hg2 hst
    have hnm0 : n ∈ st.multi := (h.inv.dom n).2 (by rw [h.own]; rfl)
    have hlook : st2.lib.lookup n = some { M' with elems := M'.elems.set j { i with params := vals G M'.params e.params } } := by
      rw [hx2.keep n hnm0, lookup_setMod, if_pos rfl, hM']; rfl
    rw [hlook, Option.map_some, Option.some.injEq] at hst
    subst hst
    have hown : g' n = some (m, M'.params) := hx2.le _ _ h.own
    have hnew : (M'.elems.set j { i with params := vals G M'.params e.params }).set j
        { i with params := vals G M'.params e.params, model := new } = M'.elems.set j { i with params := vals G M'.params e.params, model := new } := by
      rw [List.set_set]
    have hfin : Fin' G L g' M'.params e { i with params := vals G M'.params e.params, model := new } :=
      .inr ⟨M1, hM1, hnm.1, hnm.2, rfl, hg2⟩
    refine ⟨g', hx2.le, ⟨?_, hown, ?_, ?_, ?_, ?_⟩⟩
    · refine hi2.setMod hown h0 hinfo rfl ?_
      simp only
      rw [hnew]
      exact forall₂_set (hweak.imp fun a b hab => hab.mono hx2.le) hej hfin.weak
    · refine ⟨{ M' with elems := M'.elems.set j { i with params := vals G M'.params e.params, model := new } }, ?_, hinfo, rfl,
        by simpa using hlen, ?_⟩
      · simp only
        rw [lookup_setMod, if_pos rfl, hlook, hnew]; rfl
      intro a x x' hx hx'
      by_cases haj : j = a
      · subst haj
        rw [List.getElem?_set_self (by omega)] at hx'
        rw [hej] at hx
        cases hx
        cases hx'
        exact ⟨fun _ => hfin, fun hc => by omega⟩
      · rw [List.getElem?_set_ne haj] at hx'
        exact ⟨fun ha => ((hel a x x' hx hx').1 (by omega)).mono hx2.le, fun ha => ((hel a x x' hx hx').2 (by omega)).mono hx2.le⟩
    · intro a ha
      have hne : a ≠ n := fun hc => hn0 (hc ▸ ha)
      rw [lookup_setMod, if_neg hne, hx2.keep a (h.multi a ha), lookup_setMod, if_neg hne, h.keep a ha]
    · intro a ha
      exact hx2.multi a (h.multi a ha)
    · intro a ha ha0 hne
      have hkeep : (setMod st2.lib n { M' with elems := ((M'.elems.set j { i with params := vals G M'.params e.params }).set j
          { i with params := vals G M'.params e.params, model := new }) }).lookup a = st2.lib.lookup a := by
        rw [lookup_setMod, if_neg hne]
      by_cases hold : a ∈ st.multi
      · refine (h.done a hold ha0 hne).mono hx2.le ((h.inv.dom a).1 hold) ?_
        simp only
        rw [hkeep, hx2.keep a hold, lookup_setMod, if_neg hne]
      · exact (hx2.done a ha hold).mono (Le.refl g') ((hi2.dom a).1 ha) hkeep

theorem loop_all (hs : Steady G L top) {rec : St → String → Params → Option (St × String)} (hrec : RecOK G L top rec) {st0 : St}
    {n m : String} {env : Params} {M0 : Mod} (h0 : L.lookup m = some M0) (hn0 : n ∉ st0.multi) : ∀ (k j : Nat) {g : Ghost} {st st' : St},
    j + k = M0.elems.length → Loop G L top st0 g st n m env M0 j → (List.range' j k).foldlM (updateElem G rec n) st = some st' →
    ∃ g', Le g g' ∧ Loop G L top st0 g' st' n m env M0 M0.elems.length := by
  intro k
  induction k with
  | zero =>
    intro j g st st' hjk h hst
    simp only [List.range'_zero, List.foldlM_nil, Option.pure_def, Option.some.injEq] at hst
    subst hst
    have : j = M0.elems.length := by omega
    subst this
    exact ⟨g, Le.refl g, h⟩
  | succ k ih =>
    intro j g st st' hjk h hst
    rw [List.range'_succ, List.foldlM_cons] at hst
    obtain ⟨s, hs1, hst⟩ := Option.bind_eq_some_iff.mp hst
    obtain ⟨g1, hl, h1⟩ := loop_step hs hrec h0 hn0 (by omega) h hs1
    obtain ⟨g2, hl2, h2⟩ := ih (j + 1) (by omega) h1 hst
    exact ⟨g2, hl.trans hl2, h2⟩

/-- All elements of a name that was just given parameters. -/
theorem updateAll_ok (hs : Steady G L top) {rec : St → String → Params → Option (St × String)} (hrec : RecOK G L top rec) {st0 : St}
    {g0 g : Ghost} {st st' : St} {n m : String} {env : Params} {M0 : Mod} (h0 : L.lookup m = some M0) (hn0 : n ∉ st0.multi)
    (hle : Le g0 g) (h : Loop G L top st0 g st n m env M0 0) (hst : updateAll G rec st n = some st') :
    ∃ g', SInv G L top g' st' ∧ Ext G L g0 st0 g' st' ∧ g' n = some (m, env) := by
  obtain ⟨M', hM', _, _, hlen, _⟩ := h.elems
  unfold updateAll at hst
  rw [hM', Option.bind_some, hlen, List.range_eq_range'] at hst
  obtain ⟨g', hl, h'⟩ := loop_all hs hrec h0 hn0 _ 0 (by omega) h hst
  refine ⟨g', h'.inv, ⟨hle.trans hl, h'.multi, h'.keep, ?_⟩, h'.own⟩
  intro a ha ha0
  by_cases hne : a = n
  · subst hne
    intro m' env' hg
    rw [h'.own] at hg
    cases hg
    obtain ⟨M2, k1, k2, k3, k4, k5⟩ := h'.elems
    refine ⟨M0, M2, h0, k1, k2, k3, forall₂_of_get k4 fun i x x' hx hx' => (k5 i x x' hx hx').1 ?_⟩
    by_contra hc
    rw [List.getElem?_eq_none (by omega)] at hx
    cases hx
  · exact h'.done a ha ha0 hne

/-! ## Giving parameters to a name -/

def put (g : Ghost) (n : String) (x : String × Params) : Ghost := fun a => if a = n then some x else g a

theorem put_self (g : Ghost) (n : String) (x : String × Params) : put g n x n = some x := by simp [put]

theorem put_ne {g : Ghost} {n a : String} {x : String × Params} (h : a ≠ n) : put g n x a = g a := by simp [put, h]

theorem le_put {g : Ghost} {n : String} {x : String × Params} (h : g n = none) : Le g (put g n x) := by
  intro a y hy
  have : a ≠ n := by
    rintro rfl
    rw [h] at hy; cases hy
  rw [put_ne this, hy]

theorem resolveP_ok (hs : Steady G L top) : ∀ fuel, RecOK G L top (resolveP G limit fuel) := by
  intro fuel
  induction fuel with
  | zero => intro g st name param m env r _ _ h; simp [resolveP] at h
  | succ fuel ih =>
    intro g st name param m env r hi hc h
    unfold resolveP at h
    obtain ⟨sub, hsub, h⟩ := Option.bind_eq_some_iff.mp h
    by_cases hm : name ∈ st.multi
    · rw [if_pos hm] at h
      obtain ⟨⟨m1, env1⟩, hg⟩ := Option.isSome_iff_exists.mp ((hi.dom name).1 hm)
      obtain ⟨⟨p1, hocc1⟩, M0, M', e1, e2, e3, e4, e5⟩ := hi.entry _ _ _ hg
      rw [hsub] at e2
      cases e2
      by_cases hall : (sub.params.all fun pv => (param.lookup pv.1).all (· = pv.2)) = true
      · rw [if_pos hall] at h
        cases h
        -- the parameters are the same
        have hov : override env1 param = env1 := by
          rw [List.all_eq_true, e4] at hall
          unfold override
          conv_rhs => rw [← List.map_id env1]
          refine List.map_congr_left fun q hq => ?_
          have := hall q hq
          cases hl : param.lookup q.1 with
          | none => simp
          | some x =>
            rw [hl] at this
            simp only [Option.all_some, decide_eq_true_eq] at this
            simp [this]
        have hres : g name = some (m, env) := by
          rcases hc with ⟨hc, _⟩ | ⟨rfl, ⟨p, ho⟩, _, hc⟩
          · exact hc
          · obtain ⟨M, hM⟩ := ho.some'
            have hself := hi.self m m1 env1 (by rw [hM]; rfl) hg
            subst hself
            rw [hg, ← hov, hc (by rw [hg]; rfl) p1 env1 hocc1]
        refine ⟨g, ⟨?_, ?_, hi.entry, hi.keys, hi.self⟩, ⟨Le.refl g, fun n hn => List.mem_append_left _ hn, fun _ _ => rfl, ?_⟩, hres⟩
        · intro n M hM hn
          exact hi.orig n M hM fun hc => hn (List.mem_append_left _ hc)
        · intro n
          rw [List.mem_append, List.mem_singleton, hi.dom]
          constructor
          · rintro (h | rfl)
            · exact h
            · rw [hres]; rfl
          · exact .inl
        · intro n hn hn'
          rw [List.mem_append, List.mem_singleton] at hn
          rcases hn with hn | rfl
          · exact absurd hn hn'
          · exact absurd hm hn'
      · rw [if_neg hall] at h
        -- the name is one of the netlist
        have hcall : m = name ∧ (∃ p, Occ G L top p m env) ∧ override env1 param = env := by
          rcases hc with ⟨hc, hid⟩ | ⟨rfl, ho, _, hc⟩
          · exfalso
            rw [hg] at hc
            cases hc
            apply hall
            rw [List.all_eq_true, e4]
            intro q hq
            cases hl : param.lookup q.1 with
            | none => rfl
            | some x =>
              rw [hid] at hq
              unfold override at hq
              obtain ⟨q0, _, rfl⟩ := List.mem_map.mp hq
              simp only at hl ⊢
              rw [hl]
              simp
          · obtain ⟨p, ho'⟩ := ho
            obtain ⟨M, hM⟩ := ho'.some'
            have hself := hi.self m m1 env1 (by rw [hM]; rfl) hg
            subst hself
            exact ⟨rfl, ⟨p, ho'⟩, hc (by rw [hg]; rfl) p1 env1 hocc1⟩
        obtain ⟨rfl, ⟨p, hocc⟩, henv⟩ := hcall
        obtain ⟨M, hM⟩ := hocc.some'
        have hself : m = m1 := (hi.self m m1 env1 (by rw [hM]; rfl) hg).symm
        subst hself
        rw [e1] at hM
        cases hM
        rw [e4, henv] at h
        obtain ⟨new, hnew, h⟩ := Option.bind_eq_some_iff.mp h
        obtain ⟨k, hk, hdup⟩ := findNew_spec hnew
        have hnl : L.lookup new = none := by
          cases hl : L.lookup new with
          | none => rfl
          | some M => exact absurd hk (hs.names new M hl _ _).1
        by_cases hex : (st.lib.lookup new).isSome = true
        · rw [if_pos hex] at h
          cases h
          obtain ⟨c, hcl⟩ := Option.isSome_iff_exists.mp hex
          refine ⟨g, hi, Ext.refl g st, ?_⟩
          rcases hi.keys new c hcl with hx | ⟨a, k', env', hx, hgx⟩
          · rw [hnl] at hx; cases hx
          · obtain ⟨rfl, _⟩ := nm_inj (hk.symm.trans hx)
            obtain ⟨_, A, B, _, b2, _, b4, _⟩ := hi.entry _ _ _ hgx
            rw [hcl] at b2
            cases b2
            have := hdup c hcl
            unfold duplicate at this
            simp only [Bool.and_eq_true, decide_eq_true_eq] at this
            rw [hgx, ← b4, ← this.1.2]
        · rw [if_neg hex] at h
          obtain ⟨st', hst', h⟩ := Option.map_eq_some_iff.mp h
          cases h
          have hnone : st.lib.lookup new = none := by
            cases hl : st.lib.lookup new with
            | none => rfl
            | some c => rw [hl] at hex; exact absurd rfl hex
          have hgn : g new = none := by
            cases hgn : g new with
            | none => rfl
            | some x =>
              obtain ⟨_, A, B, _, b2, _⟩ := hi.entry _ x.1 x.2 hgn
              rw [hnone] at b2; cases b2
          have hn0 : new ∉ st.multi := fun hc => by
            have := (hi.dom new).1 hc
            rw [hgn] at this; cases this
          have hle := le_put (x := (m, env)) hgn
          have hne : env1 ≠ env := by
            rintro rfl
            apply hall
            rw [List.all_eq_true, e4]
            intro q hq
            cases hl : param.lookup q.1 with
            | none => rfl
            | some x =>
              rw [← henv] at hq
              unfold override at hq
              obtain ⟨q0, _, rfl⟩ := List.mem_map.mp hq
              simp only at hl ⊢
              rw [hl]
              simp
          -- the elements of the copy
          have hready : List.Forall₂ (fun e e' => Weak G L g env1 e e' ∧ Ready G L (put g new (m, env)) env e e') M0.elems sub.elems := by
            have key : ∀ e ∈ M0.elems, ∀ e', Weak G L g env1 e e' → Ready G L (put g new (m, env)) env e e' := by
              intro e he e' hw
              rcases hw with rfl | ⟨M1, w1, w2, w3, w4, w5⟩
              · exact .inl rfl
              · obtain ⟨v1, v2⟩ := hs.same p1 p m env1 env hocc1 hocc hne M0 e1 e he (by rw [w1]; rfl) _ (values_iff.mpr rfl)
                have v1' := values_iff.mp v1
                have v2' := values_iff.mp v2
                rw [v1'] at v2' w4 w5
                refine .inr ⟨⟨M1, w1, w2, w3, w4, w5.imp id fun h => hle _ _ h⟩, v2'.symm⟩
            have gen : ∀ {l l' : List Inst}, (∀ e ∈ l, e ∈ M0.elems) → List.Forall₂ (Weak G L g env1) l l' →
                List.Forall₂ (fun e e' => Weak G L g env1 e e' ∧ Ready G L (put g new (m, env)) env e e') l l' := by
              intro l l' hl hf
              induction hf with
              | nil => exact .nil
              | cons h1 _ ih' =>
                exact .cons ⟨h1, key _ (hl _ List.mem_cons_self) _ h1⟩ (ih' fun e he => hl e (List.mem_cons_of_mem _ he))
            exact gen (fun _ h => h) e5
          have hlen : sub.elems.length = M0.elems.length := e5.length_eq.symm
          have hlook : ∀ a, a ≠ new → (st.lib ++ [(new, { sub with params := env })]).lookup a = st.lib.lookup a := by
            intro a ha
            rw [lookup_append, if_neg ha, Option.or_none]
          have hlooknew : (st.lib ++ [(new, { sub with params := env })]).lookup new = some { sub with params := env } := by
            rw [lookup_append, hnone, if_pos rfl]; rfl
          refine updateAll_ok hs ih e1 hn0 hle ?_ hst'
          refine ⟨⟨?_, ?_, ?_, ?_, ?_⟩, put_self _ _ _, ⟨{ sub with params := env }, hlooknew, e3, rfl, hlen, ?_⟩, ?_, ?_, ?_⟩
          · intro a M hM ha
            simp only [List.mem_append, List.mem_singleton, not_or] at ha
            simp only
            rw [hlook a ha.2]
            exact hi.orig a M hM ha.1
          · intro a
            simp only [List.mem_append, List.mem_singleton]
            by_cases ha : a = new
            · subst ha; simp [put_self]
            · rw [put_ne ha, ← hi.dom]; simp [ha]
          · intro a m' env' ha
            by_cases hane : a = new
            · subst hane
              rw [put_self] at ha
              cases ha
              exact ⟨⟨p, hocc⟩, M0, { sub with params := env }, e1, hlooknew, e3, rfl, hready.imp fun _ _ h => h.2.weak⟩
            · rw [put_ne hane] at ha
              obtain ⟨o, A, B, b1, b2, b3, b4, b5⟩ := hi.entry _ _ _ ha
              exact ⟨o, A, B, b1, by simp only; rw [hlook a hane]; exact b2, b3, b4, b5.imp fun _ _ h => h.mono hle⟩
          · intro a M ha
            by_cases hane : a = new
            · subst hane
              exact .inr ⟨m, k, env, hk, put_self _ _ _⟩
            · simp only at ha
              rw [hlook a hane] at ha
              rcases hi.keys a M ha with hx | ⟨b, k', env', hx, hgx⟩
              · exact .inl hx
              · exact .inr ⟨b, k', env', hx, by rw [put_ne hane]; exact hgx⟩
          · intro a m' env' ha hg'
            have hane : a ≠ new := by
              rintro rfl
              rw [hnl] at ha; cases ha
            rw [put_ne hane] at hg'
            exact hi.self a m' env' ha hg'
          · intro a x x' hx hx'
            refine ⟨fun hc => by omega, fun _ => ?_⟩
            simp only at hx'
            obtain ⟨y, hy, hr⟩ := forall₂_get hready hx'
            rw [hx] at hy
            cases hy
            exact hr.2
          · intro a ha
            exact hlook a fun hc => hn0 (hc ▸ ha)
          · intro a ha
            exact List.mem_append_left _ ha
          · intro a ha ha0 hane
            simp only [List.mem_append, List.mem_singleton] at ha
            rcases ha with ha | ha
            · exact absurd ha ha0
            · exact absurd ha hane
    · rw [if_neg hm] at h
      -- the first time
      obtain ⟨st', hst', h⟩ := Option.map_eq_some_iff.mp h
      cases h
      have hgn : g name = none := by
        cases hgn : g name with
        | none => rfl
        | some x => exact absurd ((hi.dom name).2 (by rw [hgn]; rfl)) hm
      rcases hc with ⟨hc, _⟩ | ⟨rfl, ⟨p, hocc⟩, hc, _⟩
      · rw [hgn] at hc; cases hc
      obtain ⟨M0, hM0⟩ := hocc.some'
      have hs0 := hi.orig m M0 hM0 hm
      rw [hsub] at hs0
      cases hs0
      have henv := hc sub hM0
      rw [← henv] at hst'
      have hle := le_put (x := (m, env)) hgn
      have hlook : ∀ a, a ≠ m → (setMod st.lib m { sub with params := env }).lookup a = st.lib.lookup a := by
        intro a ha
        rw [lookup_setMod, if_neg ha]
      have hlookm : (setMod st.lib m { sub with params := env }).lookup m = some { sub with params := env } := by
        rw [lookup_setMod, if_pos rfl, hsub]; rfl
      have hself : ∀ l : List Inst, List.Forall₂ (Weak G L (put g m (m, env)) env) l l := by
        intro l
        induction l with
        | nil => exact .nil
        | cons a l ih' => exact .cons (.inl rfl) ih'
      refine updateAll_ok hs ih hM0 hm hle ?_ hst'
      refine ⟨⟨?_, ?_, ?_, ?_, ?_⟩, put_self _ _ _, ⟨{ sub with params := env }, hlookm, rfl, rfl, rfl, ?_⟩, ?_, ?_, ?_⟩
      · intro a M hM ha
        simp only [List.mem_append, List.mem_singleton, not_or] at ha
        simp only
        rw [hlook a ha.2]
        exact hi.orig a M hM ha.1
      · intro a
        simp only [List.mem_append, List.mem_singleton]
        by_cases ha : a = m
        · subst ha; simp [put_self]
        · rw [put_ne ha, ← hi.dom]; simp [ha]
      · intro a m' env' ha
        by_cases hane : a = m
        · subst hane
          rw [put_self] at ha
          cases ha
          exact ⟨⟨p, hocc⟩, sub, { sub with params := env }, hM0, hlookm, rfl, rfl, hself _⟩
        · rw [put_ne hane] at ha
          obtain ⟨o, A, B, b1, b2, b3, b4, b5⟩ := hi.entry _ _ _ ha
          exact ⟨o, A, B, b1, by simp only; rw [hlook a hane]; exact b2, b3, b4, b5.imp fun _ _ h => h.mono hle⟩
      · intro a M ha
        by_cases hane : a = m
        · subst hane
          exact .inl (by rw [hM0]; rfl)
        · simp only at ha
          rw [hlook a hane] at ha
          rcases hi.keys a M ha with hx | ⟨b, k', env', hx, hgx⟩
          · exact .inl hx
          · exact .inr ⟨b, k', env', hx, by rw [put_ne hane]; exact hgx⟩
      · intro a m' env' ha hg'
        by_cases hane : a = m
        · subst hane
          rw [put_self] at hg'
          cases hg'
          rfl
        · rw [put_ne hane] at hg'
          exact hi.self a m' env' ha hg'
      · intro a x x' hx hx'
        refine ⟨fun hc => by omega, fun _ => ?_⟩
        simp only at hx'
        rw [hx] at hx'
        cases hx'
        exact .inl rfl
      · intro a ha
        exact hlook a fun hc => hm (hc ▸ ha)
      · intro a ha
        exact List.mem_append_left _ ha
      · intro a ha ha0 hane
        simp only [List.mem_append, List.mem_singleton] at ha
        rcases ha with ha | ha
        · exact absurd ha ha0
        · exact absurd ha hane

/-! ## The result -/

theorem Inside.occ {q : List String} {M : Mod} {env : Params} (h : Inside G L top q M env) :
    ∃ m, L.lookup m = some M ∧ Occ G L top q m env := by
  induction h with
  | top h hb => exact ⟨top, h, Occ.top h hb⟩
  | step _ he hM hg hb ih =>
    obtain ⟨m, h1, h2⟩ := ih
    exact ⟨_, hM, Occ.step h2 h1 he hM hg hb⟩

/-- **C46, partial.**  At any depth: if instances of subcircuits inside a subcircuit that occurs with different parameters are given the
same values, every device has the values of its own path.  (Missing: subcircuits that pass different parameters on, see
`C46_violated_depth`.) -/
theorem C46_steady_partial (hs : Steady G L top) {fuel : Nat} {L' : Lib} (h : read G limit fuel L top = some L') :
    C46_statement G L top L' := by
  unfold read at h
  obtain ⟨T, hT, h⟩ := Option.bind_eq_some_iff.mp h
  obtain ⟨⟨st, new⟩, hr, rfl⟩ := Option.map_eq_some_iff.mp h
  simp only
  have hocc0 : Occ G L top [] top (override T.params G) := Occ.top hT (bound_iff.mpr rfl)
  have htp := topParam_eq (G := G) (hs.params top T hT)
  have hinit : SInv G L top (fun _ => none) ⟨L, []⟩ := by
    refine ⟨fun n M hM _ => hM, fun n => by simp, fun n m env h => (by cases h), fun n M' hM => .inl (by rw [hM]; rfl), fun n m env _ h => (by cases h)⟩
  have hne : new = top := by
    cases fuel with
    | zero => simp [resolveP] at hr
    | succ fuel =>
      unfold resolveP at hr
      obtain ⟨sub, _, hr⟩ := Option.bind_eq_some_iff.mp hr
      simp only [List.not_mem_nil, if_false] at hr
      obtain ⟨_, _, hr⟩ := Option.map_eq_some_iff.mp hr
      cases hr
      rfl
  subst hne
  obtain ⟨g, hi, hx, hg⟩ := resolveP_ok hs fuel _ _ _ _ new (override T.params G) _ hinit (.inr ⟨rfl, ⟨_, hocc0⟩, fun M hM => by
    rw [hT] at hM; cases hM; exact htp.symm, fun h => by cases h⟩) hr
  simp only at hi hx hg
  -- all that was given parameters is finished
  have hcomp : ∀ n m env, g n = some (m, env) → ∃ M0 M', L.lookup m = some M0 ∧ st.lib.lookup n = some M' ∧
      M'.params = env ∧ List.Forall₂ (Fin' G L g env) M0.elems M'.elems := by
    intro n m env hn
    obtain ⟨M0, M', h1, h2, _, h4, h5⟩ := hx.done n ((hi.dom n).2 (by rw [hn]; rfl)) (by simp) m env hn
    exact ⟨M0, M', h1, h2, h4, h5⟩
  have hdevice : ∀ m M e, L.lookup m = some M → e ∈ M.elems → L.lookup e.model = none → (leaves G st.lib).lookup e.model = none := by
    intro m M e hM he hn
    rw [lookup_leaves, device_none hs hi hM he hn]; rfl
  have pairL : ∀ {R : Inst → Inst → Prop} {l l' : List Inst}, List.Forall₂ R l l' → ∀ b ∈ l', ∃ a ∈ l, R a b := by
    intro R l l' hf b hb
    obtain ⟨j, hj⟩ := List.mem_iff_getElem?.mp hb
    obtain ⟨a, ha, hr⟩ := forall₂_get hf hj
    exact ⟨a, List.mem_of_getElem? ha, hr⟩
  have pairR : ∀ {R : Inst → Inst → Prop} {l l' : List Inst}, List.Forall₂ R l l' → ∀ a ∈ l, ∃ b ∈ l', R a b := by
    intro R l l' hf a ha
    exact (pairL (R := fun x y => R y x) hf.flip a ha)
  -- from the result to the netlist
  have hAt : ∀ q M, At (leaves G st.lib) new q M → ∃ n m env, g n = some (m, env) ∧ (leaves G st.lib).lookup n = some M ∧
      ∃ M0, L.lookup m = some M0 ∧ Inside G L new q M0 env := by
    intro q M hq
    induction hq with
    | top hM => exact ⟨new, new, _, hg, hM, T, hT, Inside.top hT (bound_iff.mpr rfl)⟩
    | @step p M1 M2 e hp he hM ih =>
      obtain ⟨n, m, env, h1, h2, M0, h3, h4⟩ := ih
      obtain ⟨M0', M', c1, c2, c3, c4⟩ := hcomp n m env h1
      rw [h3] at c1
      cases c1
      rw [lookup_leaves, c2, Option.map_some, Option.some.injEq] at h2
      subst h2
      simp only [List.mem_map] at he
      obtain ⟨e', he', rfl⟩ := he
      obtain ⟨e0, he0, hf⟩ := pairL c4 e' he'
      simp only at hM ⊢
      rcases hf with ⟨f1, rfl⟩ | ⟨MM, f1, f2, f3, f4, f5⟩
      · rw [hdevice m M0 e' h3 he0 f1] at hM; cases hM
      · refine ⟨e'.model, _, _, f5, hM, MM, f1, ?_⟩
        rw [f2]
        exact Inside.step h4 he0 f1 (values_iff.mpr rfl) (bound_iff.mpr rfl)
  -- and back
  have hIn : ∀ q M0 env, Inside G L new q M0 env → ∃ n m M, g n = some (m, env) ∧ L.lookup m = some M0 ∧
      (leaves G st.lib).lookup n = some M ∧ At (leaves G st.lib) new q M := by
    intro q M0 env hq
    induction hq with
    | @top M env hM hb =>
      obtain ⟨_, M', _, c2, _⟩ := hcomp _ _ _ hg
      rw [hT] at hM
      cases hM
      have := bound_iff.mp hb
      subst this
      obtain ⟨M4, hl⟩ : ∃ M4, (leaves G st.lib).lookup new = some M4 := ⟨_, by rw [lookup_leaves, c2]; rfl⟩
      exact ⟨new, new, _, hg, hT, hl, At.top hl⟩
    | @step p M1 M2 env given env' e hp he hM hgiven hb ih =>
      obtain ⟨n, m, M, h1, h2, h3, h4⟩ := ih
      obtain ⟨M0', M', c1, c2, c3, c4⟩ := hcomp n m env h1
      rw [h2] at c1
      cases c1
      rw [lookup_leaves, c2, Option.map_some, Option.some.injEq] at h3
      subst h3
      obtain ⟨e', he', hf⟩ := pairR c4 e he
      rcases hf with ⟨f1, rfl⟩ | ⟨MM, f1, f2, f3, f4, f5⟩
      · rw [hM] at f1; cases f1
      · rw [hM] at f1
        cases f1
        have := values_iff.mp hgiven
        subst this
        have := bound_iff.mp hb
        subst this
        obtain ⟨_, M3, _, d2, _⟩ := hcomp _ _ _ f5
        obtain ⟨M4, hl⟩ : ∃ M4, (leaves G st.lib).lookup e'.model = some M4 := ⟨_, by rw [lookup_leaves, d2]; rfl⟩
        refine ⟨e'.model, e.model, _, f5, hM, hl, ?_⟩
        rw [← f2]
        exact At.step (e := { e' with params := vals G M'.params e'.params }) h4 (List.mem_map.mpr ⟨e', he', rfl⟩) hl
  intro p d
  constructor
  · rintro ⟨q, M, hq, hd, hn, rfl⟩
    obtain ⟨n, m, env, h1, h2, M0, h3, h4⟩ := hAt q M hq
    obtain ⟨M0', M', c1, c2, c3, c4⟩ := hcomp n m env h1
    rw [h3] at c1
    cases c1
    rw [lookup_leaves, c2, Option.map_some, Option.some.injEq] at h2
    subst h2
    simp only [List.mem_map] at hd
    obtain ⟨e', he', rfl⟩ := hd
    obtain ⟨e0, he0, hf⟩ := pairL c4 e' he'
    rcases hf with ⟨f1, rfl⟩ | ⟨MM, f1, f2, f3, f4, f5⟩
    · exact ⟨q, M0, env, e', h4, he0, f1, rfl, rfl, rfl, rfl, values_iff.mpr (by rw [c3])⟩
    · obtain ⟨_, M3, _, d2, _⟩ := hcomp _ _ _ f5
      simp only at hn
      rw [lookup_leaves, d2] at hn
      cases hn
  · rintro ⟨q, M0, env, d0, hq, hd0, hn, rfl, n1, n2, n3, n4⟩
    obtain ⟨n, m, M, h1, h2, h3, h4⟩ := hIn q M0 env hq
    obtain ⟨M0', M', c1, c2, c3, c4⟩ := hcomp n m env h1
    rw [h2] at c1
    cases c1
    rw [lookup_leaves, c2, Option.map_some, Option.some.injEq] at h3
    subst h3
    obtain ⟨e', he', hf⟩ := pairR c4 d0 hd0
    rcases hf with ⟨f1, rfl⟩ | ⟨MM, f1, _⟩
    · obtain rfl : d = { e' with params := vals G M'.params e'.params } := by
        cases d
        simp only at n1 n2 n3 n4
        rw [n1, n2, n3, values_iff.mp n4, c3]
      refine ⟨q, _, h4, List.mem_map.mpr ⟨e', he', rfl⟩, ?_, rfl⟩
      exact hdevice m M0 e' h2 hd0 hn
    · rw [hn] at f1; cases f1

/-! ### A case with three levels -/

/-- A list of names and parameters that has the top and what follows from its members has all occurrences. -/
theorem occ_mem {S : List (String × Params)} (h0 : ∀ M, L.lookup top = some M → (top, override M.params G) ∈ S)
    (h1 : ∀ x ∈ S, ∀ y ∈ L, y.1 = x.1 → ∀ e ∈ y.2.elems, ∀ z ∈ L, z.1 = e.model → (e.model, override z.2.params (vals G x.2 e.params)) ∈ S)
    {p : List String} {m : String} {env : Params} (h : Occ G L top p m env) : (m, env) ∈ S := by
  induction h with
  | top hM hb => rw [bound_iff.mp hb]; exact h0 _ hM
  | step _ hM he hM' hv hb ih =>
    rw [bound_iff.mp hb, values_iff.mp hv]
    exact h1 _ ih _ (mem_of_lookup hM) rfl _ he _ (mem_of_lookup hM') rfl

/-- `A` occurs with two parameters; `B` in it is given the global `X` by both. -/
def steadyLib : Lib :=
  [("T", ⟨"t", [], [⟨"X1", "A", [("P", "x")], [("W", "1")]⟩, ⟨"X2", "A", [("P", "x")], [("W", "2")]⟩, ⟨"X3", "B", [("P", "x")], [("W", "3")]⟩]⟩),
   ("A", ⟨"a", [("W", "7")], [⟨"M0", "N", [("D", "P")], [("W", "W")]⟩, ⟨"X0", "B", [("P", "P")], [("W", "X")]⟩]⟩),
   ("B", ⟨"b", [("W", "8")], [⟨"M1", "N", [("D", "P")], [("W", "W")]⟩]⟩)]

set_option synthInstance.maxSize 2000 in
theorem steadyLib_steady : Steady [("X", "9")] steadyLib "T" := by
  have hocc : ∀ {p m env}, Occ [("X", "9")] steadyLib "T" p m env → (m, env) ∈
      [("T", []), ("A", [("W", "1")]), ("A", [("W", "2")]), ("B", [("W", "9")]), ("B", [("W", "3")])] := by
    intro p m env
    apply occ_mem
    · intro M hM
      have : M = ⟨"t", [], [⟨"X1", "A", [("P", "x")], [("W", "1")]⟩, ⟨"X2", "A", [("P", "x")], [("W", "2")]⟩, ⟨"X3", "B", [("P", "x")], [("W", "3")]⟩]⟩ := by
        have : steadyLib.lookup "T" = some ⟨"t", [], [⟨"X1", "A", [("P", "x")], [("W", "1")]⟩, ⟨"X2", "A", [("P", "x")], [("W", "2")]⟩, ⟨"X3", "B", [("P", "x")], [("W", "3")]⟩]⟩ := rfl
        rw [this] at hM
        cases hM
        rfl
      subst this
      decide +kernel
    · decide +kernel
  constructor
  · intro n M hM
    have key : ∀ f ∈ steadyLib, (f.2.params.map Prod.fst).Nodup := by decide +kernel
    exact key _ (mem_of_lookup hM)
  · exact names_of_plain (by decide +kernel)
  · intro p p' m env env' h h' hne M hM e he hsome given hg
    have key : ∀ x ∈ [("T", ([] : Params)), ("A", [("W", "1")]), ("A", [("W", "2")]), ("B", [("W", "9")]), ("B", [("W", "3")])],
        ∀ y ∈ [("T", ([] : Params)), ("A", [("W", "1")]), ("A", [("W", "2")]), ("B", [("W", "9")]), ("B", [("W", "3")])],
        x.1 = y.1 → x.2 ≠ y.2 → ∀ f ∈ steadyLib, f.1 = x.1 → ∀ e ∈ f.2.elems, (steadyLib.lookup e.model).isSome →
        vals [("X", "9")] x.2 e.params = vals [("X", "9")] y.2 e.params ∧
        vals [("X", "9")] x.2 e.params = vals [("X", "9")] y.2 (vals [("X", "9")] x.2 e.params) := by decide +kernel
    have := key _ (hocc h) _ (hocc h') rfl hne _ (mem_of_lookup hM) rfl e he hsome
    rw [values_iff.mp hg, values_iff, values_iff]
    exact this
  · intro p m env M h hM e he M' hM' p' env' h' q hq hl
    have key : ∀ f ∈ steadyLib, ∀ e ∈ f.2.elems, ∀ f' ∈ steadyLib, f'.1 = e.model →
        ∀ x ∈ [("T", ([] : Params)), ("A", [("W", "1")]), ("A", [("W", "2")]), ("B", [("W", "9")]), ("B", [("W", "3")])],
        x.1 = e.model → ∀ q ∈ x.2, e.params.lookup q.1 = none → q ∈ f'.2.params := by decide +kernel
    exact key _ (mem_of_lookup hM) e he _ (mem_of_lookup hM') rfl _ (hocc h') rfl q hq hl

theorem steadyLib_read : read [("X", "9")] 5 5 steadyLib "T" =
    some [("T", ⟨"t", [], [⟨"X1", "A", [("P", "x")], [("W", "1")]⟩, ⟨"X2", "A_1", [("P", "x")], [("W", "2")]⟩, ⟨"X3", "B_1", [("P", "x")], [("W", "3")]⟩]⟩),
   ("A", ⟨"a", [("W", "1")], [⟨"M0", "N", [("D", "P")], [("W", "1")]⟩, ⟨"X0", "B", [("P", "P")], [("W", "9")]⟩]⟩),
   ("B", ⟨"b", [("W", "9")], [⟨"M1", "N", [("D", "P")], [("W", "9")]⟩]⟩),
   ("A_1", ⟨"a", [("W", "2")], [⟨"M0", "N", [("D", "P")], [("W", "2")]⟩, ⟨"X0", "B", [("P", "P")], [("W", "9")]⟩]⟩),
   ("B_1", ⟨"b", [("W", "3")], [⟨"M1", "N", [("D", "P")], [("W", "3")]⟩]⟩)] := by decide +kernel

example : ∃ L', read [("X", "9")] 5 5 steadyLib "T" = some L' ∧ C46_statement [("X", "9")] steadyLib "T" L' :=
  ⟨_, steadyLib_read, C46_steady_partial steadyLib_steady steadyLib_read⟩

/-! ### Parameters that are not given -/

/-- The second instance of `A` does not give `W`. -/
def defaultLib : Lib :=
  [("T", ⟨"t", [], [⟨"X1", "A", [("P", "x")], [("W", "1")]⟩, ⟨"X2", "A", [("P", "x")], []⟩]⟩),
   ("A", ⟨"a", [("W", "7")], [⟨"M1", "N", [("D", "P")], [("W", "W")]⟩]⟩)]

def defaultOut : Lib :=
  [("T", ⟨"t", [], [⟨"X1", "A", [("P", "x")], [("W", "1")]⟩, ⟨"X2", "A", [("P", "x")], []⟩]⟩),
   ("A", ⟨"a", [("W", "1")], [⟨"M1", "N", [("D", "P")], [("W", "1")]⟩]⟩)]

theorem default_read : read [] 5 5 defaultLib "T" = some defaultOut := by decide +kernel

/-- **C46 is violated.**  An instance that does not give a parameter gets the value that the first instance gave, not the default. -/
theorem C46_violated_default : ∃ (L L' : Lib) (top : String), read [] 5 5 L top = some L' ∧ ¬ C46_statement [] L top L' := by
  refine ⟨defaultLib, defaultOut, "T", default_read, fun h => ?_⟩
  have hv : DevVal [] defaultLib "T" ["X2", "M1"] ⟨"M1", "N", [("D", "P")], [("W", "7")]⟩ := by
    refine ⟨["X2"], ⟨"a", [("W", "7")], [⟨"M1", "N", [("D", "P")], [("W", "W")]⟩]⟩, [("W", "7")],
      ⟨"M1", "N", [("D", "P")], [("W", "W")]⟩, ?_, by simp, by decide +kernel, rfl, rfl, rfl, rfl,
      values_iff.mpr (by decide +kernel)⟩
    have h0 := Inside.top (G := []) (L := defaultLib) (top := "T") (rfl : defaultLib.lookup "T" = some _)
      (bound_iff.mpr rfl)
    exact Inside.step (e := ⟨"X2", "A", [("P", "x")], []⟩) h0 (by simp)
      (by decide +kernel : defaultLib.lookup "A" = some ⟨"a", [("W", "7")], [⟨"M1", "N", [("D", "P")], [("W", "W")]⟩]⟩)
      (values_iff.mpr rfl) (bound_iff.mpr rfl)
  obtain ⟨q, M, hq, hd, _, hp⟩ := (h _ _).mpr hv
  obtain ⟨rfl, _⟩ : ["X2"] = q ∧ _ := List.append_inj' (s₁ := ["X2"]) (t₁ := ["M1"]) hp rfl
  obtain ⟨M1, e, h1, h2, h3, h4⟩ := At.snoc (p := []) hq
  have hm := mem_of_lookup h4
  have : ∀ f ∈ defaultOut, (⟨"M1", "N", [("D", "P")], [("W", "7")]⟩ : Inst) ∉ f.2.elems := by decide +kernel
  exact this _ hm hd

end

end Verif.Pre.Params

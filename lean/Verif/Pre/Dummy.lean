import Mathlib.Data.List.Basic
import Mathlib.Data.List.Nodup
import Mathlib.Data.List.Perm.Basic
import Mathlib.Tactic.Tauto
import Verif.Pre.Parallel

/-!
# C45: removing single-element subcircuits

Model of `find_dummy_hier` and `remove_dummies` (`align/compiler/preprocess.py`, 77-144) with the prefix validator of
`Instance` (`align/schema/instance.py`, 61-68).

Simplifications: the library is the list of its subcircuits by name (models that are no subcircuit are devices), names are
distinct and in upper case, and instances of one subcircuit have distinct names, so that a dictionary by instance name is a
list.  The order of the set of models (`all_subckts`, 133 and 141) is a parameter.
A failed assertion or validator and a missing key are `none`.
-/

namespace Verif.Pre.Dummy

structure Inst where
  name : String
  model : String
  pins : List (String × String)
  params : List (String × String)
  deriving DecidableEq

abbrev Lib := List (String × List Inst)

/-- The elements of a subcircuit; none for a device. -/
def mod (L : Lib) (m : String) : Option (List Inst) := L.lookup m

/-- `y.parameters[k] = v` for the parameters of the instance that the element also has (102-104). -/
def setParams (y e : List (String × String)) : List (String × String) :=
  y.map fun kv => match e.lookup kv.1 with
    | some v => (kv.1, v)
    | none => kv

def prefixed (pre : String → String) (name model : String) : Bool := (pre model).toList.isPrefixOf name.toList

/-- Lines 96-117 for one instance `x` of the subcircuit with the element `y`; the state is the list of elements and the
parameters of `y`, which the code overwrites. -/
def replaceInst (pre : String → String) (y : Inst) (st : List Inst × List (String × String)) (x : Inst) :
    Option (List Inst × List (String × String)) :=
  (y.pins.mapM fun pn => (x.pins.lookup pn.2).map fun n => (pn.1, n)).bind fun pins =>
    if prefixed pre x.name y.model then
      some ((st.1 ++ [(⟨x.name, y.model, pins, setParams st.2 x.params⟩ : Inst)]).erase x, setParams st.2 x.params)
    else none

/-- Lines 86-117 for one other subcircuit. -/
def replaceIn (pre : String → String) (y : Inst) (dh : String) (es : List Inst) (ps : List (String × String)) :
    Option (List Inst × List (String × String)) :=
  (es.filter fun i => i.model = dh).foldlM (replaceInst pre y) (es, ps)

/-- Lines 85-117: all other subcircuits in turn. -/
def replaceAll (pre : String → String) (y : Inst) (dh : String) :
    Lib → List (String × String) → Option Lib
  | [], _ => some []
  | (m, es) :: L, ps =>
    if m = dh then replaceAll pre y dh L ps
    else (replaceIn pre y dh es ps).bind fun r => (replaceAll pre y dh L r.2).map ((m, r.1) :: ·)

/-- Lines 78-128 for one name that is not the top. -/
def removeOne (pre : String → String) (L : Lib) (dh : String) : Option Lib :=
  match mod L dh with
  | some (y :: _) => replaceAll pre y dh L y.params
  | _ => none

/-- `remove_dummies` (77-128). -/
def removeDummies (pre : String → String) (top : String) : List String → Lib → Option Lib
  | [], L => some L
  | dh :: dhs, L => if dh = top then some L else (removeOne pre L dh).bind (removeDummies pre top dhs)

/-- `find_dummy_hier` (131-144); `fuel` bounds the depth of the hierarchy. -/
def findDummy (ord : List String → List String) (L : Lib) : Nat → String → List String → List String
  | 0, _, acc => acc
  | fuel + 1, ckt, acc =>
    match mod L ckt with
    | none => acc
    | some es =>
      let subs := ord (((es.map Inst.model).filter fun m => (mod L m).isSome).eraseDups)
      let acc' := (subs.filter fun m => decide (m ∉ acc)).foldl (fun a m => findDummy ord L fuel m a) acc
      if es.length = 1 then acc' ++ [ckt] else acc'

/-- The pass (lines 67-74). -/
def pass (pre : String → String) (ord : List String → List String) (fuel : Nat) (top : String) (L : Lib) : Option Lib :=
  removeDummies pre top (findDummy ord L fuel top []) L

/-! ## Specification -/

/-- `c` is the list of instances, innermost first, that leads from the top to an occurrence of model `m`. -/
inductive Ctx (L : Lib) (top : String) : List Inst → String → Prop
  | top : Ctx L top [] top
  | step {c : List Inst} {m : String} {es : List Inst} {i : Inst} :
      Ctx L top c m → mod L m = some es → i ∈ es → Ctx L top (i :: c) i.model

/-- An occurrence of a device: the device and the instances around it, innermost first. -/
def IsDev (L : Lib) (top : String) (o : List Inst) : Prop := o ≠ [] ∧ ∃ m, Ctx L top o m ∧ mod L m = none

/-- The net of the flat circuit for net `n` inside the given instances: follow the ports outwards. -/
def resolve : List Inst → String → List Inst × String
  | [], n => ([], n)
  | i :: c, n => match i.pins.lookup n with
    | some m => resolve c m
    | none => (i :: c, n)

/-- The flat net a pin of an occurrence is connected to. -/
def netOf : List Inst → String → Option (List Inst × String)
  | [], _ => none
  | e :: c, p => (e.pins.lookup p).map (resolve c)

/-- The two designs have the same devices with the same parameters and the same connections, also to the nets of the top. -/
structure SameBy (L : Lib) (top : String) (L' : Lib) (f : List Inst → List Inst) : Prop where
  maps : ∀ o, IsDev L top o → IsDev L' top (f o)
  inj : ∀ o₁ o₂, IsDev L top o₁ → IsDev L top o₂ → f o₁ = f o₂ → o₁ = o₂
  surj : ∀ o', IsDev L' top o' → ∃ o, IsDev L top o ∧ f o = o'
  dev : ∀ o, IsDev L top o → ∀ e ∈ o.head?, ∃ e' ∈ (f o).head?,
    e'.model = e.model ∧ e'.params = e.params ∧ e'.pins.map Prod.fst = e.pins.map Prod.fst
  nets : ∀ o₁ o₂, IsDev L top o₁ → IsDev L top o₂ → ∀ p₁ p₂,
    (netOf (f o₁) p₁ = netOf (f o₂) p₂ ↔ netOf o₁ p₁ = netOf o₂ p₂)
  topNets : ∀ o, IsDev L top o → ∀ p n, (netOf (f o) p = some ([], n) ↔ netOf o p = some ([], n))

def Same (L : Lib) (top : String) (L' : Lib) : Prop := ∃ f, SameBy L top L' f

/-- The element found by descending through subcircuits with a single element. -/
inductive Below (L : Lib) : Inst → Inst → Prop
  | one {x y : Inst} : mod L x.model = some [y] → Below L x y
  | next {x y z : Inst} : mod L x.model = some [y] → Below L y z → Below L x z

/-- Parameters both have are equal. -/
def AgreeOn (x y : Inst) : Prop := ∀ k v w, x.params.lookup k = some v → (k, w) ∈ y.params → v = w

structure Good (L : Lib) : Prop where
  names : ∀ m es, mod L m = some es → (es.map Inst.name).Nodup
  acyclic : ∃ rank : String → Nat, ∀ m es e, mod L m = some es → e ∈ es → (mod L e.model).isSome → rank e.model < rank m
  agree : ∀ m es x, mod L m = some es → x ∈ es → ∀ y, Below L x y → AgreeOn x y

/-! ## One replacement -/

/-- The instance in place of the instance `x` of a subcircuit with the element `y`. -/
def merge (y x : Inst) : Inst :=
  ⟨x.name, y.model, y.pins.map fun pn => (pn.1, (x.pins.lookup pn.2).getD ""), y.params⟩

def repl (y : Inst) (dh : String) (e : Inst) : Inst := if e.model = dh then merge y e else e

/-- All nets of the element are ports of the instance. -/
def Ported (y x : Inst) : Prop := ∀ pn ∈ y.pins, (x.pins.lookup pn.2).isSome

theorem setParams_agree {x y : Inst} (h : AgreeOn x y) : setParams y.params x.params = y.params := by
  unfold setParams
  conv_rhs => rw [← List.map_id y.params]
  apply List.map_congr_left
  intro kv hkv
  split
  · rename_i v hv
    have := h kv.1 v kv.2 hv hkv
    rw [this]; rfl
  · rfl

theorem mapM_pins {y x : Inst} {r : List (String × String)}
    (h : (y.pins.mapM fun pn => (x.pins.lookup pn.2).map fun n => (pn.1, n)) = some r) :
    r = (merge y x).pins ∧ Ported y x := by
  unfold Ported merge
  simp only
  generalize y.pins = l at h ⊢
  induction l generalizing r with
  | nil =>
    simp only [List.mapM_nil, Option.pure_def, Option.some.injEq] at h
    subst h
    simp
  | cons a l ih =>
    rw [List.mapM_cons] at h
    simp only [Option.bind_eq_bind, Option.bind_eq_some_iff, Option.pure_def, Option.some.injEq,
      Option.map_eq_some_iff] at h
    obtain ⟨b, ⟨n, hn, rfl⟩, c, h2, rfl⟩ := h
    obtain ⟨g1, g2⟩ := ih h2
    subst g1
    refine ⟨by rw [List.map_cons, hn]; rfl, ?_⟩
    intro pn hpn
    rcases List.mem_cons.mp hpn with rfl | hpn
    · rw [hn]; rfl
    · exact g2 pn hpn

theorem mapM_pins_some {y x : Inst} (h : Ported y x) :
    (y.pins.mapM fun pn => (x.pins.lookup pn.2).map fun n => (pn.1, n)) = some (merge y x).pins := by
  unfold Ported at h
  unfold merge
  simp only
  generalize y.pins = l at h ⊢
  induction l with
  | nil => rfl
  | cons a l ih =>
    rw [List.mapM_cons, ih fun pn hpn => h pn (List.mem_cons_of_mem _ hpn)]
    obtain ⟨n, hn⟩ := Option.isSome_iff_exists.mp (h a List.mem_cons_self)
    rw [hn]
    simp [hn]

theorem replaceIn_perm {pre : String → String} {y : Inst} {dh : String} {es es' : List Inst}
    {ps : List (String × String)} (hy : y.model ≠ dh) (hag : ∀ x ∈ es, x.model = dh → AgreeOn x y)
    (h : replaceIn pre y dh es y.params = some (es', ps)) :
    es'.Perm (es.map (repl y dh)) ∧ ps = y.params ∧ ∀ x ∈ es, x.model = dh → Ported y x := by
  unfold replaceIn at h
  -- the fold, with the elements already treated
  have key : ∀ (xs : List Inst) (cur r : List Inst × List (String × String)), cur.2 = y.params →
      (∀ x ∈ xs, AgreeOn x y ∧ x.model = dh) → xs.foldlM (replaceInst pre y) cur = some r →
      ∀ rest, cur.1.Perm (xs ++ rest) → r.1.Perm (xs.map (merge y) ++ rest) ∧ r.2 = y.params ∧ ∀ x ∈ xs, Ported y x := by
    intro xs
    induction xs with
    | nil =>
      intro cur r hc _ hr rest hp
      simp only [List.foldlM_nil, Option.pure_def, Option.some.injEq] at hr
      subst hr
      exact ⟨hp, hc, by simp⟩
    | cons x xs ih =>
      intro cur r hc hx hr rest hp
      rw [List.foldlM_cons, Option.bind_eq_bind, Option.bind_eq_some_iff] at hr
      obtain ⟨mid, h1, h2⟩ := hr
      unfold replaceInst at h1
      rw [Option.bind_eq_some_iff] at h1
      obtain ⟨pins, h3, h4⟩ := h1
      obtain ⟨g1, g2⟩ := mapM_pins h3
      split at h4
      · simp only [Option.some.injEq] at h4
        have hset : setParams cur.2 x.params = y.params := by
          rw [hc]; exact setParams_agree (hx x List.mem_cons_self).1
        have hnew : (⟨x.name, y.model, pins, setParams cur.2 x.params⟩ : Inst) = merge y x := by
          rw [hset, g1]; rfl
        rw [hset] at hnew
        rw [hset, hnew] at h4
        subst h4
        have hp' : ((cur.1 ++ [merge y x]).erase x).Perm (xs ++ (merge y x :: rest)) := by
          have e1 : (cur.1 ++ [merge y x]).Perm (x :: (xs ++ (merge y x :: rest))) := by
            refine (hp.append_right _).trans ?_
            simp only [List.cons_append]
            refine List.Perm.cons x ?_
            rw [List.append_assoc]
            refine List.Perm.append_left xs ?_
            exact List.perm_append_comm
          have := e1.erase x
          rwa [List.erase_cons_head] at this
        obtain ⟨k1, k2, k3⟩ := ih _ r rfl (fun z hz => hx z (List.mem_cons_of_mem _ hz)) h2 _ hp'
        refine ⟨k1.trans ?_, k2, ?_⟩
        · rw [List.map_cons, List.cons_append]
          exact List.perm_middle
        · intro z hz
          rcases List.mem_cons.mp hz with rfl | hz
          · exact g2
          · exact k3 z hz
      · cases h4
  have hsplit : es.Perm ((es.filter fun i => i.model = dh) ++ es.filter fun i => !decide (i.model = dh)) :=
    (List.filter_append_perm (fun i : Inst => decide (i.model = dh)) es).symm
  obtain ⟨k1, k2, k3⟩ := key _ _ _ rfl (fun x hx => by
    obtain ⟨h1, h2⟩ := List.mem_filter.mp hx
    have h2 : x.model = dh := by simpa using h2
    exact ⟨hag x h1 h2, h2⟩) h _ hsplit
  refine ⟨k1.trans ?_, k2, fun x hx hm => k3 x (List.mem_filter.mpr ⟨hx, by simpa using hm⟩)⟩
  have := hsplit.map (repl y dh)
  refine List.Perm.trans ?_ this.symm
  rw [List.map_append]
  apply List.Perm.of_eq
  congr 1
  · apply List.map_congr_left
    intro x hx
    have : x.model = dh := by simpa using (List.mem_filter.mp hx).2
    simp [repl, this]
  · conv_lhs => rw [← List.map_id (es.filter fun i => !decide (i.model = dh))]
    apply List.map_congr_left
    intro x hx
    have : x.model ≠ dh := by simpa using (List.mem_filter.mp hx).2
    simp [repl, this]

theorem replaceAll_mod {pre : String → String} {y : Inst} {dh : String} (hy : y.model ≠ dh) {L L' : Lib}
    (hnd : (L.map Prod.fst).Nodup)
    (hag : ∀ m es, mod L m = some es → ∀ x ∈ es, x.model = dh → AgreeOn x y)
    (h : replaceAll pre y dh L y.params = some L') :
    (L'.map Prod.fst = (L.map Prod.fst).filter fun m => m ≠ dh) ∧ mod L' dh = none ∧
    ∀ m, m ≠ dh → (mod L m = none → mod L' m = none) ∧ ∀ es, mod L m = some es →
      ∃ es', mod L' m = some es' ∧ es'.Perm (es.map (repl y dh)) ∧ ∀ x ∈ es, x.model = dh → Ported y x := by
  induction L generalizing L' with
  | nil =>
    simp only [replaceAll, Option.some.injEq] at h
    subst h
    simp [mod]
  | cons a L ih =>
    obtain ⟨m0, es0⟩ := a
    rw [List.map_cons, List.nodup_cons] at hnd
    have htail : ∀ m es, mod L m = some es → mod ((m0, es0) :: L) m = some es := by
      intro m es hm
      have : m ≠ m0 := by
        rintro rfl
        apply hnd.1
        unfold mod at hm
        clear ih h hag hnd
        induction L with
        | nil => simp at hm
        | cons b L ih =>
          obtain ⟨b1, b2⟩ := b
          rw [List.lookup_cons] at hm
          by_cases hb : m = b1
          · simp [hb]
          · have : (m == b1) = false := by simpa using hb
            rw [this] at hm
            exact List.mem_cons_of_mem _ (ih hm)
      unfold mod
      rw [List.lookup_cons]
      have : (m == m0) = false := by simpa using this
      rw [this]
      exact hm
    have hag' : ∀ m es, mod L m = some es → ∀ x ∈ es, x.model = dh → AgreeOn x y :=
      fun m es hm => hag m es (htail m es hm)
    unfold replaceAll at h
    split at h
    · rename_i hm0
      obtain ⟨i1, i2, i3⟩ := ih hnd.2 hag' h
      refine ⟨?_, i2, ?_⟩
      · rw [List.map_cons, List.filter_cons_of_neg (by simpa using hm0)]; exact i1
      · intro m hm
        have hne : (m == m0) = false := by simpa using fun h => hm (h.trans hm0)
        have : mod ((m0, es0) :: L) m = mod L m := by unfold mod; rw [List.lookup_cons, hne]
        rw [this]
        exact i3 m hm
    · rename_i hm0
      simp only [Option.bind_eq_some_iff, Option.map_eq_some_iff] at h
      obtain ⟨⟨es', ps⟩, h1, L1, h2, rfl⟩ := h
      obtain ⟨p1, p2, p3⟩ := replaceIn_perm hy (hag m0 es0 (by unfold mod; rw [List.lookup_cons]; simp)) h1
      simp only at h2
      rw [p2] at h2
      obtain ⟨i1, i2, i3⟩ := ih hnd.2 hag' h2
      have hcons : ∀ m, m ≠ m0 → mod ((m0, es') :: L1) m = mod L1 m := by
        intro m hm
        have hne : (m == m0) = false := by simpa using hm
        unfold mod; rw [List.lookup_cons, hne]
      have hcons2 : ∀ m, m ≠ m0 → mod ((m0, es0) :: L) m = mod L m := by
        intro m hm
        have hne : (m == m0) = false := by simpa using hm
        unfold mod; rw [List.lookup_cons, hne]
      refine ⟨?_, ?_, ?_⟩
      · rw [List.map_cons, List.map_cons, List.filter_cons_of_pos (by simpa using hm0), i1]
      · rw [hcons dh (Ne.symm hm0)]; exact i2
      · intro m hm
        by_cases hmm : m = m0
        · subst hmm
          have e1 : mod ((m, es0) :: L) m = some es0 := by unfold mod; rw [List.lookup_cons]; simp
          have e2 : mod ((m, es') :: L1) m = some es' := by unfold mod; rw [List.lookup_cons]; simp
          refine ⟨fun h => by (rw [e1] at h; cases h), ?_⟩
          intro es he
          rw [e1] at he
          simp only [Option.some.injEq] at he
          subst he
          exact ⟨es', e2, p1, p3⟩
        · rw [hcons m hmm, hcons2 m hmm]
          exact i3 m hm

/-! ## The design after one replacement -/

/-- `L'` is `L` with instances of `dh`, whose single element is `y`, replaced. -/
structure Rep (L L' : Lib) (y : Inst) (dh : String) : Prop where
  single : mod L dh = some [y]
  gone : mod L' dh = none
  ne : y.model ≠ dh
  devs : ∀ m, mod L m = none → mod L' m = none
  mods : ∀ m es, m ≠ dh → mod L m = some es → ∃ es', mod L' m = some es' ∧ es'.Perm (es.map (repl y dh))
  ported : ∀ m es x, m ≠ dh → mod L m = some es → x ∈ es → x.model = dh → Ported y x

/-- The occurrence in the new design. -/
def collapse (y : Inst) (dh : String) : List Inst → List Inst
  | [] => []
  | [e] => [e]
  | e :: x :: c => if x.model = dh then merge y x :: collapse y dh c else e :: collapse y dh (x :: c)

variable {L L' : Lib} {y : Inst} {dh top : String}

theorem Ctx.model_eq {c : List Inst} {m m' : String} (h : Ctx L top c m) (h' : Ctx L top c m') : m = m' := by
  cases h with
  | top => cases h'; rfl
  | step => cases h'; rfl

/-- The two shapes of an occurrence of a model other than `dh`. -/
theorem Ctx.shape (hr : Rep L L' y dh) (htop : top ≠ dh) {e : Inst} {c : List Inst} {m : String}
    (h : Ctx L top (e :: c) m) (hm : m ≠ dh) :
    (∃ m0 es, Ctx L top c m0 ∧ m0 ≠ dh ∧ mod L m0 = some es ∧ e ∈ es ∧ m = e.model ∧
        collapse y dh (e :: c) = e :: collapse y dh c) ∨
    (∃ x c1 m1 es, c = x :: c1 ∧ e = y ∧ x.model = dh ∧ Ctx L top c1 m1 ∧ m1 ≠ dh ∧ mod L m1 = some es ∧ x ∈ es ∧
        m = y.model ∧ collapse y dh (e :: c) = merge y x :: collapse y dh c1) := by
  cases h with
  | @step _ m0 es _ h1 h2 h3 =>
    by_cases h0 : m0 = dh
    · right
      subst h0
      rw [hr.single] at h2
      simp only [Option.some.injEq] at h2
      subst h2
      simp only [List.mem_singleton] at h3
      subst h3
      cases c with
      | nil => cases h1; exact absurd rfl htop
      | cons x c1 =>
        cases h1 with
        | @step _ m1 es1 _ g1 g2 g3 =>
          refine ⟨x, c1, m1, es1, rfl, rfl, rfl, g1, ?_, g2, g3, rfl, ?_⟩
          · intro h
            rw [h, hr.single] at g2
            simp only [Option.some.injEq] at g2
            subst g2
            simp only [List.mem_singleton] at g3
            exact hm (by rw [← g3])
          · rw [collapse, if_pos rfl]
    · left
      refine ⟨m0, es, h1, h0, h2, h3, rfl, ?_⟩
      cases c with
      | nil => rfl
      | cons x c1 =>
        cases h1 with
        | step => rw [collapse, if_neg h0]

theorem collapse_ctx (hr : Rep L L' y dh) (htop : top ≠ dh) :
    ∀ (n : Nat) (c : List Inst) (m : String), c.length ≤ n → Ctx L top c m → m ≠ dh → Ctx L' top (collapse y dh c) m := by
  intro n
  induction n with
  | zero =>
    intro c m hc h _
    have : c = [] := List.length_eq_zero_iff.mp (by omega)
    subst this
    cases h
    exact .top
  | succ n ih =>
    intro c m hc h hm
    cases c with
    | nil => cases h; exact .top
    | cons e c =>
      rcases h.shape hr htop hm with ⟨m0, es, h1, h2, h3, h4, h5, h6⟩ | ⟨x, c1, m1, es, h1, h2, h3, h4, h5, h6, h7, h8, h9⟩
      · rw [h6, h5]
        obtain ⟨es', g1, g2⟩ := hr.mods m0 es h2 h3
        refine .step (ih c m0 (by simpa using hc) h1 h2) g1 ?_
        rw [g2.mem_iff, List.mem_map]
        exact ⟨e, h4, by rw [repl, if_neg (by rw [← h5]; exact hm)]⟩
      · rw [h9, h8]
        obtain ⟨es', g1, g2⟩ := hr.mods m1 es h5 h6
        subst h1
        refine .step (i := merge y x) (ih c1 m1 (by simp only [List.length_cons] at hc; omega) h4 h5) g1 ?_
        rw [g2.mem_iff, List.mem_map]
        exact ⟨x, h7, by rw [repl, if_pos h3]⟩

/-- Every occurrence in the new design comes from one of the old design. -/
theorem collapse_surj (hr : Rep L L' y dh) (htop : top ≠ dh) {c' : List Inst} {m : String} (h : Ctx L' top c' m) :
    m ≠ dh ∧ ∃ c, Ctx L top c m ∧ collapse y dh c = c' := by
  induction h with
  | top => exact ⟨htop, [], .top, rfl⟩
  | @step c' m es' i h1 h2 h3 ih =>
    obtain ⟨hm, c, hc, rfl⟩ := ih
    cases hmod : mod L m with
    | none => rw [hr.devs m hmod] at h2; cases h2
    | some es =>
      obtain ⟨es'', g1, g2⟩ := hr.mods m es hm hmod
      rw [h2] at g1
      simp only [Option.some.injEq] at g1
      subst g1
      rw [g2.mem_iff, List.mem_map] at h3
      obtain ⟨e, he, rfl⟩ := h3
      by_cases hed : e.model = dh
      · rw [repl, if_pos hed]
        refine ⟨hr.ne, y :: e :: c, ?_, by rw [collapse, if_pos hed]⟩
        have h4 := Ctx.step hc hmod he
        rw [hed] at h4
        exact Ctx.step h4 hr.single List.mem_cons_self
      · rw [repl, if_neg hed]
        refine ⟨hed, e :: c, Ctx.step hc hmod he, ?_⟩
        cases c with
        | nil => rfl
        | cons x c1 =>
          cases hc with
          | step => rw [collapse, if_neg hm]

theorem collapse_inj (hn : ∀ m es, mod L m = some es → (es.map Inst.name).Nodup) (hr : Rep L L' y dh) (htop : top ≠ dh) :
    ∀ (n : Nat) (c d : List Inst) (m m' : String), c.length + d.length ≤ n → Ctx L top c m → Ctx L top d m' →
      m ≠ dh → m' ≠ dh → collapse y dh c = collapse y dh d → c = d := by
  have hcons : ∀ (e : Inst) (c : List Inst), collapse y dh (e :: c) ≠ [] := by
    intro e c
    cases c with
    | nil => simp [collapse]
    | cons x c => rw [collapse]; split <;> simp
  have inj : ∀ {m : String} {es : List Inst} {a b : Inst}, mod L m = some es → a ∈ es → b ∈ es → a.name = b.name → a = b :=
    fun h ha hb he => List.inj_on_of_nodup_map (hn _ _ h) ha hb he
  intro n
  induction n with
  | zero =>
    intro c d m m' hl _ _ _ _ _
    rw [List.length_eq_zero_iff.mp (show c.length = 0 by omega), List.length_eq_zero_iff.mp (show d.length = 0 by omega)]
  | succ n ih =>
    intro c d m m' hl hc hd hm hm' he
    cases c with
    | nil =>
      cases d with
      | nil => rfl
      | cons f d => exact absurd he.symm (hcons f d)
    | cons e c =>
      cases d with
      | nil => exact absurd he (hcons e c)
      | cons f d =>
        simp only [List.length_cons] at hl
        rcases hc.shape hr htop hm with ⟨m0, es, h1, h2, h3, h4, h5, h6⟩ | ⟨x, c1, m1, es, h1, h2, h3, h4, h5, h6, h7, h8, h9⟩
        · rcases hd.shape hr htop hm' with ⟨n0, fs, g1, g2, g3, g4, g5, g6⟩ | ⟨z, d1, n1, fs, g1, g2, g3, g4, g5, g6, g7, g8, g9⟩
          · rw [h6, g6, List.cons.injEq] at he
            rw [he.1, ih c d m0 n0 (by omega) h1 g1 h2 g2 he.2]
          · exfalso
            rw [h6, g9, List.cons.injEq] at he
            subst g1
            simp only [List.length_cons] at hl
            have hcd := ih c d1 m0 n1 (by omega) h1 g4 h2 g5 he.2
            subst hcd
            have := h1.model_eq g4
            subst this
            rw [h3] at g6
            simp only [Option.some.injEq] at g6
            subst g6
            have : e = z := inj h3 h4 g7 (by rw [he.1]; rfl)
            exact hm (by rw [h5, this]; exact g3)
        · subst h1
          simp only [List.length_cons] at hl
          rcases hd.shape hr htop hm' with ⟨n0, fs, g1, g2, g3, g4, g5, g6⟩ | ⟨z, d1, n1, fs, g1, g2, g3, g4, g5, g6, g7, g8, g9⟩
          · exfalso
            rw [h9, g6, List.cons.injEq] at he
            have hcd := ih c1 d m1 n0 (by omega) h4 g1 h5 g2 he.2
            subst hcd
            have := h4.model_eq g1
            subst this
            rw [h6] at g3
            simp only [Option.some.injEq] at g3
            subst g3
            have : f = x := inj h6 g4 h7 (by rw [← he.1]; rfl)
            exact hm' (by rw [g5, this]; exact h3)
          · subst g1
            simp only [List.length_cons] at hl
            rw [h9, g9, List.cons.injEq] at he
            have hcd := ih c1 d1 m1 n1 (by omega) h4 g4 h5 g5 he.2
            subst hcd
            have := h4.model_eq g4
            subst this
            rw [h6] at g6
            simp only [Option.some.injEq] at g6
            subst g6
            have : x = z := inj h6 h7 g7 (by have := congrArg Inst.name he.1; exact this)
            rw [h2, g2, this]

theorem lookup_merge {y x : Inst} (hp : Ported y x) (n : String) :
    (merge y x).pins.lookup n = (y.pins.lookup n).bind fun v => x.pins.lookup v := by
  unfold merge Ported at *
  simp only
  generalize y.pins = l at hp ⊢
  induction l with
  | nil => rfl
  | cons a l ih =>
    obtain ⟨a1, a2⟩ := a
    rw [List.map_cons, List.lookup_cons, List.lookup_cons]
    by_cases h : n = a1
    · subst h
      obtain ⟨w, hw⟩ := Option.isSome_iff_exists.mp (hp (n, a2) List.mem_cons_self)
      simp only at hw
      simp [hw]
    · have : (n == a1) = false := by simpa using h
      simp only [this]
      exact ih fun pn hpn => hp pn (List.mem_cons_of_mem _ hpn)

theorem lookup_isSome_ported {y x : Inst} (hp : Ported y x) {n v : String} (h : y.pins.lookup n = some v) :
    (x.pins.lookup v).isSome := by
  unfold Ported at hp
  generalize y.pins = l at hp h
  induction l with
  | nil => simp at h
  | cons a l ih =>
    obtain ⟨a1, a2⟩ := a
    rw [List.lookup_cons] at h
    by_cases hn : n = a1
    · subst hn
      simp only [beq_self_eq_true, Option.some.injEq] at h
      subst h
      exact hp (n, a2) List.mem_cons_self
    · have : (n == a1) = false := by simpa using hn
      simp only [this] at h
      exact ih (fun pn hpn => hp pn (List.mem_cons_of_mem _ hpn)) h

theorem resolve_cons (i : Inst) (c : List Inst) (n : String) :
    resolve (i :: c) n = ((i.pins.lookup n).map (resolve c)).getD (i :: c, n) := by
  rw [resolve]
  split
  · rename_i m h; rw [h]; rfl
  · rename_i h; rw [h]; rfl

/-- The flat net of the new design is the image of the one of the old design. -/
theorem resolve_collapse (hr : Rep L L' y dh) (htop : top ≠ dh) :
    ∀ (n : Nat) (c : List Inst) (m : String) (v : String), c.length ≤ n → Ctx L top c m → m ≠ dh →
      resolve (collapse y dh c) v = (collapse y dh (resolve c v).1, (resolve c v).2) ∧
      ∃ m', Ctx L top (resolve c v).1 m' ∧ m' ≠ dh := by
  intro n
  induction n with
  | zero =>
    intro c m v hc h hm
    have : c = [] := List.length_eq_zero_iff.mp (by omega)
    subst this
    exact ⟨rfl, m, h, hm⟩
  | succ n ih =>
    intro c m v hc h hm
    cases c with
    | nil => exact ⟨rfl, m, h, hm⟩
    | cons e c =>
      simp only [List.length_cons] at hc
      rcases h.shape hr htop hm with ⟨m0, es, h1, h2, h3, h4, h5, h6⟩ | ⟨x, c1, m1, es, h1, h2, h3, h4, h5, h6, h7, h8, h9⟩
      · rw [h6, resolve_cons, resolve_cons]
        cases hl : e.pins.lookup v with
        | none =>
          simp only [Option.map_none, Option.getD_none]
          exact ⟨by rw [h6], m, h, hm⟩
        | some w =>
          simp only [Option.map_some, Option.getD_some]
          exact ih c m0 w (by omega) h1 h2
      · subst h1
        simp only [List.length_cons] at hc
        have hpo := hr.ported m1 es x h5 h6 h7 h3
        rw [h9, resolve_cons, resolve_cons, lookup_merge hpo, h2]
        cases hl : y.pins.lookup v with
        | none =>
          simp only [Option.bind_none, Option.map_none, Option.getD_none]
          refine ⟨?_, m, by rw [← h2]; exact h, hm⟩
          rw [h2] at h9
          rw [h9]
        | some u =>
          obtain ⟨w, hw⟩ := Option.isSome_iff_exists.mp (lookup_isSome_ported hpo hl)
          simp only [Option.bind_some, hw, Option.map_some, Option.getD_some]
          rw [resolve_cons, hw]
          simp only [Option.map_some, Option.getD_some]
          exact ih c1 m1 w (by omega) h4 h5

/-- The pin of an occurrence and its net. -/
theorem netOf_collapse (hr : Rep L L' y dh) (htop : top ≠ dh) {c : List Inst} {m : String} (h : Ctx L top c m)
    (hm : m ≠ dh) (p : String) :
    netOf (collapse y dh c) p = (netOf c p).map (fun r => (collapse y dh r.1, r.2)) ∧
    ∀ r ∈ netOf c p, ∃ m', Ctx L top r.1 m' ∧ m' ≠ dh := by
  cases c with
  | nil => exact ⟨rfl, by simp [netOf]⟩
  | cons e c =>
    rcases h.shape hr htop hm with ⟨m0, es, h1, h2, h3, h4, h5, h6⟩ | ⟨x, c1, m1, es, h1, h2, h3, h4, h5, h6, h7, h8, h9⟩
    · rw [h6]
      simp only [netOf]
      cases hl : e.pins.lookup p with
      | none => simp
      | some w =>
        obtain ⟨k1, k2⟩ := resolve_collapse hr htop c.length c m0 w (Nat.le_refl _) h1 h2
        simp only [Option.map_some, Option.some.injEq, Option.mem_def]
        exact ⟨k1, fun r hr => hr ▸ k2⟩
    · subst h1
      have hpo := hr.ported m1 es x h5 h6 h7 h3
      rw [h9]
      simp only [netOf, lookup_merge hpo, h2]
      cases hl : y.pins.lookup p with
      | none => simp
      | some u =>
        obtain ⟨w, hw⟩ := Option.isSome_iff_exists.mp (lookup_isSome_ported hpo hl)
        obtain ⟨k1, k2⟩ := resolve_collapse hr htop c1.length c1 m1 w (Nat.le_refl _) h4 h5
        have e : resolve (x :: c1) u = resolve c1 w := by rw [resolve_cons, hw]; rfl
        simp only [Option.bind_some, hw, Option.map_some, Option.some.injEq, Option.mem_def, e]
        exact ⟨k1, fun r hr => hr ▸ k2⟩

/-- One replacement keeps the design. -/
theorem Rep.same (hn : ∀ m es, mod L m = some es → (es.map Inst.name).Nodup) (hr : Rep L L' y dh) (htop : top ≠ dh) :
    SameBy L top L' (collapse y dh) := by
  have hdev : ∀ {o : List Inst}, IsDev L top o → ∃ m, Ctx L top o m ∧ mod L m = none ∧ m ≠ dh := by
    rintro o ⟨_, m, h1, h2⟩
    exact ⟨m, h1, h2, fun h => by rw [h, hr.single] at h2; cases h2⟩
  have hinj : ∀ {c d : List Inst} {m m' : String}, Ctx L top c m → Ctx L top d m' → m ≠ dh → m' ≠ dh →
      collapse y dh c = collapse y dh d → c = d :=
    fun h1 h2 h3 h4 h5 => collapse_inj hn hr htop _ _ _ _ _ (Nat.le_refl _) h1 h2 h3 h4 h5
  constructor
  · intro o ho
    obtain ⟨m, h1, h2, h3⟩ := hdev ho
    have := collapse_ctx hr htop _ o m (Nat.le_refl _) h1 h3
    refine ⟨?_, m, this, hr.devs m h2⟩
    intro he
    have : collapse y dh o = collapse y dh [] := he
    exact ho.1 (hinj h1 .top h3 htop this)
  · intro o₁ o₂ h1 h2 he
    obtain ⟨m1, a1, _, a3⟩ := hdev h1
    obtain ⟨m2, b1, _, b3⟩ := hdev h2
    exact hinj a1 b1 a3 b3 he
  · rintro o' ⟨hne, m, h1, h2⟩
    obtain ⟨hm, c, hc, rfl⟩ := collapse_surj hr htop h1
    refine ⟨c, ⟨?_, m, hc, ?_⟩, rfl⟩
    · rintro rfl; exact hne rfl
    · cases hmod : mod L m with
      | none => rfl
      | some es =>
        obtain ⟨es', g1, _⟩ := hr.mods m es hm hmod
        rw [h2] at g1; cases g1
  · intro o ho e he
    obtain ⟨m, h1, h2, h3⟩ := hdev ho
    cases o with
    | nil => simp at he
    | cons e' c =>
      simp only [List.head?_cons, Option.mem_def, Option.some.injEq] at he
      subst he
      rcases h1.shape hr htop h3 with ⟨m0, es, g1, g2, g3, g4, g5, g6⟩ | ⟨x, c1, m1, es, g1, g2, g3, g4, g5, g6, g7, g8, g9⟩
      · rw [g6]; exact ⟨e', by simp, rfl, rfl, rfl⟩
      · rw [g9, g2]
        refine ⟨merge y x, by simp, rfl, rfl, ?_⟩
        simp [merge, Function.comp_def]
  · intro o₁ o₂ h1 h2 p₁ p₂
    obtain ⟨m1, a1, _, a3⟩ := hdev h1
    obtain ⟨m2, b1, _, b3⟩ := hdev h2
    obtain ⟨k1, k2⟩ := netOf_collapse hr htop a1 a3 p₁
    obtain ⟨l1, l2⟩ := netOf_collapse hr htop b1 b3 p₂
    rw [k1, l1]
    constructor
    · intro he
      cases hx : netOf o₁ p₁ with
      | none =>
        rw [hx] at he
        cases hz : netOf o₂ p₂ with
        | none => rfl
        | some z => rw [hz] at he; cases he
      | some x =>
        rw [hx] at he
        cases hz : netOf o₂ p₂ with
        | none => rw [hz] at he; cases he
        | some z =>
          rw [hz] at he
          simp only [Option.map_some, Option.some.injEq, Prod.mk.injEq] at he
          obtain ⟨n1, q1, q2⟩ := k2 x (by rw [hx]; rfl)
          obtain ⟨n2, q3, q4⟩ := l2 z (by rw [hz]; rfl)
          have := hinj q1 q3 q2 q4 he.1
          rw [show x = z from Prod.ext this he.2]
    · intro he; rw [he]
  · intro o ho p n
    obtain ⟨m, h1, _, h3⟩ := hdev ho
    obtain ⟨k1, k2⟩ := netOf_collapse hr htop h1 h3 p
    rw [k1]
    cases hx : netOf o p with
    | none => simp
    | some x =>
      simp only [Option.map_some, Option.some.injEq]
      constructor
      · intro he
        obtain ⟨n1, q1, q2⟩ := k2 x (by rw [hx]; rfl)
        have e1 : collapse y dh x.1 = collapse y dh [] := congrArg Prod.fst he
        have := hinj q1 .top q2 htop e1
        have e2 : x.2 = n := congrArg Prod.snd he
        exact Prod.ext this e2
      · intro he; rw [he]; rfl

/-! ## The next replacement finds the same situation -/

theorem Rep.good (hg : Good L) (hr : Rep L L' y dh) : Good L' := by
  have back : ∀ m es', mod L' m = some es' → m ≠ dh ∧ ∃ es, mod L m = some es ∧ es'.Perm (es.map (repl y dh)) := by
    intro m es' h
    have hm : m ≠ dh := fun h' => by rw [h', hr.gone] at h; cases h
    cases hmod : mod L m with
    | none => rw [hr.devs m hmod] at h; cases h
    | some es =>
      obtain ⟨es'', g1, g2⟩ := hr.mods m es hm hmod
      rw [h] at g1
      simp only [Option.some.injEq] at g1
      subst g1
      exact ⟨hm, es, rfl, g2⟩
  have rname : ∀ e, (repl y dh e).name = e.name := by
    intro e; unfold repl; split <;> rfl
  constructor
  · intro m es' h
    obtain ⟨_, es, h1, h2⟩ := back m es' h
    rw [(h2.map Inst.name).nodup_iff, List.map_map]
    have : es.map (Inst.name ∘ repl y dh) = es.map Inst.name := List.map_congr_left fun e _ => rname e
    rw [this]
    exact hg.names m es h1
  · obtain ⟨rank, hrank⟩ := hg.acyclic
    refine ⟨rank, ?_⟩
    intro m es' e h he hs
    obtain ⟨hm, es, h1, h2⟩ := back m es' h
    rw [h2.mem_iff, List.mem_map] at he
    obtain ⟨x, hx, rfl⟩ := he
    have hs' : (mod L (repl y dh x).model).isSome := by
      obtain ⟨es2, h3⟩ := Option.isSome_iff_exists.mp hs
      obtain ⟨_, es3, h4, _⟩ := back _ _ h3
      rw [h4]; rfl
    by_cases hxd : x.model = dh
    · rw [repl, if_pos hxd] at hs' ⊢
      have r1 := hrank dh [y] y hr.single List.mem_cons_self hs'
      have r2 := hrank m es x h1 hx (by rw [hxd, hr.single]; rfl)
      rw [hxd] at r2
      show rank y.model < rank m
      omega
    · rw [repl, if_neg hxd] at hs' ⊢
      exact hrank m es x h1 hx hs'
  · -- parameters
    have sing : ∀ m y', mod L' m = some [y'] → ∃ y0, mod L m = some [y0] ∧ y' = repl y dh y0 := by
      intro m y' h
      obtain ⟨_, es, h1, h2⟩ := back m _ h
      have hl := h2.length_eq
      rw [List.length_map, List.length_singleton] at hl
      match es, hl with
      | [y0], _ =>
        refine ⟨y0, h1, ?_⟩
        have := h2.mem_iff.mp (List.mem_cons_self : y' ∈ [y'])
        simpa using this
    have key : ∀ x' z', Below L' x' z' → ∀ x : Inst, x'.model = x.model → ∃ z, Below L x z ∧ z.params = z'.params := by
      intro x' z' h
      induction h with
      | @one x' y' h1 =>
        intro x hx
        obtain ⟨y0, g1, g2⟩ := sing _ _ h1
        rw [hx] at g1
        by_cases h0 : y0.model = dh
        · refine ⟨y, .next g1 (.one (by rw [h0]; exact hr.single)), ?_⟩
          rw [g2, repl, if_pos h0]; rfl
        · refine ⟨y0, .one g1, ?_⟩
          rw [g2, repl, if_neg h0]
      | @next x' y' z' h1 h2 ih =>
        intro x hx
        obtain ⟨y0, g1, g2⟩ := sing _ _ h1
        rw [hx] at g1
        by_cases h0 : y0.model = dh
        · obtain ⟨z, k1, k2⟩ := ih y (by rw [g2, repl, if_pos h0]; rfl)
          exact ⟨z, .next g1 (.next (by rw [h0]; exact hr.single) k1), k2⟩
        · obtain ⟨z, k1, k2⟩ := ih y0 (by rw [g2, repl, if_neg h0])
          exact ⟨z, .next g1 k1, k2⟩
    intro m es' x' h hx' z' hz'
    obtain ⟨hm, es, h1, h2⟩ := back m es' h
    rw [h2.mem_iff, List.mem_map] at hx'
    obtain ⟨x, hx, rfl⟩ := hx'
    by_cases hxd : x.model = dh
    · rw [repl, if_pos hxd] at hz' ⊢
      obtain ⟨z, k1, k2⟩ := key _ _ hz' y rfl
      have := hg.agree dh [y] y hr.single List.mem_cons_self z k1
      intro k v w hv hw
      exact this k v w hv (by rw [k2]; exact hw)
    · rw [repl, if_neg hxd] at hz' ⊢
      obtain ⟨z, k1, k2⟩ := key _ _ hz' x rfl
      have := hg.agree m es x h1 hx z k1
      intro k v w hv hw
      exact this k v w hv (by rw [k2]; exact hw)

theorem Rep.single_other (hr : Rep L L' y dh) {m : String} (hm : m ≠ dh) {y0 : Inst} (h : mod L m = some [y0]) :
    mod L' m = some [repl y dh y0] := by
  obtain ⟨es', g1, g2⟩ := hr.mods m _ hm h
  rw [g1]
  rw [List.map_cons, List.map_nil] at g2
  rw [List.perm_singleton.mp g2]

theorem removeOne_rep {pre : String → String} (hnd : (L.map Prod.fst).Nodup) (hg : Good L)
    (hs : mod L dh = some [y]) (h : removeOne pre L dh = some L') : Rep L L' y dh ∧ (L'.map Prod.fst).Nodup := by
  have hne : y.model ≠ dh := by
    intro he
    obtain ⟨rank, hrank⟩ := hg.acyclic
    have := hrank dh [y] y hs List.mem_cons_self (by rw [he, hs]; rfl)
    rw [he] at this
    exact Nat.lt_irrefl _ this
  unfold removeOne at h
  rw [hs] at h
  simp only at h
  obtain ⟨h1, h2, h3⟩ := replaceAll_mod hne hnd (fun m es hm x hx hxd =>
    hg.agree m es x hm hx y (.one (by rw [hxd]; exact hs))) h
  refine ⟨⟨hs, h2, hne, ?_, ?_, ?_⟩, ?_⟩
  · intro m hm
    have : m ≠ dh := fun h' => by rw [h', hs] at hm; cases hm
    exact (h3 m this).1 hm
  · intro m es hm hmod
    obtain ⟨es', g1, g2, _⟩ := (h3 m hm).2 es hmod
    exact ⟨es', g1, g2⟩
  · intro m es x hm hmod hx hxd
    obtain ⟨_, _, _, g3⟩ := (h3 m hm).2 es hmod
    exact g3 x hx hxd
  · rw [h1]; exact hnd.filter _

theorem SameBy.comp {L1 L2 L3 : Lib} {top : String} {f g : List Inst → List Inst} (h1 : SameBy L1 top L2 f)
    (h2 : SameBy L2 top L3 g) : SameBy L1 top L3 (g ∘ f) := by
  constructor
  · intro o ho; exact h2.maps _ (h1.maps o ho)
  · intro a b ha hb he
    exact h1.inj a b ha hb (h2.inj _ _ (h1.maps a ha) (h1.maps b hb) he)
  · intro o' ho'
    obtain ⟨o, ho, rfl⟩ := h2.surj o' ho'
    obtain ⟨q, hq, rfl⟩ := h1.surj o ho
    exact ⟨q, hq, rfl⟩
  · intro o ho e he
    obtain ⟨e1, a1, a2, a3, a4⟩ := h1.dev o ho e he
    obtain ⟨e2, b1, b2, b3, b4⟩ := h2.dev (f o) (h1.maps o ho) e1 a1
    exact ⟨e2, b1, b2.trans a2, b3.trans a3, b4.trans a4⟩
  · intro a b ha hb p q
    exact (h2.nets _ _ (h1.maps a ha) (h1.maps b hb) p q).trans (h1.nets a b ha hb p q)
  · intro o ho p n
    exact (h2.topNets _ (h1.maps o ho) p n).trans (h1.topNets o ho p n)

theorem Same.refl (L : Lib) (top : String) : Same L top L :=
  ⟨id, ⟨fun _ h => h, fun _ _ _ _ h => h, fun o h => ⟨o, h, rfl⟩, fun _ _ e he => ⟨e, he, rfl, rfl, rfl⟩,
    fun _ _ _ _ _ _ => Iff.rfl, fun _ _ _ _ => Iff.rfl⟩⟩

theorem removeDummies_same {pre : String → String} {top : String} {dhs : List String} {L L' : Lib}
    (hnd : (L.map Prod.fst).Nodup) (hg : Good L) (hs : ∀ dh ∈ dhs, mod L dh = none ∨ ∃ y, mod L dh = some [y])
    (h : removeDummies pre top dhs L = some L') : Same L top L' := by
  induction dhs generalizing L with
  | nil =>
    simp only [removeDummies, Option.some.injEq] at h
    subst h
    exact Same.refl L top
  | cons dh dhs ih =>
    unfold removeDummies at h
    split at h
    · simp only [Option.some.injEq] at h
      subst h
      exact Same.refl L top
    · rename_i htop
      rw [Option.bind_eq_some_iff] at h
      obtain ⟨L1, h1, h2⟩ := h
      rcases hs dh List.mem_cons_self with hy | ⟨y, hy⟩
      · rw [removeOne, hy] at h1; cases h1
      · obtain ⟨hr, hnd1⟩ := removeOne_rep hnd hg hy h1
        have hstep := hr.same (top := top) hg.names (Ne.symm htop)
        obtain ⟨g, hg'⟩ := ih hnd1 (hr.good hg) (fun d hd => by
          by_cases hdd : d = dh
          · left; rw [hdd]; exact hr.gone
          · rcases hs d (List.mem_cons_of_mem _ hd) with h0 | ⟨y0, h0⟩
            · exact Or.inl (hr.devs d h0)
            · exact Or.inr ⟨_, hr.single_other hdd h0⟩) h2
        exact ⟨_, hstep.comp hg'⟩

/-! ## The list of single-element subcircuits -/

theorem findDummy_single {ord : List String → List String} {L : Lib} {fuel : Nat} {ckt : String} {acc : List String}
    (h : ∀ d ∈ acc, ∃ y, mod L d = some [y]) : ∀ d ∈ findDummy ord L fuel ckt acc, ∃ y, mod L d = some [y] := by
  induction fuel generalizing ckt acc with
  | zero => exact h
  | succ fuel ih =>
    unfold findDummy
    split
    · exact h
    · rename_i es hes
      have hfold : ∀ (l : List String) (a : List String), (∀ d ∈ a, ∃ y, mod L d = some [y]) →
          ∀ d ∈ l.foldl (fun a m => findDummy ord L fuel m a) a, ∃ y, mod L d = some [y] := by
        intro l
        induction l with
        | nil => exact fun a ha => ha
        | cons x l ihl => exact fun a ha => ihl _ (ih ha)
      intro d hd
      simp only at hd
      split at hd
      · rename_i hlen
        rcases List.mem_append.mp hd with hd | hd
        · exact hfold _ _ h d hd
        · simp only [List.mem_singleton] at hd
          subst hd
          match es, hlen, hes with
          | [y], _, hes => exact ⟨y, hes⟩
      · exact hfold _ _ h d hd

/-- **C45, partial.**  If the pass succeeds, every device of the design is still there, with the same model and parameters,
and connected to the same nets as before; no device is added.  Missing: this needs that an instance and the elements inside
it agree on parameters of the same name, and the pass may fail, see `C45_violated_parameters`, `C45_violated_order`,
`C45_violated_internal` and `C45_violated_prefix`. -/
theorem C45_partial {pre : String → String} {ord : List String → List String} {fuel : Nat} {top : String} {L L' : Lib}
    (hnd : (L.map Prod.fst).Nodup) (hg : Good L) (h : pass pre ord fuel top L = some L') : Same L top L' := by
  unfold pass at h
  exact removeDummies_same hnd hg (fun d hd => Or.inr (findDummy_single (by simp) d hd)) h

/-! ## When the pass succeeds -/

/-- An element alone in its subcircuit is only on ports. -/
def Portable (L : Lib) : Prop :=
  ∀ m es x y, mod L m = some es → x ∈ es → mod L x.model = some [y] → Ported y x

theorem mem_of_lookup {l : List (String × String)} {k v : String} (h : l.lookup k = some v) : (k, v) ∈ l := by
  induction l with
  | nil => simp at h
  | cons a l ih =>
    obtain ⟨a1, a2⟩ := a
    rw [List.lookup_cons] at h
    by_cases hk : k = a1
    · subst hk
      simp only [beq_self_eq_true, Option.some.injEq] at h
      subst h
      exact List.mem_cons_self
    · have : (k == a1) = false := by simpa using hk
      simp only [this] at h
      exact List.mem_cons_of_mem _ (ih h)

theorem Rep.portable (hr : Rep L L' y dh) (hp : Portable L) : Portable L' := by
  intro m es' x' y' h hx' hy'
  have hm : m ≠ dh := fun h' => by rw [h', hr.gone] at h; cases h
  have back : ∀ m es', mod L' m = some es' → ∃ es, mod L m = some es ∧ es'.Perm (es.map (repl y dh)) := by
    intro m es' h
    have hm : m ≠ dh := fun h' => by rw [h', hr.gone] at h; cases h
    cases hmod : mod L m with
    | none => rw [hr.devs m hmod] at h; cases h
    | some es =>
      obtain ⟨es'', g1, g2⟩ := hr.mods m es hm hmod
      rw [h] at g1
      simp only [Option.some.injEq] at g1
      subst g1
      exact ⟨es, rfl, g2⟩
  obtain ⟨es, h1, h2⟩ := back m es' h
  rw [h2.mem_iff, List.mem_map] at hx'
  obtain ⟨x, hx, rfl⟩ := hx'
  obtain ⟨fs, k1, k2⟩ := back _ _ hy'
  have hl := k2.length_eq
  rw [List.length_map, List.length_singleton] at hl
  match fs, hl, k1, k2 with
  | [y0], _, k1, k2 =>
    have hy0 : y' = repl y dh y0 := by simpa using k2.mem_iff.mp (List.mem_cons_self : y' ∈ [y'])
    -- the element `y0` on the instance
    have hport : Ported y0 (repl y dh x) := by
      by_cases hxd : x.model = dh
      · rw [repl, if_pos hxd] at k1 ⊢
        have p1 : Ported y0 y := hp dh [y] y y0 hr.single List.mem_cons_self k1
        have p2 : Ported y x := hp m es x y h1 hx (by rw [hxd]; exact hr.single)
        intro pn hpn
        obtain ⟨v, hv⟩ := Option.isSome_iff_exists.mp (p1 pn hpn)
        rw [lookup_merge p2, hv, Option.bind_some]
        exact lookup_isSome_ported p2 hv
      · rw [repl, if_neg hxd] at k1 ⊢
        exact hp m es x y0 h1 hx k1
    rw [hy0]
    by_cases h0 : y0.model = dh
    · rw [show repl y dh y0 = merge y y0 from by rw [repl, if_pos h0]]
      intro pn hpn
      simp only [merge, List.mem_map] at hpn
      obtain ⟨qn, hq, rfl⟩ := hpn
      have p3 : Ported y y0 := hp _ [y0] y0 y k1 List.mem_cons_self (by rw [h0]; exact hr.single)
      obtain ⟨w, hw⟩ := Option.isSome_iff_exists.mp (p3 qn hq)
      simp only [hw, Option.getD_some]
      exact hport (qn.2, w) (mem_of_lookup hw)
    · rw [show repl y dh y0 = y0 from by rw [repl, if_neg h0]]
      exact hport

theorem replaceIn_isSome {pre : String → String} (hpre : ∀ m, pre m = "") {y : Inst} {dh : String} {es : List Inst}
    (ps : List (String × String)) (hp : ∀ x ∈ es, x.model = dh → Ported y x) : (replaceIn pre y dh es ps).isSome := by
  unfold replaceIn
  have : ∀ (xs : List Inst) (st : List Inst × List (String × String)), (∀ x ∈ xs, Ported y x) →
      (xs.foldlM (replaceInst pre y) st).isSome := by
    intro xs
    induction xs with
    | nil => intros; rfl
    | cons x xs ih =>
      intro st h
      have hx : ∃ st', replaceInst pre y st x = some st' := by
        unfold replaceInst
        rw [mapM_pins_some (h x List.mem_cons_self), Option.bind_some, if_pos (by simp [prefixed, hpre])]
        exact ⟨_, rfl⟩
      obtain ⟨st', hx⟩ := hx
      rw [List.foldlM_cons, hx, Option.bind_eq_bind, Option.bind_some]
      exact ih _ fun z hz => h z (List.mem_cons_of_mem _ hz)
  apply this
  intro x hx
  obtain ⟨h1, h2⟩ := List.mem_filter.mp hx
  exact hp x h1 (by simpa using h2)

theorem replaceAll_isSome {pre : String → String} (hpre : ∀ m, pre m = "") {y : Inst} {dh : String} {L : Lib}
    (ps : List (String × String)) (hp : ∀ me ∈ L, ∀ x ∈ me.2, x.model = dh → Ported y x) :
    (replaceAll pre y dh L ps).isSome := by
  induction L generalizing ps with
  | nil => rfl
  | cons a L ih =>
    obtain ⟨m0, es0⟩ := a
    have hp' : ∀ me ∈ L, ∀ x ∈ me.2, x.model = dh → Ported y x := fun me h => hp me (List.mem_cons_of_mem _ h)
    unfold replaceAll
    split
    · exact ih ps hp'
    · obtain ⟨r, hr⟩ := Option.isSome_iff_exists.mp (replaceIn_isSome hpre (y := y) (dh := dh) (es := es0) ps
        (fun x hx hxd => hp (m0, es0) List.mem_cons_self x hx hxd))
      rw [hr, Option.bind_some, Option.isSome_map]
      exact ih r.2 hp'

theorem lookup_of_mem {L : Lib} (h : (L.map Prod.fst).Nodup) {m : String} {es : List Inst} (hm : (m, es) ∈ L) :
    mod L m = some es := by
  unfold mod
  induction L with
  | nil => simp at hm
  | cons a L ih =>
    obtain ⟨a1, a2⟩ := a
    rw [List.map_cons, List.nodup_cons] at h
    rw [List.lookup_cons]
    rcases List.mem_cons.mp hm with he | he
    · obtain ⟨rfl, rfl⟩ := Prod.mk.inj he
      simp
    · have hk : m ≠ a1 := fun h' => h.1 (h' ▸ List.mem_map.mpr ⟨_, he, rfl⟩)
      have : (m == a1) = false := by simpa using hk
      simp only [this]
      exact ih h.2 he

theorem removeDummies_isSome {pre : String → String} (hpre : ∀ m, pre m = "") {top : String} {dhs : List String} {L : Lib}
    (hnd : (L.map Prod.fst).Nodup) (hg : Good L) (hp : Portable L) (hd : dhs.Nodup)
    (hs : ∀ dh ∈ dhs, ∃ y, mod L dh = some [y]) : (removeDummies pre top dhs L).isSome := by
  induction dhs generalizing L with
  | nil => rfl
  | cons dh dhs ih =>
    rw [List.nodup_cons] at hd
    unfold removeDummies
    split
    · rfl
    · obtain ⟨y, hy⟩ := hs dh List.mem_cons_self
      have : (removeOne pre L dh).isSome := by
        unfold removeOne
        rw [hy]
        apply replaceAll_isSome hpre
        intro me hme x hx hxd
        exact hp me.1 me.2 x y (lookup_of_mem hnd hme) hx (by rw [hxd]; exact hy)
      obtain ⟨L1, h1⟩ := Option.isSome_iff_exists.mp this
      rw [h1, Option.bind_some]
      obtain ⟨hr, hnd1⟩ := removeOne_rep hnd hg hy h1
      exact ih hnd1 (hr.good hg) (hr.portable hp) hd.2 fun d hdd => by
        obtain ⟨y0, h0⟩ := hs d (List.mem_cons_of_mem _ hdd)
        exact ⟨_, hr.single_other (fun h => hd.1 (h ▸ hdd)) h0⟩

/-- Subcircuit `a` has an instance of subcircuit `b`. -/
def Uses (L : Lib) (a b : String) : Prop := ∃ es, mod L a = some es ∧ (∃ e ∈ es, e.model = b) ∧ (mod L b).isSome

/-- `b` is `a` or below it. -/
inductive Desc (L : Lib) (a : String) : String → Prop
  | refl : Desc L a a
  | step {b c : String} : Desc L a b → Uses L b c → Desc L a c

theorem Desc.rank {L : Lib} {rank : String → Nat} (hr : ∀ a b, Uses L a b → rank b < rank a) {a b : String}
    (h : Desc L a b) : rank b ≤ rank a := by
  induction h with
  | refl => exact Nat.le_refl _
  | step _ h ih => exact Nat.le_trans (Nat.le_of_lt (hr _ _ h)) ih

theorem Desc.tree {L : Lib} (hu : ∀ a b c, Uses L a c → Uses L b c → a = b) {a b c : String} (h1 : Desc L a c)
    (h2 : Desc L b c) : Desc L a b ∨ Desc L b a := by
  induction h1 with
  | refl => exact Or.inr h2
  | @step d e h hd ih =>
    cases h2 with
    | refl => exact Or.inl (.step h hd)
    | step g hg => exact ih (by rw [hu _ _ _ hd hg]; exact g)

theorem Desc.siblings {L : Lib} {rank : String → Nat} (hr : ∀ a b, Uses L a b → rank b < rank a)
    (hu : ∀ a b c, Uses L a c → Uses L b c → a = b) {a x y d : String} (hx : Uses L a x) (hy : Uses L a y)
    (h1 : Desc L x d) (h2 : Desc L y d) : x = y := by
  have key : ∀ x y, Uses L a x → Uses L a y → Desc L x y → x = y := by
    intro x y hx hy h
    cases h with
    | refl => rfl
    | step h hd =>
      have := hu _ _ _ hd hy
      subst this
      have := h.rank hr
      have := hr _ _ hx
      omega
  rcases Desc.tree hu h1 h2 with h | h
  · exact key x y hx hy h
  · exact (key y x hy hx h).symm

/-- In a tree the list has no repetitions, whatever the order. -/
theorem findDummy_nodup {ord : List String → List String} (hord : ∀ l, (ord l).Perm l) {L : Lib} {rank : String → Nat}
    (hr : ∀ a b, Uses L a b → rank b < rank a) (hu : ∀ a b c, Uses L a c → Uses L b c → a = b) (fuel : Nat) :
    ∀ (ckt : String) (acc : List String), acc.Nodup → (∀ d ∈ acc, ¬Desc L ckt d) →
      ∃ new, findDummy ord L fuel ckt acc = acc ++ new ∧ (acc ++ new).Nodup ∧ ∀ d ∈ new, Desc L ckt d := by
  induction fuel with
  | zero => intro ckt acc h _; exact ⟨[], by simp [findDummy], by simpa using h, by simp⟩
  | succ fuel ih =>
    intro ckt acc hnd hacc
    unfold findDummy
    split
    · exact ⟨[], by simp, by simpa using hnd, by simp⟩
    · rename_i es hes
      simp only
      generalize hsub : (ord (((es.map Inst.model).filter fun m => (mod L m).isSome).eraseDups)) = subs
      have hsn : subs.Nodup := by rw [← hsub, (hord _).nodup_iff]; exact nodup_eraseDups _ _ (Nat.le_refl _)
      have hsu : ∀ m ∈ subs, Uses L ckt m := by
        intro m hm
        rw [← hsub, (hord _).mem_iff, List.mem_eraseDups, List.mem_filter, List.mem_map] at hm
        obtain ⟨⟨e, he, rfl⟩, hs⟩ := hm
        exact ⟨es, hes, ⟨e, he, rfl⟩, hs⟩
      have hfold : ∀ (l : List String), l.Nodup → (∀ m ∈ l, Uses L ckt m) → ∀ (a : List String), a.Nodup →
          (∀ d ∈ a, ∀ m ∈ l, ¬Desc L m d) →
          ∃ new, l.foldl (fun a m => findDummy ord L fuel m a) a = a ++ new ∧ (a ++ new).Nodup ∧
            ∀ d ∈ new, ∃ m ∈ l, Desc L m d := by
        intro l
        induction l with
        | nil => intro _ _ a ha _; exact ⟨[], by simp, by simpa using ha, by simp⟩
        | cons x l ihl =>
          intro hl hlu a ha hda
          rw [List.nodup_cons] at hl
          obtain ⟨n1, e1, e2, e3⟩ := ih x a ha (fun d hd => hda d hd x List.mem_cons_self)
          rw [List.foldl_cons, e1]
          obtain ⟨n2, f1, f2, f3⟩ := ihl hl.2 (fun m hm => hlu m (List.mem_cons_of_mem _ hm)) (a ++ n1) e2 (by
            intro d hd m hm hdm
            rcases List.mem_append.mp hd with hd | hd
            · exact hda d hd m (List.mem_cons_of_mem _ hm) hdm
            · have := Desc.siblings hr hu (hlu m (List.mem_cons_of_mem _ hm)) (hlu x List.mem_cons_self) hdm (e3 d hd)
              exact hl.1 (this ▸ hm))
          refine ⟨n1 ++ n2, by rw [f1, List.append_assoc], by rw [← List.append_assoc]; exact f2, ?_⟩
          intro d hd
          rcases List.mem_append.mp hd with hd | hd
          · exact ⟨x, List.mem_cons_self, e3 d hd⟩
          · obtain ⟨m, hm, h⟩ := f3 d hd
            exact ⟨m, List.mem_cons_of_mem _ hm, h⟩
      have trans : ∀ m d, Uses L ckt m → Desc L m d → Desc L ckt d := by
        intro m d hm h
        induction h with
        | refl => exact .step .refl hm
        | step _ h ih => exact .step ih h
      obtain ⟨n1, f1, f2, f3⟩ := hfold (subs.filter fun m => decide (m ∉ acc)) (hsn.filter _)
        (fun m hm => hsu m (List.mem_filter.mp hm).1) acc hnd
        (fun d hd m hm h => hacc d hd (trans m d (hsu m (List.mem_filter.mp hm).1) h))
      have hn1 : ∀ d ∈ n1, Desc L ckt d ∧ d ≠ ckt := by
        intro d hd
        obtain ⟨m, hm, h⟩ := f3 d hd
        have hmu := hsu m (List.mem_filter.mp hm).1
        refine ⟨trans m d hmu h, ?_⟩
        rintro rfl
        have := h.rank hr
        have := hr _ _ hmu
        omega
      rw [f1]
      split
      · refine ⟨n1 ++ [ckt], by rw [List.append_assoc], ?_, ?_⟩
        · rw [← List.append_assoc, List.nodup_append]
          refine ⟨f2, by simp, ?_⟩
          intro a ha b hb
          simp only [List.mem_singleton] at hb
          subst hb
          rcases List.mem_append.mp ha with h | h
          · rintro rfl; exact hacc a h .refl
          · exact (hn1 a h).2
        · intro d hd
          rcases List.mem_append.mp hd with hd | hd
          · exact (hn1 d hd).1
          · simp only [List.mem_singleton] at hd
            rw [hd]; exact .refl
      · exact ⟨n1, rfl, f2, fun d hd => (hn1 d hd).1⟩

/-- **C45, success, partial.**  The pass succeeds whatever the order of the traversal if every subcircuit is used by at most
one other, elements alone in a subcircuit are on its ports, and no model asks for a prefix of the name. -/
theorem C45_succeeds_partial {pre : String → String} (hpre : ∀ m, pre m = "") {ord : List String → List String}
    (hord : ∀ l, (ord l).Perm l) {fuel : Nat} {top : String} {L : Lib} (hnd : (L.map Prod.fst).Nodup) (hg : Good L)
    (hp : Portable L) (hu : ∀ a b c, Uses L a c → Uses L b c → a = b) : (pass pre ord fuel top L).isSome := by
  unfold pass
  obtain ⟨rank, hrank⟩ := hg.acyclic
  have hr : ∀ a b, Uses L a b → rank b < rank a := by
    rintro a b ⟨es, h1, ⟨e, he, rfl⟩, h3⟩
    exact hrank a es e h1 he h3
  obtain ⟨new, h1, h2, _⟩ := findDummy_nodup hord hr hu fuel top [] List.nodup_nil (by simp)
  rw [h1]
  refine removeDummies_isSome hpre hnd hg hp h2 ?_
  intro d hd
  rw [← h1] at hd
  exact findDummy_single (by simp) d hd

/-! ### A non-trivial case -/

/-- `T` has a device and an instance of `A`, whose only element is an instance of `B`, whose only element is a device. -/
def exLib : Lib :=
  [("T", [⟨"M0", "N", [("D", "x"), ("S", "y")], []⟩, ⟨"X1", "A", [("P", "x"), ("Q", "z")], [("W", "2")]⟩]),
   ("A", [⟨"X2", "B", [("U", "Q"), ("V", "P")], [("W", "2")]⟩]),
   ("B", [⟨"M3", "N", [("D", "U"), ("S", "V")], [("W", "2"), ("L", "1")]⟩])]

example : pass (fun _ => "") id 5 "T" exLib =
    some [("T", [⟨"M0", "N", [("D", "x"), ("S", "y")], []⟩,
      ⟨"X1", "N", [("D", "z"), ("S", "x")], [("W", "2"), ("L", "1")]⟩])] := by decide +kernel

theorem exLib_cases {m : String} {es : List Inst} (h : mod exLib m = some es) : (m, es) ∈ exLib := by
  unfold mod at h
  generalize exLib = L at h
  induction L with
  | nil => simp at h
  | cons a L ih =>
    obtain ⟨a1, a2⟩ := a
    rw [List.lookup_cons] at h
    by_cases hk : m = a1
    · subst hk
      simp only [beq_self_eq_true, Option.some.injEq] at h
      subst h
      exact List.mem_cons_self
    · have : (m == a1) = false := by simpa using hk
      simp only [this] at h
      exact List.mem_cons_of_mem _ (ih h)

theorem below_last {L : Lib} {x z : Inst} (h : Below L x z) : ∃ m, mod L m = some [z] := by
  induction h with
  | one h => exact ⟨_, h⟩
  | next _ _ ih => exact ih

theorem exLib_good : (exLib.map Prod.fst).Nodup ∧ Good exLib ∧ Portable exLib ∧
    (∀ a b c, Uses exLib a c → Uses exLib b c → a = b) := by
  refine ⟨by decide +kernel, ⟨?_, ⟨fun m => if m = "T" then 2 else if m = "A" then 1 else 0, ?_⟩, ?_⟩, ?_, ?_⟩
  · intro m es h
    have h := exLib_cases h
    have : ∀ me ∈ exLib, (me.2.map Inst.name).Nodup := by decide +kernel
    exact this _ h
  · intro m es e h he hs
    have h := exLib_cases h
    have : ∀ me ∈ exLib, ∀ e ∈ me.2, (mod exLib e.model).isSome →
      (if e.model = "T" then 2 else if e.model = "A" then 1 else 0) <
        (if me.1 = "T" then 2 else if me.1 = "A" then 1 else 0) := by decide +kernel
    exact this _ h e he hs
  · intro m es x h hx z hz k v w hv hw
    have h := exLib_cases h
    obtain ⟨m', h'⟩ := below_last hz
    have h' := exLib_cases h'
    have : ∀ me ∈ exLib, ∀ x ∈ me.2, ∀ ne ∈ exLib, ∀ z ∈ ne.2, ∀ kw ∈ z.params,
        x.params.lookup kw.1 = none ∨ x.params.lookup kw.1 = some kw.2 := by decide +kernel
    rcases this _ h x hx _ h' z (by simp) (k, w) hw with h | h
    · simp only at h; rw [hv] at h; cases h
    · simp only at h; rw [hv] at h; simpa using h
  · intro m es x z h hx hz
    have h := exLib_cases h
    have hz := exLib_cases hz
    have : ∀ me ∈ exLib, ∀ x ∈ me.2, ∀ ne ∈ exLib, ∀ z ∈ ne.2, x.model = ne.1 →
      ∀ pn ∈ z.pins, (x.pins.lookup pn.2).isSome := by decide +kernel
    exact this _ h x hx _ hz z (by simp) rfl
  · rintro a b c ⟨es, h1, ⟨e, he, rfl⟩, h3⟩ ⟨fs, g1, ⟨f, hf, hfe⟩, _⟩
    have h1 := exLib_cases h1
    have g1 := exLib_cases g1
    have : ∀ me ∈ exLib, ∀ e ∈ me.2, ∀ ne ∈ exLib, ∀ f ∈ ne.2, f.model = e.model → (mod exLib e.model).isSome →
      me.1 = ne.1 := by decide +kernel
    exact this _ h1 e he _ g1 f hf hfe h3

/-! ## What is missing -/

/-- The parameter of the instance overwrites the parameter of the element, which is the value of another thing: the device
had `W = 5`, and now has `W = 1`. -/
theorem C45_violated_parameters :
    let L : Lib := [("T", [⟨"M0", "N", [("D", "x")], []⟩, ⟨"X1", "A", [("P", "x")], [("W", "1")]⟩]),
      ("A", [⟨"M1", "N", [("D", "P")], [("W", "5")]⟩])]
    pass (fun _ => "") id 5 "T" L =
      some [("T", [⟨"M0", "N", [("D", "x")], []⟩, ⟨"X1", "N", [("D", "x")], [("W", "1")]⟩])] ∧
    (∃ o, IsDev L "T" o ∧ ∃ e ∈ o.head?, e.params = [("W", "5")]) := by
  refine ⟨by decide +kernel, [⟨"M1", "N", [("D", "P")], [("W", "5")]⟩, ⟨"X1", "A", [("P", "x")], [("W", "1")]⟩], ?_, ?_⟩
  · refine ⟨by simp, "N", ?_, by decide +kernel⟩
    have h1 : Ctx [("T", [⟨"M0", "N", [("D", "x")], []⟩, ⟨"X1", "A", [("P", "x")], [("W", "1")]⟩]),
      ("A", [⟨"M1", "N", [("D", "P")], [("W", "5")]⟩])] "T" [] "T" := .top
    have h2 := Ctx.step (i := ⟨"X1", "A", [("P", "x")], [("W", "1")]⟩) h1 rfl (by simp)
    exact Ctx.step (i := ⟨"M1", "N", [("D", "P")], [("W", "5")]⟩) h2 rfl (by simp)
  · exact ⟨_, rfl, rfl⟩

/-- A subcircuit used by two others can be listed twice, and the second removal fails; in another order the pass succeeds. -/
theorem C45_violated_order :
    let L : Lib := [("T", [⟨"X1", "A", [("P", "x")], []⟩, ⟨"X2", "C", [("P", "x")], []⟩]),
      ("A", [⟨"X1", "C", [("P", "P")], []⟩, ⟨"X2", "C", [("P", "P")], []⟩]),
      ("C", [⟨"M1", "N", [("D", "P")], []⟩])]
    pass (fun _ => "") id 5 "T" L = none ∧ (pass (fun _ => "") List.reverse 5 "T" L).isSome := by
  decide +kernel

/-- An element on an internal net of its subcircuit: the pass fails. -/
theorem C45_violated_internal :
    let L : Lib := [("T", [⟨"X1", "A", [("P", "x")], []⟩, ⟨"X2", "A", [("P", "x")], []⟩]),
      ("A", [⟨"M1", "N", [("D", "P"), ("S", "float")], []⟩])]
    pass (fun _ => "") id 5 "T" L = none := by
  decide +kernel

/-- A resistor alone in its subcircuit: the new instance keeps the name `X1`, which a resistor must not have. -/
theorem C45_violated_prefix :
    let L : Lib := [("T", [⟨"X1", "A", [("P", "x")], []⟩, ⟨"X2", "A", [("P", "x")], []⟩]),
      ("A", [⟨"R1", "RES", [("PLUS", "P"), ("MINUS", "P")], []⟩])]
    pass (fun m => if m = "RES" then "R" else "") id 5 "T" L = none := by
  decide +kernel

end Verif.Pre.Dummy

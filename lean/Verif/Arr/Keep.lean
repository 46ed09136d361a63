import Verif.Net.NewHier

/-! # C79: circuits that differ in hierarchy only -/

namespace Verif.Net

/-- The hierarchy `D'`, `l'` has the instances of `D`, `l`, unchanged, at the paths given by `μ`, and besides only instances of
subcircuits that are new; terminals of instances are connected to each other and to the ports as before.  (`p.dropLast` is the
path of the circuit that the instance at path `p` is in.) -/
structure Keeps (ports : List String) (D : Lib) (l : List Inst) (D' : Lib) (l' : List Inst) (μ : List String → List String) : Prop where
  occ : ∀ p e, At D l p e → At D' l' (μ p) e
  inj : ∀ p e q d, At D l p e → At D l q d → μ p = μ q → p = q
  only : ∀ p' e, At D' l' p' e → (∃ p, At D l p e ∧ p' = μ p) ∨ (D e.model = none ∧ (D' e.model).isSome)
  conn : ∀ p e pin n u d pin' m, At D l p e → (pin, n) ∈ e.pins → At D l u d → (pin', m) ∈ d.pins →
    (Connected D' l' ((μ p).dropLast, n) ((μ u).dropLast, m) ↔ Connected D l (p.dropLast, n) (u.dropLast, m))
  port : ∀ p e pin n, At D l p e → (pin, n) ∈ e.pins → ∀ a ∈ ports,
    (Connected D' l' ((μ p).dropLast, n) ([], a) ↔ Connected D l (p.dropLast, n) ([], a))

theorem Keeps.refl (ports : List String) (D : Lib) (l : List Inst) : Keeps ports D l D l id where
  occ _ _ h := h
  inj _ _ _ _ _ _ h := h
  only p e h := .inl ⟨p, h, rfl⟩
  conn _ _ _ _ _ _ _ _ _ _ _ _ := Iff.rfl
  port _ _ _ _ _ _ _ _ := Iff.rfl

theorem Keeps.trans {ports : List String} {D D' D'' : Lib} {l l' l'' : List Inst} {μ ν : List String → List String}
    (h : Keeps ports D l D' l' μ) (h' : Keeps ports D' l' D'' l'' ν) (hD : ∀ m, (D m).isSome → (D' m).isSome)
    (hD' : ∀ m, (D' m).isSome → (D'' m).isSome) : Keeps ports D l D'' l'' (ν ∘ μ) where
  occ p e hp := h'.occ _ _ (h.occ _ _ hp)
  inj p e q d hp hq he := h.inj _ _ _ _ hp hq (h'.inj _ _ _ _ (h.occ _ _ hp) (h.occ _ _ hq) he)
  only p e hp := by
    rcases h'.only p e hp with ⟨p', hp', rfl⟩ | ⟨h1, h2⟩
    · rcases h.only p' e hp' with ⟨q, hq, rfl⟩ | ⟨h1, h2⟩
      · exact .inl ⟨q, hq, rfl⟩
      · exact .inr ⟨h1, hD' _ h2⟩
    · refine .inr ⟨?_, h2⟩
      cases hc : D e.model with
      | none => rfl
      | some s =>
        have := hD e.model (by simp [hc])
        simp [h1] at this
  conn p e pin n u d pin' m hp hn hu hm :=
    (h'.conn _ e pin n _ d pin' m (h.occ _ _ hp) hn (h.occ _ _ hu) hm).trans (h.conn p e pin n u d pin' m hp hn hu hm)
  port p e pin n hp hn a ha := (h'.port _ e pin n (h.occ _ _ hp) hn a ha).trans (h.port p e pin n hp hn a ha)

/-- A terminal is in the top or in an instance. -/
theorem At.valid {D : Lib} {l : List Inst} {p : List String} {e : Inst} (h : At D l p e) (n : String) : Valid D l (p.dropLast, n) := by
  cases h with
  | top => exact .inl rfl
  | step h1 => right; simp only [List.dropLast_concat]; exact ⟨_, h1⟩

/-- One grouping keeps the circuit (C47). -/
theorem keeps_createHier {D : Lib} {ports : List String} {l r : List Inst} {child : String} {els : List String} {s : Sub}
    (hw : WellFormed D l) (hels : els.Nodup) (hx : ∀ e ∈ l, e.name ≠ "X_" ++ child)
    (hfresh : ∀ p e, At D l p e → e.model ≠ child) (h : createHier D ports l child els = some (s, r)) :
    Keeps ports D l (addSub D child s) r (move child els) := by
  have hD : D child = none := (createHier_eq hw.names h).2.2
  have hoc := C47_occurrences hw hx hfresh h
  have split : ∀ {p : List String} {e : Inst}, At D l p e → p = p.dropLast ++ [e.name] ∧
      move child els p = (move child els p).dropLast ++ [e.name] := by
    intro p e hp
    obtain ⟨q, rfl⟩ := hp.last
    have h2 := (hoc _ e).2 (.inl ⟨_, hp, rfl⟩)
    obtain ⟨q', hq'⟩ := h2.last
    rw [hq']
    simp
  constructor
  · exact fun p e hp => (hoc _ e).2 (.inl ⟨p, hp, rfl⟩)
  · exact fun p e q d hp hq he => move_inj hx hp hq he
  · intro p' e hp'
    rcases (hoc p' e).1 hp' with h1 | ⟨_, rfl⟩
    · exact .inl h1
    · exact .inr ⟨hD, by simp [addSub]⟩
  · intro p e pin n u d pin' m hp hn hu hm
    obtain ⟨p1, p2⟩ := split hp
    obtain ⟨u1, u2⟩ := split hu
    have hp' := hp; have hu' := hu
    rw [p1] at hp'; rw [u1] at hu'
    exact (C47_connectivity hw hels hx hfresh h hp' hn (by rw [← p1]; exact p2)).1 hu' hm (by rw [← u1]; exact u2)
  · intro p e pin n hp hn a ha
    obtain ⟨p1, p2⟩ := split hp
    have hp' := hp
    rw [p1] at hp'
    exact (C47_connectivity hw hels hx hfresh h hp' hn (by rw [← p1]; exact p2)).2 a ha

/-! ## A subcircuit with one instance, in a circuit -/

section
variable {D : Lib} {l0 hl : List Inst} {h : String} {hports : List String}

/-- The instance of the subcircuit `h`. -/
def theInst (h : String) (hports : List String) : Inst := ⟨"X_" ++ h, h, hports.map fun n => (n, n)⟩

/-- What holds for the subcircuit and its surroundings. -/
structure Inside (D : Lib) (l0 hl : List Inst) (h : String) : Prop where
  new : D h = none
  name : ∀ e ∈ l0, e.name ≠ "X_" ++ h
  outer : ∀ p e, At D l0 p e → e.model ≠ h
  inner : ∀ p e, At D hl p e → e.model ≠ h

theorem at_inside (hi : Inside D l0 hl h) {p : List String} {e : Inst} :
    At (addSub D h ⟨hl⟩) (l0 ++ [theInst h hports]) p e ↔
      At D l0 p e ∨ (p = ["X_" ++ h] ∧ e = theInst h hports) ∨ ∃ r, p = ("X_" ++ h) :: r ∧ At D hl r e := by
  constructor
  · intro hp
    induction hp with
    | top he =>
      rcases List.mem_append.1 he with he | he
      · exact .inl (.top he)
      · simp only [List.mem_singleton] at he
        subst he
        exact .inr (.inl ⟨rfl, rfl⟩)
    | step _ hs he ih =>
      rename_i p i e s _
      rcases ih with h1 | ⟨rfl, rfl⟩ | ⟨r, rfl, h1⟩
      · left
        unfold addSub at hs
        rw [if_neg (hi.outer _ _ h1)] at hs
        exact .step h1 hs he
      · right; right
        have : (theInst h hports).model = h := rfl
        simp only [addSub, this, if_true, Option.some.injEq] at hs
        subst hs
        exact ⟨[e.name], rfl, .top he⟩
      · right; right
        unfold addSub at hs
        rw [if_neg (hi.inner _ _ h1)] at hs
        exact ⟨r ++ [e.name], rfl, .step h1 hs he⟩
  · rintro (hp | ⟨rfl, rfl⟩ | ⟨r, rfl, hr⟩)
    · have hm := hi.outer
      induction hp with
      | top he => exact .top (List.mem_append_left _ he)
      | step h1 hs he ih => exact .step ih (by unfold addSub; rw [if_neg (hm _ _ h1)]; exact hs) he
    · exact .top (e := theInst h hports) (List.mem_append_right _ List.mem_cons_self)
    · induction hr with
      | top he =>
        exact .step (p := ["X_" ++ h]) (.top (e := theInst h hports) (List.mem_append_right _ List.mem_cons_self))
          (s := ⟨hl⟩) (by simp [addSub, theInst]) he
      | step h1 hs he ih =>
        rw [← List.cons_append]
        exact .step ih (by unfold addSub; rw [if_neg (hi.inner _ _ h1)]; exact hs) he

theorem port_inside (hi : Inside D l0 hl h) {x y : Node} :
    Port (addSub D h ⟨hl⟩) (l0 ++ [theInst h hports]) x y ↔
      Port D l0 x y ∨ (∃ f ∈ hports, x = (["X_" ++ h], f) ∧ y = ([], f)) ∨
      ∃ a b : Node, x = (("X_" ++ h) :: a.1, a.2) ∧ y = (("X_" ++ h) :: b.1, b.2) ∧ Port D hl a b := by
  constructor
  · rintro ⟨h1, hs, hf⟩
    rename_i q i s f n
    rcases (at_inside hi).1 h1 with h2 | ⟨h2, rfl⟩ | ⟨r, h2, h3⟩
    · left
      unfold addSub at hs
      rw [if_neg (hi.outer _ _ h2)] at hs
      exact .mk h2 hs hf
    · right; left
      simp only [theInst, List.mem_map, Prod.mk.injEq] at hf
      obtain ⟨k, hk, rfl, rfl⟩ := hf
      have : q = [] := by
        have := congrArg List.length h2
        simp only [List.length_append, List.length_cons, List.length_nil] at this
        exact List.length_eq_zero_iff.mp (by omega)
      subst this
      exact ⟨k, hk, rfl, rfl⟩
    · right; right
      unfold addSub at hs
      rw [if_neg (hi.inner _ _ h3)] at hs
      obtain ⟨r', rfl⟩ := h3.last
      rw [← List.cons_append] at h2
      obtain ⟨rfl, _⟩ := List.append_inj' h2 rfl
      exact ⟨(r' ++ [i.name], f), (r', n), rfl, rfl, .mk h3 hs hf⟩
  · rintro (⟨h1, hs, hf⟩ | ⟨f, hf, rfl, rfl⟩ | ⟨a, b, rfl, rfl, ⟨h1, hs, hf⟩⟩)
    · exact .mk ((at_inside hi).2 (.inl h1)) (by unfold addSub; rw [if_neg (hi.outer _ _ h1)]; exact hs) hf
    · exact .mk (q := []) (i := theInst h hports) (s := ⟨hl⟩) ((at_inside hi).2 (.inr (.inl ⟨rfl, rfl⟩)))
        (by simp [addSub, theInst]) (List.mem_map.2 ⟨f, hf, rfl⟩)
    · rename_i q i s f n
      simp only
      rw [← List.cons_append]
      exact .mk (by rw [List.cons_append]; exact (at_inside hi).2 (.inr (.inr ⟨_, rfl, h1⟩)))
        (by unfold addSub; rw [if_neg (hi.inner _ _ h1)]; exact hs) hf

/-- A net of the subcircuit seen from the circuit. -/
def under' (h : String) (z : Node) : Node := (("X_" ++ h) :: z.1, z.2)

/-- A root of the subcircuit seen from the circuit. -/
def lift (h : String) (hports : List String) (z : Node) : Node := if z.1 = [] ∧ z.2 ∈ hports then ([], z.2) else under' h z

theorem connected_under (hi : Inside D l0 hl h) {x y : Node} (hc : Connected D hl x y) :
    Connected (addSub D h ⟨hl⟩) (l0 ++ [theInst h hports]) (under' h x) (under' h y) := by
  unfold Connected at hc ⊢
  induction hc with
  | rel a b hp => exact .rel _ _ ((port_inside hi).2 (.inr (.inr ⟨a, b, rfl, rfl, hp⟩)))
  | refl a => exact .refl _
  | symm _ _ _ ih => exact .symm _ _ ih
  | trans _ _ _ _ _ ih1 ih2 => exact .trans _ _ _ ih1 ih2

theorem connected_outer (hi : Inside D l0 hl h) {x y : Node} (hc : Connected D l0 x y) :
    Connected (addSub D h ⟨hl⟩) (l0 ++ [theInst h hports]) x y := by
  unfold Connected at hc ⊢
  induction hc with
  | rel a b hp => exact .rel _ _ ((port_inside hi).2 (.inl hp))
  | refl a => exact .refl _
  | symm _ _ _ ih => exact .symm _ _ ih
  | trans _ _ _ _ _ ih1 ih2 => exact .trans _ _ _ ih1 ih2

theorem connected_lift (hi : Inside D l0 hl h) (z : Node) :
    Connected (addSub D h ⟨hl⟩) (l0 ++ [theInst h hports]) (under' h z) (lift h hports z) := by
  unfold lift
  split
  · rename_i hz
    refine .rel _ _ ((port_inside hi).2 (.inr (.inl ⟨z.2, hz.2, ?_, rfl⟩)))
    simp [under', hz.1]
  · exact .refl _

theorem lift_inj {a b : Node} (hab : lift h hports a = lift h hports b) : a = b := by
  unfold lift under' at hab
  split at hab <;> split at hab
  · rename_i h1 h2
    exact Prod.ext (h1.1.trans h2.1.symm) (Prod.mk.inj hab).2
  · simp at hab
  · simp at hab
  · simp only [Prod.mk.injEq, List.cons.injEq, true_and] at hab
    exact Prod.ext hab.1 hab.2

/-- Nets of the surroundings are not below the instance. -/
theorem valid_outer (hi : Inside D l0 hl h) {x : Node} (hv : Valid D l0 x) (r : List String) : x.1 ≠ ("X_" ++ h) :: r := by
  rcases hv with hv | ⟨e, hv⟩
  · rw [hv]; simp
  · obtain ⟨a, q, hq, z, hz, rfl⟩ := hv.head
    rw [hq]
    intro hc
    exact hi.name z hz (List.cons.inj hc).1

theorem root_lift (hi : Inside D l0 hl h) {z : Node} (hr : Root D hl z) :
    Root (addSub D h ⟨hl⟩) (l0 ++ [theInst h hports]) (lift h hports z) := by
  intro y hy
  have htop : ∀ {n : String} {y : Node}, ¬Port (addSub D h ⟨hl⟩) (l0 ++ [theInst h hports]) ([], n) y := by
    intro n y hp
    generalize hz : (([], n) : Node) = x at hp
    cases hp
    have := (Prod.mk.inj hz).1
    simp at this
  unfold lift at hy
  split at hy
  · exact htop hy
  · rename_i hz
    rcases (port_inside hi).1 hy with h1 | ⟨f, hf, h2, rfl⟩ | ⟨a, b, h2, rfl, h3⟩
    · have := h1.valid.1
      exact valid_outer hi this z.1 rfl
    · simp only [under', Prod.mk.injEq, List.cons.injEq, true_and] at h2
      exact hz ⟨h2.1, h2.2 ▸ hf⟩
    · simp only [under', Prod.mk.injEq, List.cons.injEq, true_and] at h2
      exact hr b (by rw [show z = a from Prod.ext h2.1 h2.2]; exact h3)

theorem root_outer (hi : Inside D l0 hl h) {z : Node} (hv : Valid D l0 z) (hr : Root D l0 z) :
    Root (addSub D h ⟨hl⟩) (l0 ++ [theInst h hports]) z := by
  intro y hy
  rcases (port_inside hi).1 hy with h1 | ⟨f, hf, rfl, rfl⟩ | ⟨a, b, rfl, rfl, h3⟩
  · exact hr y h1
  · exact valid_outer hi hv [] rfl
  · exact valid_outer hi hv a.1 rfl

theorem inner_iff (hi : Inside D l0 hl h) (hw : WellFormed (addSub D h ⟨hl⟩) (l0 ++ [theInst h hports])) {x y : Node}
    (hx : Valid D hl x) (hy : Valid D hl y) :
    Connected (addSub D h ⟨hl⟩) (l0 ++ [theInst h hports]) (under' h x) (under' h y) ↔ Connected D hl x y := by
  refine ⟨fun hc => ?_, connected_under hi⟩
  obtain ⟨a, a1, a2, _⟩ := exists_root_of x hx
  obtain ⟨b, b1, b2, _⟩ := exists_root_of y hy
  have hcc : Connected (addSub D h ⟨hl⟩) (l0 ++ [theInst h hports]) (lift h hports a) (lift h hports b) := by
    have e1 := (connected_under (hports := hports) hi a1).trans _ _ _ (connected_lift hi a)
    have e2 := (connected_under (hports := hports) hi b1).trans _ _ _ (connected_lift hi b)
    exact (Relation.EqvGen.symm _ _ e1).trans _ _ _ (hc.trans _ _ _ e2)
  have := lift_inj (root_unique hw (root_lift hi a2) (root_lift hi b2) hcc)
  subst this
  exact a1.trans _ _ _ (.symm _ _ b1)

theorem outer_iff (hi : Inside D l0 hl h) (hw : WellFormed (addSub D h ⟨hl⟩) (l0 ++ [theInst h hports])) {x y : Node}
    (hx : Valid D l0 x) (hy : Valid D l0 y) :
    Connected (addSub D h ⟨hl⟩) (l0 ++ [theInst h hports]) x y ↔ Connected D l0 x y := by
  refine ⟨fun hc => ?_, connected_outer hi⟩
  obtain ⟨a, a1, a2, a3⟩ := exists_root_of x hx
  obtain ⟨b, b1, b2, b3⟩ := exists_root_of y hy
  have hcc := (Relation.EqvGen.symm _ _ (connected_outer (hports := hports) hi a1)).trans _ _ _
    (hc.trans _ _ _ (connected_outer hi b1))
  have := root_unique hw (root_outer hi a3 a2) (root_outer hi b3 b2) hcc
  subst this
  exact a1.trans _ _ _ (.symm _ _ b1)

theorem cross_iff (hi : Inside D l0 hl h) (hw : WellFormed (addSub D h ⟨hl⟩) (l0 ++ [theInst h hports])) {x y : Node}
    (hx : Valid D hl x) (hy : Valid D l0 y) :
    Connected (addSub D h ⟨hl⟩) (l0 ++ [theInst h hports]) (under' h x) y ↔
      ∃ m ∈ hports, Connected D hl x ([], m) ∧ Connected D l0 ([], m) y := by
  constructor
  · intro hc
    obtain ⟨a, a1, a2, _⟩ := exists_root_of x hx
    obtain ⟨b, b1, b2, b3⟩ := exists_root_of y hy
    have e1 := (connected_under (hports := hports) hi a1).trans _ _ _ (connected_lift hi a)
    have hcc := (Relation.EqvGen.symm _ _ e1).trans _ _ _ (hc.trans _ _ _ (connected_outer hi b1))
    have heq := root_unique hw (root_lift hi a2) (root_outer hi b3 b2) hcc
    unfold lift at heq
    split at heq
    · rename_i hz
      refine ⟨a.2, hz.2, ?_, ?_⟩
      · rwa [show (([], a.2) : Node) = a from Prod.ext hz.1.symm rfl]
      · rw [heq]; exact .symm _ _ b1
    · exact absurd (congrArg Prod.fst heq).symm (valid_outer hi b3 a.1)
  · rintro ⟨m, hm, h1, h2⟩
    refine (connected_under hi h1).trans _ _ _ ?_
    have e := connected_lift (hports := hports) hi ([], m)
    unfold lift at e
    rw [if_pos ⟨rfl, hm⟩] at e
    exact e.trans _ _ _ (connected_outer hi h2)

end

/-- The path of an occurrence when what is inside the subcircuit moves. -/
def inside (h : String) (μ : List String → List String) (p : List String) : List String :=
  match p with
  | [] => []
  | [a] => [a]
  | a :: b :: r => if a = "X_" ++ h then a :: μ (b :: r) else a :: b :: r

/-- Changing what is inside a subcircuit with one instance keeps the circuit if it keeps the subcircuit. -/
theorem keeps_inside {D D' : Lib} {l0 hl hl' : List Inst} {h : String} {hports ports : List String} {μ : List String → List String}
    (hi : Inside D l0 hl h) (hi' : Inside D' l0 hl' h)
    (hout : ∀ p e, At D l0 p e → D' e.model = D e.model)
    (hw : WellFormed (addSub D h ⟨hl⟩) (l0 ++ [theInst h hports]))
    (hw' : WellFormed (addSub D' h ⟨hl'⟩) (l0 ++ [theInst h hports]))
    (hk : Keeps hports D hl D' hl' μ) :
    Keeps ports (addSub D h ⟨hl⟩) (l0 ++ [theInst h hports]) (addSub D' h ⟨hl'⟩) (l0 ++ [theInst h hports]) (inside h μ) := by
  -- the surroundings are the same
  have hat : ∀ {p e}, At D l0 p e ↔ At D' l0 p e := by
    intro p e
    constructor
    · intro hp
      induction hp with
      | top he => exact .top he
      | step h1 hs he ih => exact .step ih (by rw [hout _ _ h1]; exact hs) he
    · intro hp
      induction hp with
      | top he => exact .top he
      | step h1 hs he ih => exact .step ih (by rw [← hout _ _ ih]; exact hs) he
  have hport : ∀ {x y}, Port D l0 x y ↔ Port D' l0 x y := by
    intro x y
    constructor
    · rintro ⟨h1, hs, hf⟩
      exact .mk (hat.1 h1) (by rw [hout _ _ h1]; exact hs) hf
    · rintro ⟨h1, hs, hf⟩
      exact .mk (hat.2 h1) (by rw [← hout _ _ (hat.2 h1)]; exact hs) hf
  have hconn : ∀ {x y}, Connected D l0 x y ↔ Connected D' l0 x y := by
    intro x y
    have : Port D l0 = Port D' l0 := by
      funext a b; exact propext hport
    unfold Connected
    rw [this]
  have hval : ∀ {x}, Valid D l0 x ↔ Valid D' l0 x := by
    intro x
    unfold Valid
    simp only [hat]
  -- the path of an occurrence of the surroundings does not change, nor that of the instance itself
  have hstay : ∀ {p e}, At D l0 p e → inside h μ p = p := by
    intro p e hp
    obtain ⟨a, q, rfl, z, hz, rfl⟩ := hp.head
    cases q with
    | nil => rfl
    | cons b r => exact if_neg (hi.name z hz)
  have hmove : ∀ {r e}, At D hl r e → inside h μ (("X_" ++ h) :: r) = ("X_" ++ h) :: μ r := by
    intro r e hr
    cases r with
    | nil => exact absurd rfl hr.ne_nil
    | cons b r => exact if_pos rfl
  -- the circuit that an occurrence is in
  have hcase : ∀ {p e}, At (addSub D h ⟨hl⟩) (l0 ++ [theInst h hports]) p e →
      (inside h μ p = p ∧ ∀ n, Valid D l0 (p.dropLast, n)) ∨
      ∃ r, p = ("X_" ++ h) :: r ∧ At D hl r e ∧ (∀ n, (p.dropLast, n) = under' h (r.dropLast, n)) ∧
        ∀ n, ((inside h μ p).dropLast, n) = under' h ((μ r).dropLast, n) := by
    intro p e hp
    rcases (at_inside hi).1 hp with h1 | ⟨rfl, rfl⟩ | ⟨r, rfl, h1⟩
    · exact .inl ⟨hstay h1, h1.valid⟩
    · exact .inl ⟨rfl, fun n => .inl rfl⟩
    · refine .inr ⟨r, rfl, h1, fun n => ?_, fun n => ?_⟩
      · unfold under'
        rw [List.dropLast_cons_of_ne_nil h1.ne_nil]
      · unfold under'
        rw [hmove h1, List.dropLast_cons_of_ne_nil (hk.occ _ _ h1).ne_nil]
  constructor
  · intro p e hp
    rcases (at_inside hi).1 hp with h1 | ⟨rfl, rfl⟩ | ⟨r, rfl, h1⟩
    · rw [hstay h1]; exact (at_inside hi').2 (.inl (hat.1 h1))
    · exact (at_inside hi').2 (.inr (.inl ⟨rfl, rfl⟩))
    · rw [hmove h1]
      exact (at_inside hi').2 (.inr (.inr ⟨_, rfl, hk.occ _ _ h1⟩))
  · intro p e q d hp hq heq
    have headne : ∀ {q : List String} {d : Inst}, At D l0 q d → ∀ r, q ≠ ("X_" ++ h) :: r := by
      intro q d hq r hc
      obtain ⟨a, q', rfl, z, hz, rfl⟩ := hq.head
      exact hi.name z hz (List.cons.inj hc).1
    rcases (at_inside hi).1 hp with h1 | ⟨rfl, rfl⟩ | ⟨r, rfl, h1⟩ <;>
      rcases (at_inside hi).1 hq with h2 | ⟨rfl, rfl⟩ | ⟨u, rfl, h2⟩
    · rwa [hstay h1, hstay h2] at heq
    · rw [hstay h1] at heq; exact absurd heq (headne h1 [])
    · rw [hstay h1, hmove h2] at heq; exact absurd heq (headne h1 _)
    · rw [hstay h2] at heq; exact absurd heq.symm (headne h2 [])
    · rfl
    · rw [hmove h2] at heq
      have := (List.cons.inj heq).2
      exact absurd this.symm (hk.occ _ _ h2).ne_nil
    · rw [hstay h2, hmove h1] at heq; exact absurd heq.symm (headne h2 _)
    · rw [hmove h1] at heq
      have := (List.cons.inj heq).2
      exact absurd this (hk.occ _ _ h1).ne_nil
    · rw [hmove h1, hmove h2] at heq
      rw [hk.inj _ _ _ _ h1 h2 (List.cons.inj heq).2]
  · intro p' e hp'
    rcases (at_inside hi').1 hp' with h1 | ⟨rfl, rfl⟩ | ⟨r, rfl, h1⟩
    · exact .inl ⟨p', (at_inside hi).2 (.inl (hat.2 h1)), (hstay (hat.2 h1)).symm⟩
    · exact .inl ⟨_, (at_inside hi).2 (.inr (.inl ⟨rfl, rfl⟩)), rfl⟩
    · rcases hk.only _ _ h1 with ⟨q, hq, rfl⟩ | ⟨h2, h3⟩
      · exact .inl ⟨_, (at_inside hi).2 (.inr (.inr ⟨q, rfl, hq⟩)), (hmove hq).symm⟩
      · have hne := hi'.inner _ _ h1
        refine .inr ⟨?_, ?_⟩
        · unfold addSub; rw [if_neg hne]; exact h2
        · unfold addSub; rw [if_neg hne]; exact h3
  · intro p e pin n u d pin' m hp hn hu hm
    rcases hcase hp with ⟨e1, v1⟩ | ⟨r, rfl, a1, e1, e2⟩ <;> rcases hcase hu with ⟨f1, w1⟩ | ⟨t, rfl, b1, f1, f2⟩
    · rw [e1, f1, outer_iff hi hw (v1 n) (w1 m), outer_iff hi' hw' (hval.1 (v1 n)) (hval.1 (w1 m)), hconn]
    · rw [e1, f1 m, f2 m]
      have s1 : ∀ {D : Lib} {l : List Inst} {x y : Node}, Connected D l x y ↔ Connected D l y x :=
        ⟨fun h => .symm _ _ h, fun h => .symm _ _ h⟩
      rw [s1, cross_iff hi' hw' ((hk.occ _ _ b1).valid m) (hval.1 (v1 n)), s1 (D := addSub D h ⟨hl⟩),
        cross_iff hi hw (b1.valid m) (v1 n)]
      constructor
      · rintro ⟨k, hk1, hk2, hk3⟩
        exact ⟨k, hk1, (hk.port _ _ _ _ b1 hm k hk1).1 hk2, hconn.2 hk3⟩
      · rintro ⟨k, hk1, hk2, hk3⟩
        exact ⟨k, hk1, (hk.port _ _ _ _ b1 hm k hk1).2 hk2, hconn.1 hk3⟩
    · rw [f1, e1 n, e2 n, cross_iff hi' hw' ((hk.occ _ _ a1).valid n) (hval.1 (w1 m)), cross_iff hi hw (a1.valid n) (w1 m)]
      constructor
      · rintro ⟨k, hk1, hk2, hk3⟩
        exact ⟨k, hk1, (hk.port _ _ _ _ a1 hn k hk1).1 hk2, hconn.2 hk3⟩
      · rintro ⟨k, hk1, hk2, hk3⟩
        exact ⟨k, hk1, (hk.port _ _ _ _ a1 hn k hk1).2 hk2, hconn.1 hk3⟩
    · rw [e1 n, e2 n, f1 m, f2 m, inner_iff hi' hw' ((hk.occ _ _ a1).valid n) ((hk.occ _ _ b1).valid m),
        inner_iff hi hw (a1.valid n) (b1.valid m)]
      exact hk.conn _ _ _ _ _ _ _ _ a1 hn b1 hm
  · intro p e pin n hp hn a ha
    have va : ∀ {D : Lib}, Valid D l0 (([], a) : Node) := .inl rfl
    rcases hcase hp with ⟨e1, v1⟩ | ⟨r, rfl, a1, e1, e2⟩
    · rw [e1, outer_iff hi hw (v1 n) va, outer_iff hi' hw' (hval.1 (v1 n)) va, hconn]
    · rw [e1 n, e2 n, cross_iff hi' hw' ((hk.occ _ _ a1).valid n) va, cross_iff hi hw (a1.valid n) va]
      constructor
      · rintro ⟨k, hk1, hk2, hk3⟩
        exact ⟨k, hk1, (hk.port _ _ _ _ a1 hn k hk1).1 hk2, hconn.2 hk3⟩
      · rintro ⟨k, hk1, hk2, hk3⟩
        exact ⟨k, hk1, (hk.port _ _ _ _ a1 hn k hk1).2 hk2, hconn.1 hk3⟩

end Verif.Net

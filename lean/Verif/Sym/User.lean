import Verif.Sym.Nets

/-!
# C74: symmetric blocks derived from symmetric nets of the user
-/

namespace Verif.Sym

/-! ## Specification -/

/-- The constraint says that `x` is the partner of `y`: the pins say so, or `x` has a pin on the first net that corresponds to one
of `y` on the second. -/
def Partner (E : Env) (u : UserNets) (x y : String) : Prop :=
  (∃ e ∈ u.pins, instOf e.1 = x ∧ instOf e.2 = y) ∨
  (u.pins = [] ∧ ∃ p q, OnNet E.sub u.net1 (.pin x p) ∧ OnNet E.sub u.net2 (.pin y q) ∧ Corr E u.net1 u.net2 (.pin x p) (.pin y q))

/-- The symmetric blocks `b` are what the constraint `u` says: instances occur at most once, pairs are partners, and an instance
that is listed alone is its own partner. -/
structure Derived (E : Env) (u : UserNets) (b : List (List String)) : Prop where
  once : b.flatten.Nodup
  entry : ∀ pr ∈ b, (∃ x y, pr = [x, y] ∧ x ≠ y ∧ Partner E u x y) ∨ ∃ x, pr = [x] ∧ Partner E u x x

/-- C74 in full, for the constraints `us` of the user, `w` what is constrained by other constraints, `there` the symmetric blocks
of the user. -/
def C74_statement (E : Env) (w : List Entry) (there : List (List (List String))) (us : List UserNets) : Prop :=
  ∀ bs w', userBlocks E w us = some (bs, w') → ∀ b ∈ userFinal there bs, ∃ u ∈ us, Derived E u b

/-- The constraints say different things about different instances: an instance with a partner is not the partner of another
instance, and instances are in one constraint only and not constrained otherwise. -/
structure Plain (E : Env) (w : List Entry) (us : List UserNets) : Prop where
  cross : ∀ u ∈ us, ∀ x y z, x ∉ E.sub.ports → z ∉ E.sub.ports → Partner E u x y → Partner E u z x → x = z
  inj : ∀ u ∈ us, u.pins ≠ [] → ∀ x z y, Partner E u x y → Partner E u z y → x = z
  free : ∀ u ∈ us, ∀ x y, Partner E u x y → ∀ e ∈ w, x ∉ e.names ∧ y ∉ e.names
  apart : us.Pairwise fun u v => ∀ x y x' y', Partner E u x y → Partner E v x' y' → x ≠ x' ∧ x ≠ y' ∧ y ≠ x' ∧ y ≠ y'

/-! ## The pairs -/

/-- What holds while terminals are matched for a constraint of the user. -/
structure UInv (E : Env) (a b : String) (st : Match) : Prop where
  src : ∀ t ∈ st.pins, ∃ la lb, (t.1, la) ∈ connection E a ∧ (t.2, lb) ∈ connection E b ∧ sameSet la lb = true
  model : ∀ t ∈ st.pins, ∀ i p j q, t = (.pin i p, .pin j q) →
    (getEl E.sub.elems i).map Inst.model = (getEl E.sub.elems j).map Inst.model
  kind : ∀ t ∈ st.pins, (∃ i p j q, t = (.pin i p, .pin j q)) ∨ ∃ m k, t = (.port m, .port k)
  keys : (st.pairs.map Prod.fst).Nodup
  owner : ∀ kv ∈ st.pairs, ∃ t ∈ st.pins, t.1.owner = kv.1 ∧ t.2.owner = kv.2
  vals : ∀ kv ∈ st.pairs, ∀ kv' ∈ st.pairs, kv.1 ∉ E.sub.ports → kv'.1 ∉ E.sub.ports → kv.2 = kv'.2 → kv = kv'

theorem matchStep_uinv {E : Env} (hord : ∀ l : List String, (E.ord l).Perm l) {w : List Entry} {skip : Option (List Entry)} {a b : String}
    {st st' : Match} {ab : (Term × List String) × Term × List String}
    (ha : ab.1 ∈ connection E a) (hb : ab.2 ∈ connection E b) (h : UInv E a b st)
    (hs : matchStep E w skip true st ab = some st') : UInv E a b st' := by
  unfold matchStep at hs
  split at hs
  · rename_i i p j q hi hj
    split at hs
    · cases hs; exact h
    split at hs
    · rename_i hsame
      split at hs
      · cases hs
      · rename_i hval
        rw [if_neg (by simp)] at hs
        cases hs
        rw [Bool.and_eq_true, beq_iff_eq] at hsame
        have hval : ∀ e ∈ st.pairs, e.2 ≠ j := fun e he hc => hval (List.any_eq_true.2 ⟨e, he, by simpa using hc⟩)
        refine ⟨?_, ?_, ?_, put_keys_nodup h.keys, ?_, ?_⟩
        · intro t ht
          rcases List.mem_append.1 ht with ht | ht
          · exact h.src t ht
          · simp only [List.mem_singleton] at ht
            subst ht
            exact ⟨ab.1.2, ab.2.2, ha, hb, hsame.1⟩
        · intro t ht i' p' j' q' hp'
          rcases List.mem_append.1 ht with ht | ht
          · exact h.model t ht i' p' j' q' hp'
          · simp only [List.mem_singleton] at ht
            rw [ht, hi, hj] at hp'
            simp only [Prod.mk.injEq, Term.pin.injEq] at hp'
            obtain ⟨⟨rfl, rfl⟩, rfl, rfl⟩ := hp'
            exact hsame.2
        · intro t ht
          rcases List.mem_append.1 ht with ht | ht
          · exact h.kind t ht
          · simp only [List.mem_singleton] at ht
            exact .inl ⟨i, p, j, q, by rw [ht, hi, hj]⟩
        · intro kv hkv
          rcases mem_put hkv with hkv | rfl
          · obtain ⟨t, ht, hk⟩ := h.owner kv hkv
            exact ⟨t, List.mem_append_left _ ht, hk⟩
          · exact ⟨(ab.1.1, ab.2.1), by simp, by rw [hi]; rfl, by rw [hj]; rfl⟩
        · intro kv hkv kv' hkv' hp hp' he
          rcases mem_put hkv with hkv | rfl <;> rcases mem_put hkv' with hkv' | rfl
          · exact h.vals kv hkv kv' hkv' hp hp' he
          · exact absurd he (hval kv hkv)
          · exact absurd he.symm (hval kv' hkv')
          · rfl
    · cases hs; exact h
  · rename_i m k hm hk
    split at hs
    · rename_i hc
      cases hs
      rw [Bool.and_eq_true, Bool.and_eq_true] at hc
      have hmp : m ∈ E.sub.ports := by
        have := onNet_of hord (t := ab.1.1) (lc := ab.1.2) ha
        rw [hm] at this
        exact this.1 ▸ this.2
      refine ⟨?_, ?_, ?_, put_keys_nodup h.keys, ?_, ?_⟩
      · intro t ht
        rcases List.mem_append.1 ht with ht | ht
        · exact h.src t ht
        · simp only [List.mem_singleton] at ht
          subst ht
          exact ⟨ab.1.2, ab.2.2, by rw [← hm]; exact ha, by rw [← hk]; exact hb, hc.1.1⟩
      · intro t ht i' p' j' q' hp'
        rcases List.mem_append.1 ht with ht | ht
        · exact h.model t ht i' p' j' q' hp'
        · simp only [List.mem_singleton] at ht
          rw [ht] at hp'
          simp at hp'
      · intro t ht
        rcases List.mem_append.1 ht with ht | ht
        · exact h.kind t ht
        · simp only [List.mem_singleton] at ht
          exact .inr ⟨m, k, ht⟩
      · intro kv hkv
        rcases mem_put hkv with hkv | rfl
        · obtain ⟨t, ht, hk⟩ := h.owner kv hkv
          exact ⟨t, List.mem_append_left _ ht, hk⟩
        · exact ⟨(.port m, .port k), by simp, rfl, rfl⟩
      · intro kv hkv kv' hkv' hp hp' he
        rcases mem_put hkv with hkv | rfl <;> rcases mem_put hkv' with hkv' | rfl
        · exact h.vals kv hkv kv' hkv' hp hp' he
        · exact absurd hmp hp'
        · exact absurd hmp hp
        · rfl
    · cases hs; exact h
  · cases hs; exact h

theorem userPairs_spec {E : Env} (hord : ∀ l : List String, (E.ord l).Perm l) (hl : Levels E.lib E.sub) (hn : Names E.sub) {w : List Entry}
    {u : UserNets} (hu : u.pins = []) {ps : List (String × String)} (h : userPairs E w u = some ps) :
    (ps.map Prod.fst).Nodup ∧ (∀ kv ∈ ps, kv.1 ∉ E.sub.ports → Partner E u kv.1 kv.2) ∧
    ∀ kv ∈ ps, ∀ kv' ∈ ps, kv.1 ∉ E.sub.ports → kv'.1 ∉ E.sub.ports → kv.2 = kv'.2 → kv = kv' := by
  unfold userPairs at h
  rw [if_pos hu, Option.bind_eq_some_iff] at h
  obtain ⟨o, ho, h⟩ := h
  rw [Option.map_eq_some_iff] at h
  obtain ⟨r, rfl, rfl⟩ := h
  unfold devicePairs at ho
  split at ho
  · cases ho
  simp only [Option.some.injEq, Option.bind_eq_some_iff] at ho
  obtain ⟨r', hr, ho⟩ := ho
  split at ho
  swap
  · cases ho
  simp only [Option.some.injEq] at ho
  subst ho
  have hi := foldlM_inv (P := UInv E u.net1 u.net2) (fun st ab hab st' hst hs => by
      simp only [List.mem_flatMap, List.mem_map] at hab
      obtain ⟨x, hx, y, hy, rfl⟩ := hab
      exact matchStep_uinv hord hx hy hst hs) ⟨by simp, by simp, by simp, by simp, by simp, by simp⟩ hr
  refine ⟨hi.keys, fun kv hkv hp => .inr ⟨hu, ?_⟩, hi.vals⟩
  obtain ⟨t, ht, h1, h2⟩ := hi.owner kv hkv
  have hc := corr_of hord hl hn (hi.src t ht) (hi.kind t ht) (hi.model t ht)
  obtain ⟨la, lb, ha, hb, -⟩ := hi.src t ht
  have ha := onNet_of hord ha
  have hb := onNet_of hord hb
  rcases hi.kind t ht with ⟨i, p, j, q, rfl⟩ | ⟨m, k, rfl⟩
  · simp only [Term.owner] at h1 h2
    subst h1 h2
    exact ⟨p, q, ha, hb, hc⟩
  · simp only [Term.owner] at h1
    subst h1
    exact absurd (ha.1 ▸ ha.2) hp

theorem userPairs_pins {E : Env} {w : List Entry} {u : UserNets} (hu : u.pins ≠ []) {ps : List (String × String)} (h : userPairs E w u = some ps) :
    (ps.map Prod.fst).Nodup ∧ ∀ kv ∈ ps, Partner E u kv.1 kv.2 := by
  unfold userPairs at h
  rw [if_neg hu] at h
  simp only [Option.some.injEq] at h
  subst h
  have hsub : ∀ e ∈ pinPairs E.sub.ports u.pins, e ∈ u.pins := by
    unfold pinPairs
    suffices H : ∀ (l d : List (String × String)), (∀ e ∈ d, e ∈ u.pins) → (∀ e ∈ l, e ∈ u.pins) →
        ∀ e ∈ l.foldl (fun d e => if d.any fun x => decide (x.1 = e.1) then d else if E.sub.ports.contains e.1 then d else d ++ [e]) d, e ∈ u.pins from
      H u.pins [] (by simp) (fun e he => he)
    intro l
    induction l with
    | nil => exact fun d hd _ => hd
    | cons e l ih =>
      intro d hd hl
      rw [List.foldl_cons]
      refine ih _ ?_ (fun x hx => hl x (by simp [hx]))
      split
      · exact hd
      split
      · exact hd
      · intro x hx
        rcases List.mem_append.1 hx with hx | hx
        · exact hd x hx
        · exact hl x (by simp at hx; simp [hx])
  generalize pinPairs E.sub.ports u.pins = l at hsub
  suffices H : ∀ (d : List (String × String)), (d.map Prod.fst).Nodup → (∀ kv ∈ d, Partner E u kv.1 kv.2) →
      ((l.foldl (fun d e => put d (instOf e.1) (instOf e.2)) d).map Prod.fst).Nodup ∧
      ∀ kv ∈ l.foldl (fun d e => put d (instOf e.1) (instOf e.2)) d, Partner E u kv.1 kv.2 from H [] (by simp) (by simp)
  induction l with
  | nil => exact fun d h1 h2 => ⟨h1, h2⟩
  | cons e l ih =>
    intro d h1 h2
    rw [List.foldl_cons]
    refine ih (fun x hx => hsub x (by simp [hx])) _ (put_keys_nodup h1) fun kv hkv => ?_
    rcases mem_put hkv with hkv | rfl
    · exact h2 kv hkv
    · exact .inl ⟨e, hsub e (by simp), rfl, rfl⟩

/-! ## The blocks of one constraint -/

/-- What the loop makes of pairs that are new. -/
def blocksOf (ports : List String) (ps : List (String × String)) : List (List String) :=
  (ps.filter fun kv => decide (kv.1 ∉ ports)).map fun kv => if kv.1 = kv.2 then [kv.1] else [kv.1, kv.2]

theorem hasSet_append {w v : List Entry} {a b : String} : hasSet (w ++ v) a b = (hasSet w a b || hasSet v a b) := List.any_append

theorem userStep_fold {ports : List String} {ps : List (String × String)} {w : List Entry} {b : List (List String)}
    (hk : (ps.map Prod.fst).Nodup)
    (hf : ∀ kv ∈ ps, kv.1 ∉ ports → hasSet w kv.1 kv.2 = false ∧ hasName w kv.1 = false)
    (hx : ∀ kv ∈ ps, ∀ kv' ∈ ps, kv.1 ∉ ports → kv'.1 ∉ ports → kv.1 = kv'.2 → kv.1 = kv'.1) :
    (ps.foldl (userStep ports) (b, w)).1 = b ++ blocksOf ports ps ∧
    ∀ e ∈ (ps.foldl (userStep ports) (b, w)).2, e ∈ w ∨ ∃ kv ∈ ps, kv.1 ∉ ports ∧ ∀ x ∈ e.names, x = kv.1 ∨ x = kv.2 := by
  induction ps generalizing b w with
  | nil => simp [blocksOf]
  | cons kv ps ih =>
    rw [List.foldl_cons]
    simp only [List.map_cons, List.nodup_cons] at hk
    have hx' : ∀ a ∈ ps, ∀ c ∈ ps, a.1 ∉ ports → c.1 ∉ ports → a.1 = c.2 → a.1 = c.1 := fun a ha c hc =>
      hx a (by simp [ha]) c (by simp [hc])
    by_cases hp : kv.1 ∈ ports
    · have h1 : userStep ports (b, w) kv = (b, w) := by
        unfold userStep; rw [if_pos (by simpa using hp)]
      rw [h1]
      obtain ⟨g1, g2⟩ := ih (b := b) hk.2 (fun a ha => hf a (by simp [ha])) hx'
      refine ⟨by rw [g1]; simp [blocksOf, hp], fun e he => ?_⟩
      rcases g2 e he with h | ⟨a, ha, h⟩
      · exact .inl h
      · exact .inr ⟨a, by simp [ha], h⟩
    · obtain ⟨f1, f2⟩ := hf kv (by simp) hp
      obtain ⟨en, hen, hstep⟩ : ∃ en : Entry, (en = .set kv.1 kv.2 ∨ en = .one kv.1) ∧
          userStep ports (b, w) kv = (b ++ [if kv.1 = kv.2 then [kv.1] else [kv.1, kv.2]], w ++ [en]) := by
        unfold userStep
        rw [if_neg (by simpa using hp)]
        by_cases he : kv.1 = kv.2
        · exact ⟨.one kv.1, .inr rfl, by rw [if_neg (by simp [he]), if_pos f2, if_pos he]⟩
        · exact ⟨.set kv.1 kv.2, .inl rfl, by rw [if_pos ⟨he, f1⟩, if_neg he]⟩
      rw [hstep]
      have hnew : ∀ a ∈ ps, a.1 ∉ ports → hasSet (w ++ [en]) a.1 a.2 = false ∧ hasName (w ++ [en]) a.1 = false := by
        intro a ha hpa
        obtain ⟨g1, g2⟩ := hf a (by simp [ha]) hpa
        have hne : a.1 ≠ kv.1 := fun hc => hk.1 (hc ▸ List.mem_map_of_mem ha)
        have hne2 : a.1 ≠ kv.2 := fun hc => hne (hx a (by simp [ha]) kv (by simp) hpa hp hc)
        refine ⟨?_, ?_⟩
        · rw [hasSet_append, g1, Bool.false_or]
          rcases hen with rfl | rfl
          · simp [hasSet, Ne.symm hne, Ne.symm hne2]
          · simp [hasSet]
        · simp only [hasName, List.contains_eq_mem, List.mem_append, decide_eq_false_iff_not, not_or, List.mem_singleton] at g2 ⊢
          refine ⟨g2, ?_⟩
          rcases hen with rfl | rfl
          · simp
          · simpa using hne
      obtain ⟨g1, g2⟩ := ih (b := b ++ [if kv.1 = kv.2 then [kv.1] else [kv.1, kv.2]]) hk.2 hnew hx'
      refine ⟨by rw [g1]; simp [blocksOf, hp], fun e he => ?_⟩
      rcases g2 e he with h | ⟨a, ha, h⟩
      · rcases List.mem_append.1 h with h | h
        · exact .inl h
        · refine .inr ⟨kv, by simp, hp, fun x hx => ?_⟩
          simp only [List.mem_singleton] at h
          rw [h] at hx
          rcases hen with rfl | rfl <;> simp [Entry.names] at hx <;> tauto
      · exact .inr ⟨a, by simp [ha], h⟩

theorem blocksOf_nodup {ports : List String} {ps : List (String × String)} (hk : (ps.map Prod.fst).Nodup)
    (hv : ∀ kv ∈ ps, ∀ kv' ∈ ps, kv.1 ∉ ports → kv'.1 ∉ ports → kv.2 = kv'.2 → kv = kv')
    (hx : ∀ kv ∈ ps, ∀ kv' ∈ ps, kv.1 ∉ ports → kv'.1 ∉ ports → kv.1 = kv'.2 → kv.1 = kv'.1) : (blocksOf ports ps).flatten.Nodup := by
  induction ps with
  | nil => simp [blocksOf]
  | cons kv ps ih =>
    simp only [List.map_cons, List.nodup_cons] at hk
    have ih := ih hk.2 (fun a ha c hc => hv a (by simp [ha]) c (by simp [hc])) fun a ha c hc => hx a (by simp [ha]) c (by simp [hc])
    by_cases hp : kv.1 ∈ ports
    · have : blocksOf ports (kv :: ps) = blocksOf ports ps := by simp [blocksOf, hp]
      rw [this]; exact ih
    · have : blocksOf ports (kv :: ps) = (if kv.1 = kv.2 then [kv.1] else [kv.1, kv.2]) :: blocksOf ports ps := by simp [blocksOf, hp]
      rw [this, List.flatten_cons]
      refine List.Nodup.append ?_ ih ?_
      · split <;> rename_i h <;> simp [h]
      · intro x hx1 hx2
        have hx1 : x = kv.1 ∨ x = kv.2 := by
          split at hx1 <;> simp at hx1 <;> tauto
        obtain ⟨pr, hpr, hxp⟩ := List.mem_flatten.1 hx2
        simp only [blocksOf, List.mem_map, List.mem_filter, decide_eq_true_eq] at hpr
        obtain ⟨a, ⟨ha, hpa⟩, rfl⟩ := hpr
        have hx2 : x = a.1 ∨ x = a.2 := by
          split at hxp <;> simp at hxp <;> tauto
        have hne : a.1 ≠ kv.1 := fun hc => hk.1 (hc ▸ List.mem_map_of_mem ha)
        rcases hx1 with h1 | h1 <;> rcases hx2 with h2 | h2
        · exact hne (h2.symm.trans h1)
        · exact hne (hx kv (by simp) a (by simp [ha]) hp hpa (h1.symm.trans h2)).symm
        · exact hne (hx a (by simp [ha]) kv (by simp) hpa hp (h2.symm.trans h1))
        · exact hne (congrArg Prod.fst (hv a (by simp [ha]) kv (by simp) hpa hp (h2.symm.trans h1)))

theorem mem_userFinal {there bs : List (List (List String))} {b : List (List String)} (h : b ∈ userFinal there bs) : b ∈ bs := by
  unfold userFinal at h
  suffices H : ∀ (l acc : List (List (List String))), (∀ x ∈ acc, x ∈ bs) → (∀ x ∈ l, x ∈ bs) →
      ∀ x ∈ l.foldl (fun acc b => if (there ++ acc).any fun c => b.all fun pr => c.contains pr then acc else acc ++ [b]) acc, x ∈ bs from
    H bs [] (by simp) (fun x hx => hx) b h
  intro l
  induction l with
  | nil => exact fun acc h _ => h
  | cons c l ih =>
    intro acc ha hl
    rw [List.foldl_cons]
    refine ih _ ?_ fun x hx => hl x (by simp [hx])
    split
    · exact ha
    · intro x hx
      rcases List.mem_append.1 hx with hx | hx
      · exact ha x hx
      · exact hl x (by simp at hx; simp [hx])

theorem derived_one {E : Env} (hord : ∀ l : List String, (E.ord l).Perm l) (hl : Levels E.lib E.sub) (hn : Names E.sub) {w : List Entry}
    {u : UserNets} {ps : List (String × String)} (h : userPairs E w u = some ps)
    (hc : ∀ x y z, x ∉ E.sub.ports → z ∉ E.sub.ports → Partner E u x y → Partner E u z x → x = z)
    (hi : u.pins ≠ [] → ∀ x z y, Partner E u x y → Partner E u z y → x = z)
    (hf : ∀ x y, Partner E u x y → ∀ e ∈ w, x ∉ e.names ∧ y ∉ e.names) :
    Derived E u (ps.foldl (userStep E.sub.ports) ([], w)).1 ∧
    ∀ e ∈ (ps.foldl (userStep E.sub.ports) ([], w)).2, e ∈ w ∨ ∃ x y, Partner E u x y ∧ ∀ z ∈ e.names, z = x ∨ z = y := by
  have hfull : (ps.map Prod.fst).Nodup ∧ (∀ kv ∈ ps, kv.1 ∉ E.sub.ports → Partner E u kv.1 kv.2) ∧
      ∀ kv ∈ ps, ∀ kv' ∈ ps, kv.1 ∉ E.sub.ports → kv'.1 ∉ E.sub.ports → kv.2 = kv'.2 → kv = kv' := by
    by_cases hu : u.pins = []
    · exact userPairs_spec hord hl hn hu h
    · obtain ⟨h1, h2⟩ := userPairs_pins hu h
      refine ⟨h1, fun kv hkv _ => h2 kv hkv, fun kv hkv kv' hkv' _ _ he => ?_⟩
      have := hi hu kv.1 kv'.1 kv.2 (h2 kv hkv) (he ▸ h2 kv' hkv')
      exact Prod.ext this he
  obtain ⟨hk, hp, hv⟩ := hfull
  have hx : ∀ kv ∈ ps, ∀ kv' ∈ ps, kv.1 ∉ E.sub.ports → kv'.1 ∉ E.sub.ports → kv.1 = kv'.2 → kv.1 = kv'.1 := by
    intro kv hkv kv' hkv' h1 h2 he
    exact hc kv.1 kv.2 kv'.1 h1 h2 (hp kv hkv h1) (he ▸ hp kv' hkv' h2)
  have hfr : ∀ kv ∈ ps, kv.1 ∉ E.sub.ports → hasSet w kv.1 kv.2 = false ∧ hasName w kv.1 = false := by
    intro kv hkv h1
    have := hf kv.1 kv.2 (hp kv hkv h1)
    refine ⟨?_, ?_⟩
    · cases hs : hasSet w kv.1 kv.2 with
      | false => rfl
      | true =>
        rcases hasSet_iff.1 hs with hs | hs
        · exact absurd (by simp [Entry.names]) (this _ hs).1
        · exact absurd (by simp [Entry.names]) (this _ hs).1
    · cases hs : hasName w kv.1 with
      | false => rfl
      | true =>
        simp only [hasName, List.contains_eq_mem, decide_eq_true_eq] at hs
        exact absurd (by simp [Entry.names]) (this _ hs).1
  obtain ⟨g1, g2⟩ := userStep_fold (b := []) hk hfr hx
  rw [g1, List.nil_append]
  refine ⟨⟨blocksOf_nodup hk hv hx, fun pr hpr => ?_⟩, fun e he => ?_⟩
  · simp only [blocksOf, List.mem_map, List.mem_filter, decide_eq_true_eq] at hpr
    obtain ⟨kv, ⟨hkv, h1⟩, rfl⟩ := hpr
    have := hp kv hkv h1
    split
    · rename_i he
      exact .inr ⟨kv.1, rfl, by rw [← he] at this; exact this⟩
    · rename_i he
      exact .inl ⟨kv.1, kv.2, rfl, he, this⟩
  · rcases g2 e he with h | ⟨kv, hkv, h1, h2⟩
    · exact .inl h
    · exact .inr ⟨kv.1, kv.2, hp kv hkv h1, h2⟩

/-- C74 when the constraints say different things about different instances; see `C74_violated_alone` and
`C74_violated_crossed` for what happens otherwise. -/
theorem C74_derived_partial (E : Env) (w : List Entry) (there : List (List (List String))) (us : List UserNets)
    (hord : ∀ l : List String, (E.ord l).Perm l) (hl : Levels E.lib E.sub) (hn : Names E.sub) (hp : Plain E w us) :
    C74_statement E w there us := by
  suffices H : ∀ bs w', userBlocks E w us = some (bs, w') → ∀ b ∈ bs, ∃ u ∈ us, Derived E u b from
    fun bs w' h b hb => H bs w' h b (mem_userFinal hb)
  induction us generalizing w with
  | nil => intro bs w' h b hb; cases h; cases hb
  | cons u us ih =>
    intro bs w' h b hb
    simp only [userBlocks, Option.bind_eq_some_iff, Option.map_eq_some_iff] at h
    obtain ⟨ps, hps, t, ht, he⟩ := h
    obtain ⟨d1, d2⟩ := derived_one hord hl hn hps (hp.cross u (by simp)) (hp.inj u (by simp)) (hp.free u (by simp))
    have hpa := List.pairwise_cons.1 hp.apart
    have hp' : Plain E (ps.foldl (userStep E.sub.ports) ([], w)).2 us := by
      refine ⟨fun v hv => hp.cross v (by simp [hv]), fun v hv => hp.inj v (by simp [hv]), fun v hv x y hxy e he => ?_, hpa.2⟩
      rcases d2 e he with h | ⟨x', y', hp', hz⟩
      · exact hp.free v (by simp [hv]) x y hxy e h
      · obtain ⟨a1, a2, a3, a4⟩ := hpa.1 v hv x' y' x y hp' hxy
        refine ⟨fun hc => ?_, fun hc => ?_⟩
        · rcases hz x hc with h | h
          · exact a1 h.symm
          · exact a3 h.symm
        · rcases hz y hc with h | h
          · exact a2 h.symm
          · exact a4 h.symm
    have hrec := ih _ hp' t.1 t.2 ht
    have hbs := (congrArg Prod.fst he).symm
    dsimp only at hbs
    rw [hbs] at hb
    split at hb
    · rcases List.mem_cons.1 hb with rfl | hb
      · exact ⟨u, by simp, d1⟩
      · obtain ⟨v, hv, hd⟩ := hrec b hb
        exact ⟨v, by simp [hv], hd⟩
    · obtain ⟨v, hv, hd⟩ := hrec b hb
      exact ⟨v, by simp [hv], hd⟩

/-! ## Violations -/

theorem diff_blocks : (userBlocks exE [] [⟨"INP", "INN", []⟩, ⟨"OUTN", "OUTP", []⟩]).map (fun r => userFinal [] r.1) =
    some [[["M1", "M2"]], [["M1"], ["R1", "R2"], ["C1", "C2"]]] := by decide +kernel

/-- The code violates C74: a designer declares the inputs and the outputs of a differential stage as symmetric nets; the second
constraint makes the transistor of the first its own partner, although it has no pin on the second net. -/
theorem C74_violated_alone : ∃ (E : Env) (us : List UserNets), (∀ l : List String, (E.ord l).Perm l) ∧ Levels E.lib E.sub ∧ Names E.sub ∧
    ¬ C74_statement E [] [] us := by
  refine ⟨exE, [⟨"INP", "INN", []⟩, ⟨"OUTN", "OUTP", []⟩], fun l => List.Perm.refl l, exE_levels, by unfold Names; decide +kernel, fun h => ?_⟩
  obtain ⟨⟨bs, w'⟩, hb, he⟩ := Option.map_eq_some_iff.1 diff_blocks
  obtain ⟨u, hu, hd⟩ := h bs w' hb [["M1"], ["R1", "R2"], ["C1", "C2"]] (by
    have : userFinal [] bs = _ := he
    rw [this]; simp)
  have hself : ∀ u ∈ [(⟨"INP", "INN", []⟩ : UserNets), ⟨"OUTN", "OUTP", []⟩], ¬ Partner exE u "M1" "M1" := by
    intro u hu hp
    have hm : ∀ n q, OnNet exE.sub n (.pin "M1" q) → n = "OUTN" ∨ n = "INP" ∨ n = "T" ∨ n = "VSS" := by
      rintro n q ⟨e, he, hne, hq⟩
      simp only [exE, exS, List.mem_cons, List.not_mem_nil, or_false] at he
      rcases he with rfl | rfl | rfl | rfl | rfl | rfl <;> simp at hne hq <;> tauto
    simp only [List.mem_cons, List.not_mem_nil, or_false] at hu
    rcases hu with rfl | rfl
    · rcases hp with ⟨e, he, -⟩ | ⟨-, p, q, -, h2, -⟩
      · cases he
      · exact absurd (hm _ _ h2) (by decide)
    · rcases hp with ⟨e, he, -⟩ | ⟨-, p, q, -, h2, -⟩
      · cases he
      · exact absurd (hm _ _ h2) (by decide)
  rcases hd.entry ["M1"] (by simp) with ⟨x, y, hxy, -⟩ | ⟨x, hx, hp⟩
  · simp at hxy
  · simp only [List.cons.injEq, and_true] at hx
    subst hx
    exact hself u hu hp

/-- A cross-coupled pair. -/
def crS : Sub := ⟨"LATCH", ["X", "Y", "VSS"],
  [⟨"M1", "INV", [("A", "X"), ("Z", "Y")], []⟩, ⟨"M2", "INV", [("A", "Y"), ("Z", "X")], []⟩]⟩

def crE : Env := { exE with sub := crS }

theorem cross_blocks : (userBlocks crE [] [⟨"X", "Y", []⟩]).map (fun r => userFinal [] r.1) = some [[["M1", "M2"], ["M2"]]] := by
  decide +kernel

/-- The code violates C74: in a latch the second of two cross-coupled gates is listed twice, once as the partner of the first and
once as its own. -/
theorem C74_violated_crossed : ∃ (E : Env) (us : List UserNets), (∀ l : List String, (E.ord l).Perm l) ∧ Levels E.lib E.sub ∧ Names E.sub ∧
    ¬ C74_statement E [] [] us := by
  refine ⟨crE, [⟨"X", "Y", []⟩], fun l => List.Perm.refl l, ⟨fun _ => 0, by simp [crE, exE], by simp [crE, exE], by simp [crE, exE, find]⟩,
    by unfold Names; decide +kernel, fun h => ?_⟩
  obtain ⟨⟨bs, w'⟩, hb, he⟩ := Option.map_eq_some_iff.1 cross_blocks
  obtain ⟨u, -, hd⟩ := h bs w' hb [["M1", "M2"], ["M2"]] (by
    have : userFinal [] bs = _ := he
    rw [this]; simp)
  exact absurd hd.once (by decide)

/-! ## An example -/

/-- The hypotheses are met: the outputs of the differential stage, for which three pairs are derived. -/
example : Plain exE [] [⟨"OUTN", "OUTP", []⟩] ∧
    (userBlocks exE [] [⟨"OUTN", "OUTP", []⟩]).map (fun r => userFinal [] r.1) = some [[["M1", "M2"], ["R1", "R2"], ["C1", "C2"]]] := by
  have key : ∀ x y, Partner exE ⟨"OUTN", "OUTP", []⟩ x y → (x = "M1" ∨ x = "R1" ∨ x = "C1") ∧ (y = "M2" ∨ y = "R2" ∨ y = "C2") := by
    rintro x y (⟨e, he, -⟩ | ⟨-, p, q, ⟨e, he, rfl, hp⟩, ⟨d, hd, rfl, hq⟩, -⟩)
    · cases he
    · simp only [exE, exS, List.mem_cons, List.not_mem_nil, or_false] at he hd
      refine ⟨?_, ?_⟩
      · rcases he with rfl | rfl | rfl | rfl | rfl | rfl <;> simp at hp ⊢
      · rcases hd with rfl | rfl | rfl | rfl | rfl | rfl <;> simp at hq ⊢
  refine ⟨⟨?_, ?_, by simp, by simp⟩, by decide +kernel⟩
  · intro u hu x y z _ _ h1 h2
    simp only [List.mem_singleton] at hu
    subst hu
    rcases (key _ _ h1).1 with rfl | rfl | rfl <;> have := (key _ _ h2).2 <;> simp at this
  · intro u hu hpi
    simp only [List.mem_singleton] at hu
    subst hu
    exact absurd rfl hpi

end Verif.Sym

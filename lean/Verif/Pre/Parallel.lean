import Mathlib.Data.List.Basic
import Mathlib.Data.List.Nodup
import Mathlib.Tactic.Tauto
import Verif.Util.Sort

/-!
# C43: merging parallel devices

Model of `add_parallel_devices` (`align/compiler/preprocess.py`, 271-305).

Simplifications: pins and parameters are association lists in one fixed order, so that equality of dictionaries is equality
of lists; the parameter `PARALLEL` is a number kept apart from the others (`par`, none if the model does not have it);
the graph built for every net is the list of elements.  `getattr(x.parameters, "PARALLEL", "1")` (303) is always `"1"`:
the dictionary class of `align/schema/types.py` (213-261) has no such attribute.
The order in which the set of nets is visited is a parameter.
-/

namespace Verif.Pre

/-- A device of a circuit. -/
structure Dev where
  name : String
  model : String
  pins : List (String × String)
  par : Option Nat
  other : List (String × String)
  deriving DecidableEq

/-- The dictionary `p` of 292-293. -/
def Dev.key (d : Dev) : String × List (String × String) × Option Nat × List (String × String) :=
  (d.model, d.pins, d.par, d.other)

def Dev.uses (d : Dev) (net : String) : Bool := d.pins.any fun p => p.2 = net

/-- Lines 284-298: the groups of equal devices on a net, in the order of their first device. -/
def groups (l : List Dev) (net : String) : List (List Dev) :=
  let cand := l.filter fun d => d.uses net && d.par.isSome
  (cand.map Dev.key).eraseDups.map fun k => cand.filter fun d => d.key = k

/-- Lines 300-305: the device with the smallest name gets the number of devices, all but the first are removed. -/
def mergeGroup (l pd : List Dev) : List Dev :=
  if pd.length > 1 then
    match pySort (fun a b => decide (a.name ≤ b.name)) pd with
    | [] => l
    | pd0 :: _ =>
      pd.tail.foldl (fun l x => l.eraseP fun d => d.name = x.name)
        (l.map fun d => if d.name = pd0.name then { d with par := some pd.length } else d)
  else l

/-- Lines 282-305 for one net. -/
def mergeNet (l : List Dev) (net : String) : List Dev := (groups l net).foldl mergeGroup l

/-- `add_parallel_devices`, the nets in the order given. -/
def addParallel (nets : List String) (l : List Dev) : List Dev := nets.foldl mergeNet l

/-! ## Specification -/

/-- What devices have to agree on to be parallel: model, pins and the other parameters. -/
def Dev.cls (d : Dev) : String × List (String × String) × List (String × String) := (d.model, d.pins, d.other)

/-- The number of units of a class. -/
def units (l : List Dev) (c : String × List (String × String) × List (String × String)) : Nat :=
  ((l.filter fun d => d.cls = c).map fun d => d.par.getD 0).sum

/-! ## Proofs -/

/-- The devices of a class that can be merged. -/
def F (l : List Dev) (c : String × List (String × String) × List (String × String)) : List Dev :=
  l.filter fun d => d.cls = c && d.par.isSome

/-- The class after merging. -/
def collapse : List Dev → List Dev
  | [] => []
  | [d] => [d]
  | d :: e :: t => [{ d with par := some (e :: t).length.succ }]

/-- What the merging needs: distinct names, every class in the order of names, and equal multiplicities in a class. -/
structure Ok (l : List Dev) : Prop where
  nodup : (l.map Dev.name).Nodup
  order : l.Pairwise fun a b => a.cls = b.cls → a.name ≤ b.name
  same : ∀ a ∈ l, ∀ b ∈ l, a.cls = b.cls → a.par.isSome → b.par.isSome → a.par = b.par

theorem foldl_eraseP {xs l : List Dev} (hn : (l.map Dev.name).Nodup) :
    xs.foldl (fun l x => l.eraseP fun d => d.name = x.name) l =
      l.filter fun d => decide (d.name ∉ xs.map Dev.name) := by
  induction xs generalizing l with
  | nil => simp
  | cons x xs ih =>
    rw [List.foldl_cons]
    have e : (l.eraseP fun d => decide (d.name = x.name)) = l.filter fun d => decide (d.name ≠ x.name) := by
      clear ih
      induction l with
      | nil => rfl
      | cons a l ih =>
        rw [List.map_cons, List.nodup_cons] at hn
        by_cases h : a.name = x.name
        · rw [List.eraseP_cons_of_pos (by simpa using h), List.filter_cons_of_neg (by simpa using h)]
          symm
          rw [List.filter_eq_self]
          intro b hb
          simp only [decide_eq_true_eq]
          intro hbx
          exact hn.1 (List.mem_map.mpr ⟨b, hb, hbx.trans h.symm⟩)
        · rw [List.eraseP_cons_of_neg (by simpa using h), List.filter_cons_of_pos (by simpa using h), ih hn.2]
    rw [e, ih (hn.sublist (List.filter_sublist.map _)), List.filter_filter]
    apply List.filter_congr
    intro d _
    by_cases h1 : d.name = x.name <;> by_cases h2 : d.name ∈ xs.map Dev.name <;> simp [h1, h2]

theorem name_inj {l : List Dev} (h : (l.map Dev.name).Nodup) {a b : Dev} (ha : a ∈ l) (hb : b ∈ l)
    (he : a.name = b.name) : a = b := List.inj_on_of_nodup_map h ha hb he

/-- Merging one class. -/
theorem mergeGroup_spec {l : List Dev} (hok : Ok l) {c : String × List (String × String) × List (String × String)} {d0 d1 : Dev}
    {t : List Dev} (hF : F l c = d0 :: d1 :: t) :
    mergeGroup l (F l c) = (l.map fun d => if d.name = d0.name then { d with par := some (t.length + 2) } else d).filter
      fun d => decide (d.name ∉ (d1 :: t).map Dev.name) := by
  unfold mergeGroup
  have hlen : (F l c).length > 1 := by rw [hF]; simp
  rw [if_pos hlen]
  have hs : pySort (fun a b => decide (a.name ≤ b.name)) (F l c) = F l c := by
    apply pySort_of_pairwise
    have hp : (F l c).Pairwise fun a b => a.cls = b.cls → a.name ≤ b.name := hok.order.sublist List.filter_sublist
    refine hp.imp_of_mem ?_
    intro a b ha hb h
    have h1 := (List.mem_filter.mp ha).2
    have h2 := (List.mem_filter.mp hb).2
    simp only [Bool.and_eq_true, decide_eq_true_eq] at h1 h2 ⊢
    exact h (h1.1.trans h2.1.symm)
  rw [hs, hF]
  simp only [List.tail_cons, List.length_cons]
  rw [foldl_eraseP]
  rw [List.map_map]
  have : (Dev.name ∘ fun d : Dev => if d.name = d0.name then { d with par := some (t.length + 1 + 1) } else d) = Dev.name := by
    funext d
    simp only [Function.comp]
    split <;> rfl
  rw [this]
  exact hok.nodup

theorem F_merge {l : List Dev} (hok : Ok l) {c : String × List (String × String) × List (String × String)} :
    (∀ c', F (mergeGroup l (F l c)) c' = if c' = c then collapse (F l c) else F l c') ∧
    ((mergeGroup l (F l c)).filter fun d => d.par.isNone) = (l.filter fun d => d.par.isNone) ∧
    Ok (mergeGroup l (F l c)) := by
  by_cases hlen : (F l c).length > 1
  · obtain ⟨d0, d1, t, hF⟩ : ∃ d0 d1 t, F l c = d0 :: d1 :: t := by
      match hh : F l c with
      | [] => rw [hh] at hlen; simp at hlen
      | [a] => rw [hh] at hlen; simp at hlen
      | a :: b :: t => exact ⟨a, b, t, rfl⟩
    rw [mergeGroup_spec hok hF]
    have hmemF : ∀ d, d ∈ F l c ↔ d ∈ l ∧ d.cls = c ∧ d.par.isSome := by
      intro d; unfold F; simp [List.mem_filter]
    have h0 : d0 ∈ l ∧ d0.cls = c ∧ d0.par.isSome := (hmemF d0).mp (by rw [hF]; simp)
    have hnF : ((F l c).map Dev.name).Nodup := hok.nodup.sublist (List.filter_sublist.map _)
    rw [hF] at hnF
    -- the map does not change the class, nor whether the device can be merged
    let f : Dev → Dev := fun d => if d.name = d0.name then { d with par := some (t.length + 2) } else d
    have fname : ∀ d, (f d).name = d.name := fun d => by simp only [f]; split <;> rfl
    have fcls : ∀ d, (f d).cls = d.cls := fun d => by simp only [f]; split <;> rfl
    have fpar : ∀ d ∈ l, (f d).par.isSome = d.par.isSome := by
      intro d hd
      simp only [f]
      split
      · rename_i hn
        rw [name_inj hok.nodup hd h0.1 hn, h0.2.2]
        rfl
      · rfl
    have fid : ∀ d, d.name ≠ d0.name → f d = d := fun d h => by simp only [f]; rw [if_neg h]
    have key : ∀ c', F ((l.map f).filter fun d => decide (d.name ∉ (d1 :: t).map Dev.name)) c' =
        ((F l c').map f).filter fun d => decide (d.name ∉ (d1 :: t).map Dev.name) := by
      intro c'
      unfold F
      rw [List.filter_filter, List.filter_map, List.filter_map, List.filter_filter]
      congr 1
      apply List.filter_congr
      intro d hd
      simp only [Function.comp, fcls, fpar d hd, fname]
      exact Bool.and_comm _ _
    refine ⟨?_, ?_, ?_⟩
    · intro c'
      rw [key]
      split
      · rename_i hc
        subst hc
        rw [hF]
        simp only [List.map_cons, collapse]
        rw [List.filter_cons_of_pos]
        · have : (f d1 :: t.map f).filter (fun d => decide (d.name ∉ d1.name :: t.map Dev.name)) = [] := by
            rw [List.filter_eq_nil_iff]
            intro x hx
            simp only [decide_eq_true_eq, not_not]
            rcases List.mem_cons.mp hx with rfl | hx
            · rw [fname]; exact List.mem_cons_self
            · rw [List.mem_map] at hx
              obtain ⟨y, hy, rfl⟩ := hx
              rw [fname]
              exact List.mem_cons_of_mem _ (List.mem_map.mpr ⟨y, hy, rfl⟩)
          rw [this]
          simp [f]
        · simp only [decide_eq_true_eq, fname]
          rw [List.map_cons, List.nodup_cons] at hnF
          exact hnF.1
      · rename_i hc
        have hother : ∀ d ∈ F l c', d.name ∉ (d0 :: d1 :: t).map Dev.name := by
          intro d hd hm
          rw [List.mem_map] at hm
          obtain ⟨e, he, hen⟩ := hm
          rw [← hF, hmemF] at he
          unfold F at hd
          simp only [List.mem_filter, Bool.and_eq_true, decide_eq_true_eq] at hd
          have := name_inj hok.nodup hd.1 he.1 hen.symm
          subst this
          exact hc (hd.2.1.symm.trans he.2.1)
        have e1 : (F l c').map f = F l c' := by
          conv_rhs => rw [← List.map_id (F l c')]
          apply List.map_congr_left
          intro d hd
          exact fid d (fun h => hother d hd (by rw [h]; simp))
        rw [e1, List.filter_eq_self]
        intro d hd
        simp only [decide_eq_true_eq]
        intro hm
        exact hother d hd (List.mem_cons_of_mem _ hm)
    · -- devices that cannot be merged
      rw [List.filter_filter, List.filter_map]
      have hnone : ∀ d ∈ l, d.par.isNone = true → d.name ∉ (d0 :: d1 :: t).map Dev.name := by
        intro d hd hp hm
        rw [List.mem_map] at hm
        obtain ⟨e, he, hen⟩ := hm
        rw [← hF, hmemF] at he
        have := name_inj hok.nodup hd he.1 hen.symm
        subst this
        have h2 := he.2.2
        cases hpp : d.par with
        | none => rw [hpp] at h2; cases h2
        | some k => rw [hpp] at hp; cases hp
      have e1 : l.filter ((fun d : Dev => d.par.isNone && decide (d.name ∉ (d1 :: t).map Dev.name)) ∘ f) =
          l.filter fun d => d.par.isNone := by
        apply List.filter_congr
        intro d hd
        simp only [Function.comp, fname]
        have : (f d).par.isNone = d.par.isNone := by
          have := fpar d hd
          cases h1 : (f d).par <;> cases h2 : d.par <;> simp_all
        rw [this]
        by_cases hp : d.par.isNone = true
        · rw [hp]
          have := hnone d hd hp
          simp only [List.map_cons, List.mem_cons, not_or] at this
          simp [this.2.1, this.2.2]
        · simp [hp]
      show (l.filter ((fun d : Dev => d.par.isNone && decide (d.name ∉ (d1 :: t).map Dev.name)) ∘ f)).map f = _
      rw [e1]
      conv_rhs => rw [← List.map_id (l.filter fun d => d.par.isNone)]
      apply List.map_congr_left
      intro d hd
      obtain ⟨g1, g2⟩ := List.mem_filter.mp hd
      exact fid d (fun h => hnone d g1 g2 (by rw [h]; simp))
    · constructor
      · apply List.Nodup.sublist (List.filter_sublist.map _)
        rw [List.map_map]
        have : (Dev.name ∘ fun d : Dev => if d.name = d0.name then { d with par := some (t.length + 2) } else d) = Dev.name := by
          funext d; exact fname d
        rw [this]
        exact hok.nodup
      · apply List.Pairwise.sublist List.filter_sublist
        rw [List.pairwise_map]
        refine hok.order.imp ?_
        intro a b h hc
        have g1 := fcls a
        have g2 := fcls b
        have g3 := fname a
        have g4 := fname b
        simp only [f] at g1 g2 g3 g4
        rw [g3, g4]
        exact h (g1.symm.trans (hc.trans g2))
      · intro a ha b hb hab hpa hpb
        obtain ⟨ha1, ha2⟩ := List.mem_filter.mp ha
        obtain ⟨hb1, hb2⟩ := List.mem_filter.mp hb
        rw [List.mem_map] at ha1 hb1
        obtain ⟨a', ha', hae⟩ := ha1
        obtain ⟨b', hb', hbe⟩ := hb1
        have hae' : f a' = a := hae
        have hbe' : f b' = b := hbe
        subst hae' hbe'
        rw [fcls, fcls] at hab
        rw [fpar a' ha'] at hpa
        rw [fpar b' hb'] at hpb
        simp only [decide_eq_true_eq, fname] at ha2 hb2
        by_cases hca : a'.cls = c
        · -- both are the first device
          have hone : ∀ x ∈ l, x.cls = c → x.par.isSome = true → x.name ∉ (d1 :: t).map Dev.name → x = d0 := by
            intro x hx hxc hxp hxn
            have : x ∈ F l c := (hmemF x).mpr ⟨hx, hxc, hxp⟩
            rw [hF] at this
            rcases List.mem_cons.mp this with h | h
            · exact h
            · exact absurd (List.mem_map.mpr ⟨x, h, rfl⟩) hxn
          rw [hone a' ha' hca hpa ha2, hone b' hb' (hab ▸ hca) hpb hb2]
        · have hne : ∀ x ∈ l, x.cls ≠ c → x.name ≠ d0.name := by
            intro x hx hxc hxn
            have := name_inj hok.nodup hx h0.1 hxn
            subst this
            exact hxc h0.2.1
          rw [fid a' (hne a' ha' hca), fid b' (hne b' hb' (hab ▸ hca))]
          exact hok.same a' ha' b' hb' hab hpa hpb
  · have e : mergeGroup l (F l c) = l := by unfold mergeGroup; rw [if_neg hlen]
    rw [e]
    refine ⟨?_, rfl, hok⟩
    intro c'
    split
    · rename_i hc
      subst hc
      match hh : F l c' with
      | [] => rfl
      | [a] => rfl
      | a :: b :: t => rw [hh] at hlen; simp at hlen
    · rfl

/-- A class is on a net. -/
def onNet (c : String × List (String × String) × List (String × String)) (net : String) : Bool := c.2.1.any fun p => p.2 = net

theorem uses_cls (d : Dev) (net : String) : d.uses net = onNet d.cls net := rfl

theorem nodup_eraseDups {α : Type} [BEq α] [LawfulBEq α] : ∀ (n : Nat) (l : List α), l.length ≤ n → l.eraseDups.Nodup := by
  intro n
  induction n with
  | zero => intro l h; have : l = [] := List.length_eq_zero_iff.mp (by omega); subst this; simp
  | succ n ih =>
    intro l h
    cases l with
    | nil => simp
    | cons a l =>
      rw [List.eraseDups_cons, List.nodup_cons]
      refine ⟨?_, ih _ (Nat.le_trans (List.length_filter_le _ _) (by simpa using h))⟩
      rw [List.mem_eraseDups]
      simp

/-- The groups of a net are the classes on it. -/
theorem groups_eq {l : List Dev} (hok : Ok l) (net : String) : ∃ cs : List (String × List (String × String) × List (String × String)),
    groups l net = cs.map (F l) ∧ (∀ c, (c ∈ cs ↔ onNet c net = true ∧ F l c ≠ [])) ∧ cs.Nodup := by
  have hmem : ∀ d, d ∈ (l.filter fun d => d.uses net && d.par.isSome) ↔ d ∈ l ∧ d.uses net = true ∧ d.par.isSome = true := by
    intro d; simp [List.mem_filter]
  refine ⟨((l.filter fun d => d.uses net && d.par.isSome).map Dev.key).eraseDups.map fun k => (k.1, k.2.1, k.2.2.2), ?_, ?_, ?_⟩
  · unfold groups
    simp only [List.map_map]
    apply List.map_congr_left
    intro k hk
    rw [List.mem_eraseDups, List.mem_map] at hk
    obtain ⟨d, hd, rfl⟩ := hk
    rw [hmem] at hd
    simp only [Function.comp]
    unfold F
    rw [List.filter_filter]
    apply List.filter_congr
    intro e he
    rw [Bool.eq_iff_iff]
    simp only [Bool.and_eq_true, decide_eq_true_eq]
    constructor
    · rintro ⟨h1, h2, h3⟩
      have : e.cls = d.cls := by
        unfold Dev.key at h1
        unfold Dev.cls
        simp only [Prod.mk.injEq] at h1 ⊢
        exact ⟨h1.1, h1.2.1, h1.2.2.2⟩
      exact ⟨this, h3⟩
    · rintro ⟨h1, h2⟩
      have h1 : e.cls = d.cls := h1
      refine ⟨?_, ?_, h2⟩
      · have h3 := hok.same e he d hd.1 h1 h2 hd.2.2
        unfold Dev.cls at h1
        unfold Dev.key
        simp only [Prod.mk.injEq] at h1 ⊢
        exact ⟨h1.1, h1.2.1, h3, h1.2.2⟩
      · rw [uses_cls, h1, ← uses_cls]; exact hd.2.1
  · intro c
    rw [List.mem_map]
    constructor
    · rintro ⟨k, hk, rfl⟩
      rw [List.mem_eraseDups, List.mem_map] at hk
      obtain ⟨d, hd, rfl⟩ := hk
      rw [hmem] at hd
      refine ⟨by rw [uses_cls] at hd; exact hd.2.1, ?_⟩
      intro he
      have : d ∈ F l d.cls := by unfold F; simp [List.mem_filter, hd.1, hd.2.2]
      have he' : F l d.cls = [] := he
      rw [he'] at this
      simp at this
    · rintro ⟨h1, h2⟩
      obtain ⟨d, hd⟩ := List.exists_mem_of_ne_nil _ h2
      unfold F at hd
      simp only [List.mem_filter, Bool.and_eq_true, decide_eq_true_eq] at hd
      refine ⟨d.key, ?_, ?_⟩
      · rw [List.mem_eraseDups, List.mem_map]
        refine ⟨d, (hmem d).mpr ⟨hd.1, ?_, hd.2.2⟩, rfl⟩
        rw [uses_cls, hd.2.1]; exact h1
      · rw [← hd.2.1]; rfl
  · apply List.Nodup.map_on _ (nodup_eraseDups _ _ (Nat.le_refl _))
    intro x hx y hy hxy
    rw [List.mem_eraseDups, List.mem_map] at hx hy
    obtain ⟨d, hd, rfl⟩ := hx
    obtain ⟨e, he, rfl⟩ := hy
    rw [hmem] at hd he
    have hc : d.cls = e.cls := hxy
    have hp := hok.same d hd.1 e he.1 hc hd.2.2 he.2.2
    unfold Dev.cls at hc
    unfold Dev.key
    simp only [Prod.mk.injEq] at hc ⊢
    exact ⟨hc.1, hc.2.1, hp, hc.2.2⟩

theorem collapse_collapse (x : List Dev) : collapse (collapse x) = collapse x := by
  match x with
  | [] => rfl
  | [d] => rfl
  | d :: e :: t => rfl

theorem collapse_nil_iff (x : List Dev) : collapse x = [] ↔ x = [] := by
  match x with
  | [] => simp [collapse]
  | [d] => simp [collapse]
  | d :: e :: t => simp [collapse]

theorem mergeGroup_collapsed {l : List Dev} (pd : List Dev) (h : pd.length ≤ 1) : mergeGroup l pd = l := by
  unfold mergeGroup; rw [if_neg (by omega)]

/-- All groups of a net. -/
theorem mergeNet_spec {l : List Dev} (hok : Ok l) (net : String) :
    (∀ c, F (mergeNet l net) c = if onNet c net then collapse (F l c) else F l c) ∧
    ((mergeNet l net).filter fun d => d.par.isNone) = (l.filter fun d => d.par.isNone) ∧ Ok (mergeNet l net) := by
  obtain ⟨cs, h1, h2, h3⟩ := groups_eq hok net
  have key : ∀ (cs : List (String × List (String × String) × List (String × String))) (m : List Dev), cs.Nodup → Ok m →
      (∀ c ∈ cs, F m c = F l c) →
      (∀ c, F ((cs.map (F l)).foldl mergeGroup m) c = if c ∈ cs then collapse (F m c) else F m c) ∧
      (((cs.map (F l)).foldl mergeGroup m).filter fun d => d.par.isNone) = (m.filter fun d => d.par.isNone) ∧
      Ok ((cs.map (F l)).foldl mergeGroup m) := by
    intro cs
    induction cs with
    | nil => intro m _ hm _; exact ⟨fun c => by simp, rfl, hm⟩
    | cons c cs ih =>
      intro m hnd hm hF
      rw [List.nodup_cons] at hnd
      rw [List.map_cons, List.foldl_cons, ← hF c List.mem_cons_self]
      obtain ⟨a1, a2, a3⟩ := F_merge hm (c := c)
      obtain ⟨b1, b2, b3⟩ := ih _ hnd.2 a3 (by
        intro c' hc'
        have hne : ¬c' = c := fun h => hnd.1 (h ▸ hc')
        rw [a1, if_neg hne]
        exact hF c' (List.mem_cons_of_mem _ hc'))
      refine ⟨?_, b2.trans a2, b3⟩
      intro c'
      rw [b1, a1]
      by_cases h1 : c' = c
      · subst h1
        rw [if_pos rfl, if_neg hnd.1, if_pos List.mem_cons_self]
      · rw [if_neg h1]
        by_cases h2 : c' ∈ cs
        · rw [if_pos h2, if_pos (List.mem_cons_of_mem _ h2)]
        · rw [if_neg h2, if_neg (by simp [h1, h2])]
  unfold mergeNet
  rw [h1]
  obtain ⟨k1, k2, k3⟩ := key cs l h3 hok (fun _ _ => rfl)
  refine ⟨?_, k2, k3⟩
  intro c
  rw [k1]
  by_cases h : c ∈ cs
  · rw [if_pos h, if_pos ((h2 c).mp h).1]
  · rw [if_neg h]
    split
    · rename_i hon
      have : F l c = [] := by
        by_contra hne
        exact h ((h2 c).mpr ⟨hon, hne⟩)
      rw [this]; rfl
    · rfl

theorem addParallel_spec {l : List Dev} (hok : Ok l) (nets : List String) :
    (∀ c, F (addParallel nets l) c = if nets.any (onNet c) then collapse (F l c) else F l c) ∧
    ((addParallel nets l).filter fun d => d.par.isNone) = (l.filter fun d => d.par.isNone) ∧ Ok (addParallel nets l) := by
  unfold addParallel
  induction nets generalizing l with
  | nil => exact ⟨fun c => by simp, rfl, hok⟩
  | cons n nets ih =>
    rw [List.foldl_cons]
    obtain ⟨a1, a2, a3⟩ := mergeNet_spec hok n
    obtain ⟨b1, b2, b3⟩ := ih a3
    refine ⟨?_, b2.trans a2, b3⟩
    intro c
    rw [b1, a1, List.any_cons]
    cases onNet c n <;> cases nets.any (onNet c) <;> simp [collapse_collapse]

theorem units_F (l : List Dev) (c : String × List (String × String) × List (String × String)) :
    units l c = ((F l c).map fun d => d.par.getD 0).sum := by
  unfold units F
  induction l with
  | nil => rfl
  | cons d l ih =>
    by_cases h1 : d.cls = c
    · rw [List.filter_cons_of_pos (by simpa using h1), List.map_cons, List.sum_cons, ih]
      cases h2 : d.par with
      | none => rw [List.filter_cons_of_neg (by simp [h2])]; simp
      | some k => rw [List.filter_cons_of_pos (by simp [h1, h2]), List.map_cons, List.sum_cons, h2]
    · rw [List.filter_cons_of_neg (by simpa using h1), List.filter_cons_of_neg (by simp [h1]), ih]

theorem length_collapse (x : List Dev) : (collapse x).length ≤ 1 := by
  match x with
  | [] => simp [collapse]
  | [d] => simp [collapse]
  | d :: e :: t => simp [collapse]

theorem sum_ones {x : List Dev} (h : ∀ d ∈ x, d.par = some 1) : (x.map fun d => d.par.getD 0).sum = x.length := by
  induction x with
  | nil => rfl
  | cons d x ih =>
    rw [List.map_cons, List.sum_cons, ih fun e he => h e (List.mem_cons_of_mem _ he), h d List.mem_cons_self, List.length_cons]
    simp only [Option.getD_some]
    omega

/-- **C43 (partial).**  If names are distinct, parallel devices come in the order of their names and no device has a multiplicity
other than one yet, merging keeps the number of units of every class of devices, keeps devices without multiplicity as they
are, and leaves no two devices that could be merged, whatever the order of the nets.
Missing: see `C43_violated_order` and `C43_violated_multiplicity`. -/
theorem C43_parallel_partial {l : List Dev} {nets : List String} (hn : (l.map Dev.name).Nodup)
    (hord : l.Pairwise fun a b => a.cls = b.cls → a.name ≤ b.name)
    (hone : ∀ d ∈ l, d.par = none ∨ d.par = some 1) (hnets : ∀ d ∈ l, ∃ p ∈ d.pins, p.2 ∈ nets) :
    (∀ c, units (addParallel nets l) c = units l c) ∧
    ((addParallel nets l).filter fun d => d.par.isNone) = (l.filter fun d => d.par.isNone) ∧
    ((addParallel nets l).Pairwise fun a b => a.par.isSome → b.par.isSome → a.cls ≠ b.cls) := by
  have hok : Ok l := by
    refine ⟨hn, hord, ?_⟩
    intro a ha b hb _ h1 h2
    rcases hone a ha with h | h
    · rw [h] at h1; cases h1
    · rcases hone b hb with h' | h'
      · rw [h'] at h2; cases h2
      · rw [h, h']
  obtain ⟨a1, a2, a3⟩ := addParallel_spec hok nets
  -- every class in the circuit is on a net that is visited
  have hany : ∀ c, F l c ≠ [] → nets.any (onNet c) = true := by
    intro c hc
    obtain ⟨d, hd⟩ := List.exists_mem_of_ne_nil _ hc
    unfold F at hd
    simp only [List.mem_filter, Bool.and_eq_true, decide_eq_true_eq] at hd
    obtain ⟨p, hp1, hp2⟩ := hnets d hd.1
    rw [List.any_eq_true]
    refine ⟨p.2, hp2, ?_⟩
    rw [← hd.2.1, ← uses_cls]
    unfold Dev.uses
    rw [List.any_eq_true]
    exact ⟨p, hp1, by simp⟩
  have hF : ∀ c, F (addParallel nets l) c = collapse (F l c) := by
    intro c
    rw [a1]
    split
    · rfl
    · rename_i h
      by_cases hc : F l c = []
      · rw [hc]; rfl
      · exact absurd (hany c hc) h
  refine ⟨?_, a2, ?_⟩
  · intro c
    rw [units_F, units_F, hF]
    have h1 : ∀ d ∈ F l c, d.par = some 1 := by
      intro d hd
      unfold F at hd
      simp only [List.mem_filter, Bool.and_eq_true, decide_eq_true_eq] at hd
      rcases hone d hd.1 with h | h
      · rw [h] at hd; simp at hd
      · exact h
    rw [sum_ones h1]
    match hh : F l c with
    | [] => rfl
    | [d] => rw [hh] at h1; simp [collapse, h1 d]
    | d :: e :: t => simp [collapse]
  · have : ∀ (r : List Dev), (∀ c, (F r c).length ≤ 1) →
        r.Pairwise fun a b => a.par.isSome = true → b.par.isSome = true → a.cls ≠ b.cls := by
      intro r
      induction r with
      | nil => intro _; exact List.Pairwise.nil
      | cons a r ih =>
        intro h
        refine List.pairwise_cons.mpr ⟨?_, ih ?_⟩
        · intro b hb h1 h2 he
          have hc := h a.cls
          unfold F at hc
          rw [List.filter_cons_of_pos (by simp [h1]), List.length_cons] at hc
          have : b ∈ r.filter fun d => d.cls = a.cls && d.par.isSome := by simp [List.mem_filter, hb, he, h2]
          have := List.length_pos_of_mem this
          omega
        · intro c
          refine Nat.le_trans ?_ (h c)
          unfold F
          exact (List.Sublist.filter _ (List.sublist_cons_self a r)).length_le
    apply this
    intro c
    rw [hF]
    exact length_collapse _

/-! ### A non-trivial case and violations -/

/-- Three equal devices and one on the same nets with another width. -/
def exPar : List Dev :=
  [⟨"M1", "N", [("D", "a"), ("G", "g"), ("S", "s")], some 1, [("W", "1")]⟩,
   ⟨"M2", "N", [("D", "a"), ("G", "g"), ("S", "s")], some 1, [("W", "2")]⟩,
   ⟨"M3", "N", [("D", "a"), ("G", "g"), ("S", "s")], some 1, [("W", "1")]⟩,
   ⟨"M4", "N", [("D", "a"), ("G", "g"), ("S", "s")], some 1, [("W", "1")]⟩,
   ⟨"X1", "Q", [("A", "a")], none, []⟩]

example : addParallel ["a", "g", "s"] exPar =
    [⟨"M1", "N", [("D", "a"), ("G", "g"), ("S", "s")], some 3, [("W", "1")]⟩,
     ⟨"M2", "N", [("D", "a"), ("G", "g"), ("S", "s")], some 1, [("W", "2")]⟩,
     ⟨"X1", "Q", [("A", "a")], none, []⟩] := by decide +kernel

example : (exPar.map Dev.name).Nodup ∧ (∀ d ∈ exPar, d.par = none ∨ d.par = some 1) ∧
    (∀ d ∈ exPar, ∃ p ∈ d.pins, p.2 ∈ ["a", "g", "s"]) := by decide +kernel

example : exPar.Pairwise fun a b => a.cls = b.cls → a.name ≤ b.name := by decide +kernel

/-- **C43 is violated when the device with the smallest name is not the first**: `M2` comes first and is kept, but the
multiplicity is written to `M1`, which is removed.  Two units become one. -/
theorem C43_violated_order :
    addParallel ["a"] [⟨"M2", "N", [("D", "a")], some 1, []⟩, ⟨"M1", "N", [("D", "a")], some 1, []⟩] =
      [⟨"M2", "N", [("D", "a")], some 1, []⟩] ∧
    units [⟨"M2", "N", [("D", "a")], some 1, []⟩, ⟨"M1", "N", [("D", "a")], some 1, []⟩] ("N", [("D", "a")], []) = 2 ∧
    units [⟨"M2", "N", [("D", "a")], some 1, []⟩] ("N", [("D", "a")], []) = 1 := by decide +kernel

/-- **C43 is violated by devices that have a multiplicity already**: two devices of three units become one of two units. -/
theorem C43_violated_multiplicity :
    addParallel ["a"] [⟨"M1", "N", [("D", "a")], some 3, []⟩, ⟨"M2", "N", [("D", "a")], some 3, []⟩] =
      [⟨"M1", "N", [("D", "a")], some 2, []⟩] := by decide +kernel

/-- **C43 is violated by devices that differ only in multiplicity**: they are not merged. -/
theorem C43_violated_remaining :
    addParallel ["a"] [⟨"M1", "N", [("D", "a")], some 1, []⟩, ⟨"M2", "N", [("D", "a")], some 2, []⟩] =
      [⟨"M1", "N", [("D", "a")], some 1, []⟩, ⟨"M2", "N", [("D", "a")], some 2, []⟩] := by decide +kernel

end Verif.Pre

import Mathlib.Data.List.Basic
import Mathlib.Logic.Relation
import Mathlib.Data.Fintype.Basic
import Mathlib.Data.Fintype.Order
import Mathlib.Data.Finset.Basic
import Mathlib.Order.WellFounded
import Mathlib.Data.Fintype.Card
import Mathlib.Data.Finite.Defs
import Mathlib.Order.WellFoundedSet

/-!
# C35: subsetting a netlist

Model of `align/pnr/placer.py`: `subset_verilog_d` (69-98).
-/

namespace Verif.Pnr

/-- A module of an abstract netlist: its name, the template names of its instances, and everything
else.  The assertions that every instance has an abstract and no concrete template name (72-75) are
part of the type. -/
structure VMod (β : Type) where
  name : String
  insts : List String
  rest : β

/-- The dictionary of modules by name (77): the last module of a name wins. -/
def modByName {β : Type} (v : List (VMod β)) (n : String) : Option (VMod β) :=
  v.reverse.find? fun m => m.name == n

/-- `aux` (80-85): the names added to `found_modules`, in this order.  There is no test for names
found already.  `none`: the recursion is deeper than `fuel`. -/
def visit {β : Type} (v : List (VMod β)) : Nat → String → Option (List String)
  | 0, _ => none
  | fuel + 1, n =>
    match modByName v n with
    | none => some [n]
    | some m => (m.insts.mapM (visit v fuel)).map fun ls => n :: ls.flatten

/-- `subset_verilog_d` (69-98); deep copies are copies. -/
def subsetVerilog {β : Type} (v : List (VMod β)) (fuel : Nat) (nm : String) :
    Option (List (VMod β)) :=
  (visit v fuel nm).map fun found => v.filter fun m => found.contains m.name

/-! ## Specification -/

/-- Some module of name `a` has an instance of `b`. -/
def Inst {β : Type} (v : List (VMod β)) (a b : String) : Prop :=
  ∃ m ∈ v, m.name = a ∧ b ∈ m.insts

/-- `b` is `a` or below it in the hierarchy. -/
def Below {β : Type} (v : List (VMod β)) : String → String → Prop := Relation.ReflTransGen (Inst v)

/-! ## Proofs -/

theorem modByName_some {β : Type} {v : List (VMod β)} {n : String} {m : VMod β}
    (h : modByName v n = some m) : m ∈ v ∧ m.name = n := by
  refine ⟨by simpa using List.mem_of_find?_eq_some h, by simpa using List.find?_some h⟩

theorem modByName_of_mem {β : Type} {v : List (VMod β)} (hnd : (v.map VMod.name).Nodup) {m : VMod β}
    (hm : m ∈ v) : modByName v m.name = some m := by
  have hs : (modByName v m.name).isSome = true := by
    simp only [modByName, List.find?_isSome, List.mem_reverse, beq_iff_eq]
    exact ⟨m, hm, rfl⟩
  obtain ⟨m', h'⟩ := Option.isSome_iff_exists.mp hs
  obtain ⟨h1, h2⟩ := modByName_some h'
  rw [h', List.inj_on_of_nodup_map hnd h1 hm h2]

theorem mapM_all {α γ : Type} {f : α → Option γ} : ∀ {l : List α} {ls : List γ}, l.mapM f = some ls →
    (∀ a ∈ l, ∃ b ∈ ls, f a = some b) ∧ ∀ b ∈ ls, ∃ a ∈ l, f a = some b
  | [], ls, h => by
    simp only [List.mapM_nil, Option.pure_def, Option.some.injEq] at h; subst h; simp
  | a :: l, ls, h => by
    simp only [List.mapM_cons, Option.pure_def, Option.bind_eq_bind, Option.bind_eq_some_iff,
      Option.some.injEq] at h
    obtain ⟨b, hb, bs, hbs, rfl⟩ := h
    obtain ⟨h1, h2⟩ := mapM_all hbs
    constructor
    · intro x hx
      rcases List.mem_cons.mp hx with rfl | hx
      · exact ⟨b, List.mem_cons_self, hb⟩
      · obtain ⟨y, hy, e⟩ := h1 x hx
        exact ⟨y, List.mem_cons_of_mem _ hy, e⟩
    · intro y hy
      rcases List.mem_cons.mp hy with rfl | hy
      · exact ⟨a, List.mem_cons_self, hb⟩
      · obtain ⟨x, hx, e⟩ := h2 y hy
        exact ⟨x, List.mem_cons_of_mem _ hx, e⟩

theorem visit_spec {β : Type} {v : List (VMod β)} (hnd : (v.map VMod.name).Nodup) (fuel : Nat) :
    ∀ (n : String) (found : List String), visit v fuel n = some found →
      ∀ x, x ∈ found ↔ Below v n x := by
  induction fuel with
  | zero => intro n found h; cases h
  | succ fuel ih =>
    intro n found h x
    simp only [visit] at h
    cases hm : modByName v n with
    | none =>
      rw [hm] at h
      simp only [Option.some.injEq] at h
      subst h
      constructor
      · intro hx
        simp only [List.mem_singleton] at hx
        subst hx; exact .refl
      · intro hx
        rcases Relation.ReflTransGen.cases_head hx with rfl | ⟨y, ⟨m, hmv, hmn, _⟩, _⟩
        · simp
        · subst hmn
          rw [modByName_of_mem hnd hmv] at hm; cases hm
    | some m =>
      rw [hm] at h
      simp only [Option.map_eq_some_iff] at h
      obtain ⟨ls, hls, rfl⟩ := h
      obtain ⟨hmv, hmn⟩ := modByName_some hm
      obtain ⟨h1, h2⟩ := mapM_all hls
      simp only [List.mem_cons, List.mem_flatten]
      constructor
      · rintro (rfl | ⟨l, hl, hxl⟩)
        · exact .refl
        · obtain ⟨c, hc, hvc⟩ := h2 l hl
          exact .head ⟨m, hmv, hmn, hc⟩ ((ih c l hvc x).mp hxl)
      · intro hx
        rcases Relation.ReflTransGen.cases_head hx with rfl | ⟨y, ⟨m', hmv', hmn', hy⟩, hyx⟩
        · exact Or.inl rfl
        · have : m' = m := List.inj_on_of_nodup_map hnd hmv' hmv (hmn'.trans hmn.symm)
          subst this
          obtain ⟨l, hl, hvl⟩ := h1 y hy
          exact Or.inr ⟨l, hl, (ih y l hvl x).mpr hyx⟩

/-- **C35.**  In a netlist with distinct module names, whenever `subset_verilog_d` returns, it returns
exactly the modules at or below `nm`, unchanged and in their original order. -/
theorem C35_exact {β : Type} {v : List (VMod β)} (hnd : (v.map VMod.name).Nodup) {fuel : Nat}
    {nm : String} {r : List (VMod β)} (h : subsetVerilog v fuel nm = some r) :
    r.Sublist v ∧ ∀ m ∈ v, m ∈ r ↔ Below v nm m.name := by
  simp only [subsetVerilog, Option.map_eq_some_iff] at h
  obtain ⟨found, hf, rfl⟩ := h
  refine ⟨List.filter_sublist, fun m hm => ?_⟩
  rw [List.mem_filter, List.contains_iff_mem, visit_spec hnd fuel nm found hf]
  exact ⟨fun h => h.2, fun h => ⟨hm, h⟩⟩

theorem visit_child {β : Type} {v : List (VMod β)} (hnd : (v.map VMod.name).Nodup) {a b : String}
    (hab : Inst v a b) {fuel : Nat} (h : (visit v fuel a).isSome) :
    ∃ f < fuel, (visit v f b).isSome := by
  obtain ⟨m, hm, rfl, hb⟩ := hab
  cases fuel with
  | zero => cases h
  | succ fuel =>
    refine ⟨fuel, Nat.lt_succ_self _, ?_⟩
    simp only [visit, modByName_of_mem hnd hm, Option.isSome_map] at h
    obtain ⟨ls, hls⟩ := Option.isSome_iff_exists.mp h
    obtain ⟨l, _, hl⟩ := (mapM_all hls).1 b hb
    rw [hl]; rfl

theorem mapM_isSome {α γ : Type} {f : α → Option γ} : ∀ {l : List α}, (∀ a ∈ l, (f a).isSome) →
    (l.mapM f).isSome
  | [], _ => by simp
  | a :: l, h => by
    obtain ⟨b, hb⟩ := Option.isSome_iff_exists.mp (h a List.mem_cons_self)
    obtain ⟨bs, hbs⟩ := Option.isSome_iff_exists.mp
      (mapM_isSome (l := l) fun x hx => h x (List.mem_cons_of_mem _ hx))
    simp [List.mapM_cons, hb, hbs]

theorem visit_mono {β : Type} {v : List (VMod β)} (fuel : Nat) : ∀ (n : String) (k : Nat),
    fuel ≤ k → (visit v fuel n).isSome → (visit v k n).isSome := by
  induction fuel with
  | zero => intro n k _ h; cases h
  | succ fuel ih =>
    intro n k hk h
    obtain ⟨k, rfl⟩ : ∃ k', k = k' + 1 := ⟨k - 1, by omega⟩
    simp only [visit] at h ⊢
    cases hm : modByName v n with
    | none => rfl
    | some m =>
      rw [hm] at h
      simp only [Option.isSome_map] at h ⊢
      obtain ⟨ls, hls⟩ := Option.isSome_iff_exists.mp h
      refine mapM_isSome fun a ha => ih a k (by omega) ?_
      obtain ⟨b, _, hb⟩ := (mapM_all hls).1 a ha
      rw [hb]; rfl

/-- **C35, when it returns.**  `subset_verilog_d` returns (the recursion ends) exactly when no module
at or below `nm` contains itself. -/
theorem C35_returns {β : Type} {v : List (VMod β)} (hnd : (v.map VMod.name).Nodup) (nm : String) :
    (∃ fuel, (subsetVerilog v fuel nm).isSome) ↔
      ∀ n, Below v nm n → ¬ Relation.TransGen (Inst v) n n := by
  simp only [subsetVerilog, Option.isSome_map]
  constructor
  · rintro ⟨fuel, hf⟩ n hn hcyc
    have down : ∀ {a b}, Relation.TransGen (Inst v) a b → ∀ f, (visit v f a).isSome →
        ∃ f' < f, (visit v f' b).isSome := by
      intro a b hab
      induction hab with
      | single h => intro f hf; exact visit_child hnd h hf
      | tail _ h ih =>
        intro f hf
        obtain ⟨f1, h1, hf1⟩ := ih f hf
        obtain ⟨f2, h2, hf2⟩ := visit_child hnd h hf1
        exact ⟨f2, by omega, hf2⟩
    have hno : ∀ f, ¬ (visit v f n).isSome := by
      intro f
      induction f using Nat.strong_induction_on with
      | _ f ih =>
        intro hfs
        obtain ⟨f', hlt, hf'⟩ := down hcyc f hfs
        exact ih f' hlt hf'
    rcases Relation.reflTransGen_iff_eq_or_transGen.mp hn with rfl | ht
    · exact hno fuel hf
    · obtain ⟨f', _, hf'⟩ := down ht fuel hf
      exact hno f' hf'
  · intro hac
    let names : List String := nm :: v.flatMap VMod.insts
    have hfin : ∀ x, Below v nm x → x ∈ names := by
      intro x hx
      induction hx with
      | refl => exact List.mem_cons_self
      | tail _ h _ =>
        obtain ⟨m, hm, _, hb⟩ := h
        exact List.mem_cons_of_mem _ (List.mem_flatMap.mpr ⟨m, hm, hb⟩)
    let T := {x : String // x ∈ names ∧ Below v nm x}
    have : Finite T := Finite.of_injective (fun x : T => (⟨x.1, x.2.1⟩ : {x // x ∈ names}))
      (by intro a b h; apply Subtype.ext; simpa using h)
    let r : T → T → Prop := fun a b => Relation.TransGen (Inst v) b.1 a.1
    have ht : IsTrans T r := ⟨fun a b c h1 h2 => Relation.TransGen.trans h2 h1⟩
    have hi : Std.Irrefl r := ⟨fun a h => hac a.1 a.2.2 h⟩
    have wf : WellFounded r := Finite.wellFounded_of_trans_of_irrefl r
    have key : ∀ x : T, ∃ fuel, (visit v fuel x.1).isSome := by
      intro x
      induction x using wf.induction with
      | _ x ih =>
        cases hm : modByName v x.1 with
        | none => exact ⟨1, by simp [visit, hm]⟩
        | some m =>
          obtain ⟨hmv, hmn⟩ := modByName_some hm
          have hch : ∀ c ∈ m.insts, ∃ fuel, (visit v fuel c).isSome := by
            intro c hc
            have hs : Inst v x.1 c := ⟨m, hmv, hmn, hc⟩
            have hb : Below v nm c := x.2.2.tail hs
            exact ih ⟨c, hfin c hb, hb⟩ (Relation.TransGen.single hs)
          obtain ⟨F, hF⟩ : ∃ F, ∀ c ∈ m.insts, (visit v F c).isSome := by
            generalize m.insts = l at hch
            induction l with
            | nil => exact ⟨0, by simp⟩
            | cons c l ihl =>
              obtain ⟨F1, h1⟩ := hch c List.mem_cons_self
              obtain ⟨F2, h2⟩ := ihl fun c hc => hch c (List.mem_cons_of_mem _ hc)
              refine ⟨max F1 F2, fun d hd => ?_⟩
              rcases List.mem_cons.mp hd with rfl | hd
              · exact visit_mono F1 _ _ (le_max_left _ _) h1
              · exact visit_mono F2 _ _ (le_max_right _ _) (h2 d hd)
          exact ⟨F + 1, by simpa [visit, hm] using mapM_isSome hF⟩
    exact key ⟨nm, List.mem_cons_self, .refl⟩

/-- A netlist with a shared submodule, a leaf, and a module which is not used. -/
def subsetExample : List (VMod Nat) :=
  [⟨"unused", ["leaf"], 0⟩, ⟨"top", ["mid", "low"], 1⟩, ⟨"low", ["leaf"], 2⟩, ⟨"mid", ["low"], 3⟩]

example : (subsetExample.map VMod.name).Nodup ∧
    (subsetVerilog subsetExample 4 "top").map (List.map VMod.name) = some ["top", "low", "mid"] ∧
    (subsetVerilog subsetExample 4 "mid").map (List.map VMod.name) = some ["low", "mid"] := by
  decide

end Verif.Pnr

import Verif.Overlap.Model
import Verif.Hier.HpwlProps
import Mathlib.Algebra.Order.Field.Rat
import Mathlib.Algebra.Order.Field.Basic
import Mathlib.Tactic.Linarith
import Mathlib.Tactic.Push
import Mathlib.Tactic.NormNum

/-! # C26, C27: the overlap checker and unit scaling -/

namespace Verif.Overlap

open Verif.Geometry (Rect Transformation canonical_eq)
open Verif.Hier (Inst Design Path throughPath Acyclic Closed flatten placed placed_eq)

/-! ## Specification vocabulary of C26 -/

/-- The point lies strictly inside the rectangle. -/
def Inside (r : Rect) (p : ℚ × ℚ) : Prop := r.llx < p.1 ∧ p.1 < r.urx ∧ r.lly < p.2 ∧ p.2 < r.ury

/-- Where a path of instances takes a point of the leaf: each level reflects and shifts, innermost level first. -/
def carry : List Inst → ℚ × ℚ → ℚ × ℚ
  | [], q => q
  | i :: p, q => (i.tr.sX * (carry p q).1 + i.tr.oX, i.tr.sY * (carry p q).2 + i.tr.oY)

/-- The placed leaves at the ends of two paths share a point of their interiors. -/
def Collide (P : Placement) (p : List Inst) (leaf : String) (p' : List Inst) (leaf' : String) : Prop :=
  ∃ l l' a a', P.leaves.lookup leaf = some l ∧ P.leaves.lookup leaf' = some l' ∧
    Inside l.bbox a ∧ Inside l'.bbox a' ∧ carry p a = carry p' a'

/-- Conditions on the placement: the instances of a module are different, placed by reflections and shifts; boxes
of leaves are given with the lower left corner first; no name is both a leaf and a module. -/
structure WF (P : Placement) : Prop where
  insts : ∀ cn m, P.mods.lookup cn = some m → m.insts.Nodup
  rigid : ∀ cn m, P.mods.lookup cn = some m → ∀ i ∈ m.insts, i.tr.Rigid
  ordered : ∀ n l, P.leaves.lookup n = some l → l.bbox.llx ≤ l.bbox.urx ∧ l.bbox.lly ≤ l.bbox.ury
  disj : ∀ n, (P.mods.lookup n).isSome → P.leaves.lookup n = none

/-! ## Lookup -/

theorem lookup_map {κ α β : Type} [BEq κ] (f : α → β) (k : κ) : ∀ l : List (κ × α),
    (l.map fun e => (e.1, f e.2)).lookup k = (l.lookup k).map f := by
  intro l
  induction l with
  | nil => rfl
  | cons e l ih =>
    rw [List.map_cons, List.lookup_cons, List.lookup_cons]
    cases k == e.1 <;> simp [ih]

theorem design_mods (P : Placement) (n : String) :
    P.design.mods.lookup n = (P.mods.lookup n).map fun m => ⟨m.params, m.insts⟩ :=
  lookup_map (fun m : PMod => (⟨m.params, m.insts⟩ : Verif.Hier.Module)) n P.mods

theorem design_leaves (P : Placement) (n : String) :
    P.design.leaves.lookup n = (P.leaves.lookup n).map fun l => ⟨l.terminals⟩ :=
  lookup_map (fun l : PLeaf => (⟨l.terminals⟩ : Verif.Hier.Leaf)) n P.leaves

/-! ## The boxes of the leaves -/

/-- The box drawn for a leaf of the flattened placement. -/
def flatBox (P : Placement) (T : Transformation) (f : Verif.Hier.Flat) : Rect :=
  placed (T.mult f.tr) (((P.leaves.lookup f.leaf).map PLeaf.bbox).getD ⟨0, 0, 0, 0⟩)

/-- The traces of one instance. -/
def instTraces (P : Placement) (fuel : Nat) (pre : List String) (tr : Transformation) (lvl : Nat) (i : Inst) :
    Option (List Trace) :=
  let path := pre ++ [i.name]
  let newTr := tr.postMult i.tr
  (getRect P i.template).bind fun rl =>
    (match P.mods.lookup i.template with
      | some m => traceAux P fuel m.insts path newTr (lvl + 1)
      | none => (P.leaves.lookup i.template).map fun (l : PLeaf) =>
          l.terminals.map fun (t : String × Rect) => (⟨drawn newTr t.2, path ++ [t.1], rl.2, lvl, true⟩ : Trace)).map
      fun rest => (⟨drawn newTr rl.1, path, rl.2, lvl, false⟩ : Trace) :: rest

theorem traceAux_succ (P : Placement) (fuel : Nat) (is : List Inst) (pre : List String) (tr : Transformation)
    (lvl : Nat) : traceAux P (fuel + 1) is pre tr lvl = (is.mapM (instTraces P fuel pre tr lvl)).map List.flatten := rfl

/-- The boxes of leaves among the traces are those of the flattened placement. -/
theorem traceAux_leaves (P : Placement) (hwf : WF P) : ∀ (fuel : Nat) (cn : String) (m : PMod),
    P.mods.lookup cn = some m → ∀ (pre : List String) (T : Transformation) (lvl : Nat) (fs : List Verif.Hier.Flat),
    flatten P.design fuel cn = some fs → ∃ ts, traceAux P fuel m.insts pre T lvl = some ts ∧
      (ts.filter fun t => t.isLeaf && !t.isPin).map Trace.rect = fs.map (flatBox P T) := by
  intro fuel
  induction fuel with
  | zero => intro cn m _ pre T lvl fs h; simp [flatten] at h
  | succ fuel ih =>
    intro cn m hm pre T lvl fs h
    unfold flatten at h
    rw [design_mods, hm] at h
    simp only [Option.map_some, Option.bind_some] at h
    rw [Option.map_eq_some_iff] at h
    obtain ⟨fss, hf, rfl⟩ := h
    have hall := Verif.Hier.mapM_forall₂ hf
    rw [traceAux_succ]
    have key : ∀ (is : List Inst) (fss : List (List Verif.Hier.Flat)),
        List.Forall₂ (fun i b => (if (P.design.leaves.lookup i.template).isSome then
          some [Verif.Hier.transformLeaf i i.template]
          else (flatten P.design fuel i.template).map (List.map (Verif.Hier.transformFlat i))) = some b) is fss →
        ∃ tss, is.mapM (instTraces P fuel pre T lvl) = some tss ∧
          (tss.flatten.filter fun t => t.isLeaf && !t.isPin).map Trace.rect = fss.flatten.map (flatBox P T) := by
      intro is
      induction is with
      | nil => intro fss h; cases h; exact ⟨[], rfl, rfl⟩
      | cons i is ihis =>
        intro fss h
        cases h with
        | cons hi hrest =>
          rename_i b fss'
          obtain ⟨tss, e1, e2⟩ := ihis fss' hrest
          rw [design_leaves] at hi
          cases hl : P.leaves.lookup i.template with
          | some l =>
            rw [hl] at hi
            simp only [Option.map_some, Option.isSome_some, if_true, Option.some.injEq] at hi
            subst hi
            have hmn : P.mods.lookup i.template = none := by
              cases hmm : P.mods.lookup i.template with
              | none => rfl
              | some m' => rw [hwf.disj i.template (by rw [hmm]; rfl)] at hl; cases hl
            refine ⟨((⟨drawn (T.postMult i.tr) l.bbox, pre ++ [i.name], true, lvl, false⟩ : Trace) ::
              l.terminals.map fun (t : String × Rect) =>
                (⟨drawn (T.postMult i.tr) t.2, pre ++ [i.name] ++ [t.1], true, lvl, true⟩ : Trace)) :: tss, ?_, ?_⟩
            · rw [List.mapM_cons, e1]
              simp only [instTraces, getRect, hl, hmn, Option.bind_some, Option.map_some, Option.bind_eq_bind]
              rfl
            · simp only [List.flatten_cons, List.cons_append, List.filter_append, List.map_append,
                List.singleton_append, List.map_cons, e2]
              rw [List.filter_cons]
              simp only [Bool.not_false, Bool.and_self, if_true, List.map_cons]
              congr 1
              · simp [flatBox, Verif.Hier.transformLeaf, hl, drawn, placed, Transformation.postMult,
                  (Verif.Geometry.C01_unit i.tr).1]
              · rw [List.filter_append, List.map_append, e2]
                simp [List.filter_map, Function.comp_def]
          | none =>
            rw [hl] at hi
            simp only [Option.map_none, Option.isSome_none, Bool.false_eq_true, if_false] at hi
            rw [Option.map_eq_some_iff] at hi
            obtain ⟨fs', hfs', rfl⟩ := hi
            cases hmm : P.mods.lookup i.template with
            | none =>
              exfalso
              cases fuel with
              | zero => simp [flatten] at hfs'
              | succ n => unfold flatten at hfs'; rw [design_mods, hmm] at hfs'; simp at hfs'
            | some m' =>
              obtain ⟨ts', t1, t2⟩ := ih i.template m' hmm (pre ++ [i.name]) (T.postMult i.tr) (lvl + 1) fs' hfs'
              refine ⟨((⟨drawn (T.postMult i.tr) m'.bbox, pre ++ [i.name], false, lvl, false⟩ : Trace) :: ts') :: tss,
                ?_, ?_⟩
              · rw [List.mapM_cons, e1]
                simp only [instTraces, getRect, hl, hmm, Option.bind_some, Option.map_some, t1, Option.bind_eq_bind]
                rfl
              · simp only [List.flatten_cons, List.cons_append, List.map_append]
                rw [List.filter_cons]
                simp only [Bool.false_and, Bool.false_eq_true, if_false]
                rw [List.filter_append, List.map_append, e2, t2]
                congr 1
                rw [List.map_map]
                refine List.map_congr_left fun f _ => ?_
                simp [flatBox, Verif.Hier.transformFlat, Transformation.postMult, Verif.Geometry.C01_mult_assoc]
    obtain ⟨tss, e1, e2⟩ := key m.insts fss hall
    exact ⟨tss.flatten, by rw [e1]; rfl, e2⟩

/-! ## Overlap -/

theorem noOverlap_iff (rs : List Rect) : noOverlap rs = true ↔ rs.Pairwise fun a b => rectsOverlap a b = false := by
  induction rs with
  | nil => simp [noOverlap]
  | cons r rs ih => simp [noOverlap, ih]

theorem rectsOverlap_iff (a b : Rect) : rectsOverlap a b = true ↔ ∃ p, Inside a p ∧ Inside b p := by
  unfold rectsOverlap Inside
  simp only [Bool.and_eq_true, decide_eq_true_eq]
  constructor
  · rintro ⟨h1, h2⟩
    have q1 : ((max a.llx b.llx : Int) : ℚ) < ((min a.urx b.urx : Int) : ℚ) := by exact_mod_cast h1
    have q2 : ((max a.lly b.lly : Int) : ℚ) < ((min a.ury b.ury : Int) : ℚ) := by exact_mod_cast h2
    obtain ⟨x, hx1, hx2⟩ := exists_between q1
    obtain ⟨y, hy1, hy2⟩ := exists_between q2
    push_cast at hx1 hx2 hy1 hy2
    rw [max_lt_iff] at hx1 hy1
    rw [lt_min_iff] at hx2 hy2
    exact ⟨(x, y), ⟨hx1.1, hx2.1, hy1.1, hy2.1⟩, hx1.2, hx2.2, hy1.2, hy2.2⟩
  · rintro ⟨⟨x, y⟩, ⟨a1, a2, a3, a4⟩, b1, b2, b3, b4⟩
    simp only at *
    rw [max_lt_iff, lt_min_iff, lt_min_iff, max_lt_iff, lt_min_iff, lt_min_iff]
    refine ⟨⟨⟨?_, ?_⟩, ?_, ?_⟩, ⟨?_, ?_⟩, ?_, ?_⟩
    · exact_mod_cast a1.trans a2
    · exact_mod_cast a1.trans b2
    · exact_mod_cast b1.trans a2
    · exact_mod_cast b1.trans b2
    · exact_mod_cast a3.trans a4
    · exact_mod_cast a3.trans b4
    · exact_mod_cast b3.trans a4
    · exact_mod_cast b3.trans b4

/-- The transformation of a path. -/
def pathTr : List Inst → Transformation
  | [] => {}
  | i :: p => i.tr.mult (pathTr p)

theorem pathTr_hit (p : List Inst) (q : Int × Int) : (pathTr p).hit q = throughPath p q := by
  induction p with
  | nil => simp [pathTr, throughPath, Transformation.hit]
  | cons i p ih => rw [pathTr, Verif.Geometry.C01_mult_is_sequential, ih]; rfl

theorem carry_eq (p : List Inst) (q : ℚ × ℚ) :
    carry p q = ((pathTr p).sX * q.1 + (pathTr p).oX, (pathTr p).sY * q.2 + (pathTr p).oY) := by
  induction p with
  | nil => simp [pathTr, carry]
  | cons i p ih =>
    simp only [carry, ih, pathTr, Transformation.mult, Prod.mk.injEq]
    push_cast
    constructor <;> ring

/-- The interior of a placed box is the image of the interior of the box. -/
theorem inside_placed (T : Transformation) (hT : T.Rigid) (r : Rect) (h1 : r.llx ≤ r.urx) (h2 : r.lly ≤ r.ury)
    (q : ℚ × ℚ) : Inside (placed T r) q ↔
      ∃ a, Inside r a ∧ ((T.sX * a.1 + T.oX, T.sY * a.2 + T.oY) : ℚ × ℚ) = q := by
  rw [placed_eq]
  obtain ⟨x, y⟩ := q
  have one : ∀ (s o lo hi : Int) (x : ℚ), (s = 1 ∨ s = -1) → lo ≤ hi →
      (((min (s * lo + o) (s * hi + o) : Int) : ℚ) < x ∧ x < ((max (s * lo + o) (s * hi + o) : Int) : ℚ) ↔
        (lo : ℚ) < s * (x - o) ∧ s * (x - o) < (hi : ℚ)) := by
    intro s o lo hi x hs hle
    rcases hs with rfl | rfl
    · rw [min_eq_left (by omega), max_eq_right (by omega)]
      push_cast
      constructor <;> rintro ⟨a, b⟩ <;> constructor <;> linarith
    · rw [min_eq_right (by omega), max_eq_left (by omega)]
      push_cast
      constructor <;> rintro ⟨a, b⟩ <;> constructor <;> linarith
  have hx := one T.sX T.oX r.llx r.urx x hT.1 h1
  have hy := one T.sY T.oY r.lly r.ury y hT.2 h2
  have inv : ∀ (s o : Int) (u v : ℚ), (s = 1 ∨ s = -1) → ((s : ℚ) * u + o = v ↔ u = s * (v - o)) := by
    intro s o u v hs
    rcases hs with rfl | rfl <;> push_cast <;> constructor <;> intro h <;> linarith
  unfold Inside
  simp only at hx hy ⊢
  constructor
  · rintro ⟨a1, a2, a3, a4⟩
    obtain ⟨c1, c2⟩ := hx.mp ⟨a1, a2⟩
    obtain ⟨c3, c4⟩ := hy.mp ⟨a3, a4⟩
    refine ⟨(T.sX * (x - T.oX), T.sY * (y - T.oY)), ⟨c1, c2, c3, c4⟩, ?_⟩
    rw [Prod.mk.injEq]
    exact ⟨(inv _ _ _ _ hT.1).mpr rfl, (inv _ _ _ _ hT.2).mpr rfl⟩
  · rintro ⟨⟨u, v⟩, ⟨a1, a2, a3, a4⟩, he⟩
    rw [Prod.mk.injEq] at he
    have e1 := (inv _ _ _ _ hT.1).mp he.1
    have e2 := (inv _ _ _ _ hT.2).mp he.2
    simp only at a1 a2 a3 a4 e1 e2
    rw [e1] at a1 a2
    rw [e2] at a3 a4
    obtain ⟨c1, c2⟩ := hx.mpr ⟨a1, a2⟩
    obtain ⟨c3, c4⟩ := hy.mpr ⟨a3, a4⟩
    exact ⟨c1, c2, c3, c4⟩

theorem path_facts {P : Placement} (hwf : WF P) {cn : String} {p : List Inst} {leaf : String}
    (h : Path P.design cn p leaf) : (pathTr p).Rigid ∧ ∃ l, P.leaves.lookup leaf = some l := by
  induction h with
  | @last cn m i h1 h2 h3 =>
    rw [design_mods] at h1
    obtain ⟨m', hm', rfl⟩ := Option.map_eq_some_iff.mp h1
    rw [design_leaves] at h3
    constructor
    · exact Verif.Hier.rigid_mult (hwf.rigid _ m' hm' i h2) ⟨Or.inl rfl, Or.inl rfl⟩
    · cases hl : P.leaves.lookup i.template with
      | none => rw [hl] at h3; simp at h3
      | some l => exact ⟨l, rfl⟩
  | @down cn m i p leaf h1 h2 h3 _ ih =>
    rw [design_mods] at h1
    obtain ⟨m', hm', rfl⟩ := Option.map_eq_some_iff.mp h1
    exact ⟨Verif.Hier.rigid_mult (hwf.rigid _ m' hm' i h2) ih.1, ih.2⟩

/-- **C26** The checker accepts exactly when no two different leaf instances (paths of instances from the top) share
a point of their interiors; otherwise its assertion fails. -/
theorem C26_overlap_exact (P : Placement) (hwf : WF P) (rank : String → Nat) (hac : Acyclic P.design rank)
    (hcl : Closed P.design) (fuel : Nat) (top : String) (htop : (P.mods.lookup top).isSome) (hfuel : rank top < fuel) :
    (overlapChecker P fuel top = some true ∨ overlapChecker P fuel top = none) ∧
    (overlapChecker P fuel top = none ↔ ∃ p leaf p' leaf', Path P.design top p leaf ∧ Path P.design top p' leaf' ∧
      p ≠ p' ∧ Collide P p leaf p' leaf') := by
  obtain ⟨m, hm⟩ := Option.isSome_iff_exists.mp htop
  have hfl := Verif.Hier.C21_total P.design rank hac hcl fuel top hfuel (by rw [design_mods, hm]; rfl)
  obtain ⟨fs, hfs⟩ := Option.isSome_iff_exists.mp hfl
  obtain ⟨ts, t1, t2⟩ := traceAux_leaves P hwf fuel top m hm [] {} 0 fs hfs
  obtain ⟨paths, q1, q2, q3⟩ := Verif.Hier.C21_flatten P.design (by
    intro cn m' h
    rw [design_mods] at h
    obtain ⟨m0, h0, rfl⟩ := Option.map_eq_some_iff.mp h
    exact hwf.insts cn m0 h0) fuel top fs hfs
  have hchk : overlapChecker P fuel top = if noOverlap (fs.map (flatBox P {})) then some true else none := by
    unfold overlapChecker traces
    rw [hwf.disj top htop, hm]
    simp only [t1, Option.bind_some, t2]
  -- boxes by path
  let bx : List Inst × String → Rect := fun pl =>
    placed (pathTr pl.1) (((P.leaves.lookup pl.2).map PLeaf.bbox).getD ⟨0, 0, 0, 0⟩)
  have hbx : fs.map (flatBox P {}) = paths.map bx := by
    clear hfs t2 hchk
    have : ∀ (paths : List (List Inst × String)) (fs : List Verif.Hier.Flat),
        List.Forall₂ (fun pl f => f.leaf = pl.2 ∧ f.name = Verif.Hier.pathName pl.1 ∧
          ∀ q, f.tr.hit q = throughPath pl.1 q) paths fs → fs.map (flatBox P {}) = paths.map bx := by
      intro paths fs h
      induction h with
      | nil => rfl
      | @cons pl f _ _ h1 _ ih =>
        rw [List.map_cons, List.map_cons, ih]
        congr 1
        have : f.tr = pathTr pl.1 := Verif.Geometry.C01_hit_faithful _ _ fun q => by rw [h1.2.2, pathTr_hit]
        simp only [flatBox, bx, this, h1.1, (Verif.Geometry.C01_unit _).2]
    exact this paths fs q3
  have hcol : ∀ a ∈ paths, ∀ b ∈ paths, (rectsOverlap (bx a) (bx b) = true ↔ Collide P a.1 a.2 b.1 b.2) := by
    intro a ha b hb
    obtain ⟨ra, la, hla⟩ := path_facts hwf ((q2 a.1 a.2).mp ha)
    obtain ⟨rb, lb, hlb⟩ := path_facts hwf ((q2 b.1 b.2).mp hb)
    rw [rectsOverlap_iff]
    simp only [bx, hla, hlb, Option.map_some, Option.getD_some]
    obtain ⟨oa1, oa2⟩ := hwf.ordered _ _ hla
    obtain ⟨ob1, ob2⟩ := hwf.ordered _ _ hlb
    constructor
    · rintro ⟨q, h1, h2⟩
      obtain ⟨u, hu, hu'⟩ := (inside_placed _ ra _ oa1 oa2 q).mp h1
      obtain ⟨v, hv, hv'⟩ := (inside_placed _ rb _ ob1 ob2 q).mp h2
      exact ⟨la, lb, u, v, hla, hlb, hu, hv, by rw [carry_eq, carry_eq, hu', hv']⟩
    · rintro ⟨l, l', u, v, h1, h2, hu, hv, he⟩
      rw [hla, Option.some.injEq] at h1
      rw [hlb, Option.some.injEq] at h2
      subst h1 h2
      refine ⟨carry a.1 u, ?_, ?_⟩
      · exact (inside_placed _ ra _ oa1 oa2 _).mpr ⟨u, hu, by rw [carry_eq]⟩
      · rw [he]; exact (inside_placed _ rb _ ob1 ob2 _).mpr ⟨v, hv, by rw [carry_eq]⟩
  rw [hchk, hbx]
  constructor
  · split
    · exact Or.inl rfl
    · exact Or.inr rfl
  · have hpw : noOverlap (paths.map bx) = true ↔
        paths.Pairwise fun a b => ¬ Collide P a.1 a.2 b.1 b.2 := by
      rw [noOverlap_iff, List.pairwise_map]
      constructor
      · intro h
        exact h.imp_of_mem fun {a b} ha hb h' hc => by rw [(hcol a ha b hb).mpr hc] at h'; cases h'
      · intro h
        refine h.imp_of_mem fun {a b} ha hb h' => ?_
        by_contra hne
        exact h' ((hcol a ha b hb).mp (by simpa using hne))
    constructor
    · intro h
      have hno : ¬ paths.Pairwise fun a b => ¬ Collide P a.1 a.2 b.1 b.2 := by
        intro hp
        rw [if_pos (hpw.mpr hp)] at h; cases h
      by_contra hne
      apply hno
      refine q1.imp_of_mem fun {a b} ha hb hab hc => hne ?_
      refine ⟨a.1, a.2, b.1, b.2, (q2 _ _).mp ha, (q2 _ _).mp hb, ?_, hc⟩
      intro he
      -- a path determines its leaf
      have hl : ∀ {cn p l l'}, Path P.design cn p l → Path P.design cn p l' → l = l' := by
        intro cn p l l' h1
        induction h1 with
        | last _ _ _ =>
          intro h2
          cases h2 with
          | last _ _ _ => rfl
          | down _ _ _ h => exact absurd rfl h.ne_nil
        | down h0 _ _ h1 ih =>
          intro h2
          cases h2 with
          | last _ _ _ => exact absurd rfl h1.ne_nil
          | down _ _ _ h => exact ih h
      have h1 := (q2 _ _).mp ha
      have h2 := (q2 _ _).mp hb
      rw [← he] at h2
      exact hab (Prod.ext he (hl h1 h2))
    · rintro ⟨p, leaf, p', leaf', h1, h2, hne, hc⟩
      rw [if_neg]
      intro hb
      have hp := hpw.mp hb
      have hsym : ∀ a b : List Inst × String, Collide P a.1 a.2 b.1 b.2 → Collide P b.1 b.2 a.1 a.2 := by
        rintro a b ⟨l, l', u, v, x1, x2, x3, x4, x5⟩
        exact ⟨l', l, v, u, x2, x1, x4, x3, x5.symm⟩
      haveI : Std.Symm fun a b : List Inst × String => ¬ Collide P a.1 a.2 b.1 b.2 :=
        ⟨fun a b h h' => h (hsym _ _ h')⟩
      have := hp.forall ((q2 p leaf).mpr h1) ((q2 p' leaf').mpr h2)
        (fun he => hne (by rw [Prod.mk.injEq] at he; exact he.1))
      exact this hc

/-! ## C27 -/

theorem fdiv_fmod (a b : Int) : b * a.fdiv b + a.fmod b = a := Int.mul_fdiv_add_fmod a b

/-- **C27** A remainder is reported exactly when the scaled value is not a whole number; and without a report the
result is the scaled value. -/
theorem C27_reported_iff (mul div v : Int) (hd : 0 < div) :
    ((scaleInt mul div v).2 = true ↔ ¬ ∃ q, div * q = mul * v) ∧
    ((scaleInt mul div v).2 = false → div * (scaleInt mul div v).1 = mul * v) := by
  have hfm : (mul * v).fmod div = (mul * v) % div := Int.fmod_eq_emod_of_nonneg _ hd.le
  unfold scaleInt
  simp only [decide_eq_true_eq, decide_eq_false_iff_not, not_not, ne_eq]
  constructor
  · rw [hfm, ← Int.dvd_iff_emod_eq_zero, not_iff_not]
    exact ⟨fun ⟨q, h⟩ => ⟨q, h.symm⟩, fun ⟨q, h⟩ => ⟨q, h.symm⟩⟩
  · intro h
    have := fdiv_fmod (mul * v) div
    rw [h] at this; simpa using this

/-- **C27** Scaling there and back gives the original value exactly when the first step reports nothing, and then the
second step reports nothing either. -/
theorem C27_round_trip (mul div v : Int) (hm : 0 < mul) (hd : 0 < div) :
    ((scaleInt div mul (scaleInt mul div v).1).1 = v ↔ (scaleInt mul div v).2 = false) ∧
    ((scaleInt mul div v).2 = false → (scaleInt div mul (scaleInt mul div v).1).2 = false) := by
  have h1 := fdiv_fmod (mul * v) div
  have hr0 : 0 ≤ (mul * v).fmod div := by
    rw [Int.fmod_eq_emod_of_nonneg _ hd.le]; exact Int.emod_nonneg _ (by omega)
  unfold scaleInt
  simp only [decide_eq_false_iff_not, not_not, ne_eq]
  generalize (mul * v).fdiv div = q at *
  generalize (mul * v).fmod div = r at *
  rw [Int.fdiv_eq_ediv_of_nonneg _ hm.le, Int.fmod_eq_emod_of_nonneg _ hm.le]
  have he : div * q = mul * v - r := by omega
  refine ⟨⟨fun h => ?_, fun h => ?_⟩, fun h => ?_⟩
  · by_contra hne
    have hlt : (mul * v - r) / mul < v := by
      apply Int.ediv_lt_of_lt_mul hm
      have : v * mul = mul * v := by ring
      omega
    rw [he] at h; omega
  · rw [he, h]; simp [Int.mul_ediv_cancel_left _ (by omega : mul ≠ 0)]
  · rw [he, h]; simp

/-- A list of values is changed by the round trip or not. -/
theorem scaleRect_round (mul div : Int) (hm : 0 < mul) (hd : 0 < div) (r : Rect) :
    ((scaleRect div mul (scaleRect mul div r).1).1 = r ↔ (scaleRect mul div r).2 = false) ∧
    ((scaleRect mul div r).2 = false → (scaleRect div mul (scaleRect mul div r).1).2 = false) := by
  have h := fun v => C27_round_trip mul div v hm hd
  obtain ⟨a, b, c, d⟩ := r
  simp only [scaleRect, Rect.mk.injEq, Bool.or_eq_false_iff, (h a).1, (h b).1, (h c).1, (h d).1]
  refine ⟨?_, ?_⟩
  · constructor
    · rintro ⟨x1, x2, x3, x4⟩; exact ⟨⟨⟨x1, x2⟩, x3⟩, x4⟩
    · rintro ⟨⟨⟨x1, x2⟩, x3⟩, x4⟩; exact ⟨x1, x2, x3, x4⟩
  · rintro ⟨⟨⟨x1, x2⟩, x3⟩, x4⟩
    exact ⟨⟨⟨(h a).2 x1, (h b).2 x2⟩, (h c).2 x3⟩, (h d).2 x4⟩

theorem map_eq_self_iff {α : Type} (f : α → α) (l : List α) : l.map f = l ↔ ∀ a ∈ l, f a = a := by
  induction l with
  | nil => simp
  | cons a l ih => simp [ih]

theorem scaleInst_round (mul div : Int) (hm : 0 < mul) (hd : 0 < div) (i : Inst) :
    ((scaleInst div mul (scaleInst mul div i).1).1 = i ↔ (scaleInst mul div i).2 = false) ∧
    ((scaleInst mul div i).2 = false → (scaleInst div mul (scaleInst mul div i).1).2 = false) := by
  have h := fun v => C27_round_trip mul div v hm hd
  obtain ⟨n, t, ⟨ox, oy, sx, sy⟩, fa⟩ := i
  simp only [scaleInst, Inst.mk.injEq, Transformation.mk.injEq, Bool.or_eq_false_iff, (h ox).1, (h oy).1, true_and,
    and_true]
  exact fun ⟨x1, x2⟩ => ⟨(h ox).2 x1, (h oy).2 x2⟩

theorem scaleMod_round (mul div : Int) (hm : 0 < mul) (hd : 0 < div) (m : PMod) :
    ((scaleMod div mul (scaleMod mul div m).1).1 = m ↔ (scaleMod mul div m).2 = false) ∧
    ((scaleMod mul div m).2 = false → (scaleMod div mul (scaleMod mul div m).1).2 = false) := by
  obtain ⟨b, ps, is⟩ := m
  simp only [scaleMod, PMod.mk.injEq, Bool.or_eq_false_iff, List.map_map, List.any_eq_false, true_and]
  rw [map_eq_self_iff, (scaleRect_round mul div hm hd b).1]
  constructor
  · refine and_congr Iff.rfl (forall₂_congr fun i hi => ?_)
    rw [Function.comp, (scaleInst_round mul div hm hd i).1]; simp
  · rintro ⟨h1, h2⟩
    refine ⟨(scaleRect_round mul div hm hd b).2 h1, fun i hi => ?_⟩
    obtain ⟨j, hj, rfl⟩ := List.mem_map.mp hi
    have := (scaleInst_round mul div hm hd j).2 (by simpa using h2 j hj)
    simp [this]

theorem scaleLeaf_round (mul div : Int) (hm : 0 < mul) (hd : 0 < div) (l : PLeaf) :
    ((scaleLeaf div mul (scaleLeaf mul div l).1).1 = l ↔ (scaleLeaf mul div l).2 = false) ∧
    ((scaleLeaf mul div l).2 = false → (scaleLeaf div mul (scaleLeaf mul div l).1).2 = false) := by
  obtain ⟨b, ts⟩ := l
  simp only [scaleLeaf, PLeaf.mk.injEq, Bool.or_eq_false_iff, List.map_map, List.any_eq_false]
  rw [map_eq_self_iff, (scaleRect_round mul div hm hd b).1]
  constructor
  · refine and_congr Iff.rfl (forall₂_congr fun t ht => ?_)
    obtain ⟨n, r⟩ := t
    simp only [Function.comp, Prod.mk.injEq, true_and]
    rw [(scaleRect_round mul div hm hd r).1]; simp
  · rintro ⟨h1, h2⟩
    refine ⟨(scaleRect_round mul div hm hd b).2 h1, fun t ht => ?_⟩
    obtain ⟨j, hj, rfl⟩ := List.mem_map.mp ht
    have := (scaleRect_round mul div hm hd j.2).2 (by simpa using h2 j hj)
    simp [this]

/-- **C27** A whole placement: scaling it and scaling it back gives the same placement exactly when the first step
reports nothing, and then the second step reports nothing. -/
theorem C27_placement_round_trip (P : Placement) (scale : Int) (hs : 0 < scale) (invert : Bool) :
    ((scalePlacement (scalePlacement P scale invert).1 scale (!invert)).1 = P ↔
      (scalePlacement P scale invert).2 = false) ∧
    ((scalePlacement P scale invert).2 = false →
      (scalePlacement (scalePlacement P scale invert).1 scale (!invert)).2 = false) := by
  have key : ∀ mul div : Int, 0 < mul → 0 < div →
      ((scaleBy div mul (scaleBy mul div P).1).1 = P ↔ (scaleBy mul div P).2 = false) ∧
      ((scaleBy mul div P).2 = false → (scaleBy div mul (scaleBy mul div P).1).2 = false) := by
    intro mul div hm hd
    obtain ⟨ms, ls⟩ := P
    simp only [scaleBy, Placement.mk.injEq, Bool.or_eq_false_iff, List.map_map, List.any_eq_false]
    rw [map_eq_self_iff, map_eq_self_iff]
    constructor
    · refine and_congr (forall₂_congr fun e he => ?_) (forall₂_congr fun e he => ?_)
      · obtain ⟨n, m⟩ := e
        simp only [Function.comp, Prod.mk.injEq, true_and]
        rw [(scaleMod_round mul div hm hd m).1]; simp
      · obtain ⟨n, l⟩ := e
        simp only [Function.comp, Prod.mk.injEq, true_and]
        rw [(scaleLeaf_round mul div hm hd l).1]; simp
    · rintro ⟨h1, h2⟩
      refine ⟨fun e he => ?_, fun e he => ?_⟩
      · obtain ⟨j, hj, rfl⟩ := List.mem_map.mp he
        have := (scaleMod_round mul div hm hd j.2).2 (by simpa using h1 j hj)
        simp [this]
      · obtain ⟨j, hj, rfl⟩ := List.mem_map.mp he
        have := (scaleLeaf_round mul div hm hd j.2).2 (by simpa using h2 j hj)
        simp [this]
  cases invert
  · exact key scale 2 hs (by omega)
  · exact key 2 scale (by omega) hs

/-- **C27** The scaling in `checkers.py`: it refuses exactly the boxes that do not scale to whole numbers; an error is
recorded for exactly the terminals that do not; every other rectangle is scaled exactly. -/
theorem C27_rational_scaling (mul div : Int) (hd : 0 < div) (l : PLeaf) :
    let exactRect (r r' : Rect) : Prop := div * r'.llx = mul * r.llx ∧ div * r'.lly = mul * r.lly ∧
      div * r'.urx = mul * r.urx ∧ div * r'.ury = mul * r.ury
    (rationalScaling mul div l = none ↔ ¬ ∃ r', exactRect l.bbox r') ∧
    ∀ l' errs, rationalScaling mul div l = some (l', errs) → exactRect l.bbox l'.bbox ∧
      (∀ t, t ∈ errs ↔ t ∈ l.terminals ∧ ¬ ∃ r', exactRect t.2 r') ∧
      List.Forall₂ (fun t t' => t'.1 = t.1 ∧ (t ∉ errs → exactRect t.2 t'.2)) l.terminals l'.terminals := by
  intro exactRect
  have hdiv : ∀ c : Int, (mul * c).fmod div = 0 ↔ ∃ q, div * q = mul * c := by
    intro c
    have := (C27_reported_iff mul div c hd).1
    simp only [scaleInt, decide_eq_true_eq, ne_eq, not_iff_not] at this
    exact this
  have hq : ∀ c : Int, (mul * c).fmod div = 0 → div * (mul * c).fdiv div = mul * c := by
    intro c h
    have := fdiv_fmod (mul * c) div
    rw [h] at this; simpa using this
  have hw : ∀ r : Rect, (r.toList.all fun c => decide ((mul * c).fmod div = 0)) = true ↔
      exactRect r ⟨(mul * r.llx).fdiv div, (mul * r.lly).fdiv div, (mul * r.urx).fdiv div, (mul * r.ury).fdiv div⟩ := by
    intro r
    simp only [Rect.toList, List.all_cons, List.all_nil, Bool.and_true, Bool.and_eq_true, decide_eq_true_eq, exactRect]
    constructor
    · rintro ⟨a, b, c, d⟩; exact ⟨hq _ a, hq _ b, hq _ c, hq _ d⟩
    · rintro ⟨a, b, c, d⟩; exact ⟨(hdiv _).mpr ⟨_, a⟩, (hdiv _).mpr ⟨_, b⟩, (hdiv _).mpr ⟨_, c⟩, (hdiv _).mpr ⟨_, d⟩⟩
  have hex : ∀ r : Rect, (∃ r', exactRect r r') ↔
      (r.toList.all fun c => decide ((mul * c).fmod div = 0)) = true := by
    intro r
    rw [hw]
    constructor
    · rintro ⟨r', a, b, c, d⟩
      exact ⟨hq _ ((hdiv _).mpr ⟨_, a⟩), hq _ ((hdiv _).mpr ⟨_, b⟩), hq _ ((hdiv _).mpr ⟨_, c⟩), hq _ ((hdiv _).mpr ⟨_, d⟩)⟩
    · exact fun h => ⟨_, h⟩
  unfold rationalScaling
  simp only
  constructor
  · rw [hex]
    split
    · rename_i h; simp [h]
    · rename_i h; simp [h]
  · intro l' errs h
    split at h
    · rename_i hb
      simp only [Option.some.injEq, Prod.mk.injEq] at h
      obtain ⟨rfl, rfl⟩ := h
      refine ⟨(hw _).mp hb, ?_, ?_⟩
      · intro t
        rw [List.mem_filter, hex]
        simp
      · simp only
        rw [List.forall₂_map_right_iff]
        refine List.forall₂_same.mpr fun t ht => ⟨rfl, fun hn => ?_⟩
        rw [List.mem_filter] at hn
        apply (hw _).mp
        by_contra hc
        exact hn ⟨ht, by simpa using hc⟩
    · cases h

/-! ## Examples -/

/-- Two rows of a cell; the second instance of the upper row mirrored. -/
def rows (gap : Int) : Placement :=
  { mods := [("top", ⟨⟨0, 0, 20, 10⟩, [], [⟨"r0", "row", {}, []⟩, ⟨"r1", "row", { oY := 10, sY := -1 }, []⟩]⟩),
      ("row", ⟨⟨0, 0, 20, 5⟩, [], [⟨"c0", "cell", {}, []⟩, ⟨"c1", "cell", { oX := 20 - gap, sX := -1 }, []⟩]⟩)]
    leaves := [("cell", ⟨⟨0, 0, 10, 5⟩, [("p", ⟨1, 1, 2, 2⟩)]⟩)] }

example : overlapChecker (rows 0) 3 "top" = some true ∧ overlapChecker (rows 1) 3 "top" = none := by decide

theorem rows_wf (gap : Int) : WF (rows gap) := by
  have hm : ∀ cn m, (rows gap).mods.lookup cn = some m → (cn, m) ∈ (rows gap).mods := fun cn m h =>
    Verif.Hier.lookup_mem h
  refine ⟨?_, ?_, ?_, ?_⟩
  · intro cn m h
    have := hm cn m h
    simp only [rows, List.mem_cons, Prod.mk.injEq, List.not_mem_nil, or_false] at this
    rcases this with ⟨-, rfl⟩ | ⟨-, rfl⟩ <;> simp
  · intro cn m h i hi
    have := hm cn m h
    simp only [rows, List.mem_cons, Prod.mk.injEq, List.not_mem_nil, or_false] at this
    rcases this with ⟨-, rfl⟩ | ⟨-, rfl⟩ <;> simp only [List.mem_cons, List.not_mem_nil, or_false] at hi <;>
      rcases hi with rfl | rfl <;> simp [Transformation.Rigid]
  · intro n l h
    have := Verif.Hier.lookup_mem h
    simp only [rows, List.mem_cons, Prod.mk.injEq, List.not_mem_nil, or_false] at this
    rcases this with ⟨-, rfl⟩; simp
  · intro n h
    obtain ⟨m, h⟩ := Option.isSome_iff_exists.mp h
    have := hm n m h
    simp only [rows, List.mem_cons, Prod.mk.injEq, List.not_mem_nil, or_false] at this
    rcases this with ⟨rfl, -⟩ | ⟨rfl, -⟩ <;> rfl

example (gap : Int) : Acyclic (rows gap).design (fun n => if n = "top" then 2 else if n = "row" then 1 else 0) := by
  intro cn m h i hi
  have := Verif.Hier.lookup_mem h
  simp only [rows, Placement.design, List.map_cons, List.map_nil, List.mem_cons, Prod.mk.injEq, List.not_mem_nil,
    or_false] at this
  rcases this with ⟨rfl, rfl⟩ | ⟨rfl, rfl⟩ <;> simp only [List.mem_cons, List.not_mem_nil, or_false] at hi <;>
    rcases hi with rfl | rfl <;> simp

/-- A scale factor of 10 is exact on even and on odd coordinates; back from 0.1 nm it need not be. -/
example : (scalePlacement (rows 1) 10 false).2 = false ∧ (scalePlacement (rows 1) 10 true).2 = true ∧
    (scaleInt 5 2 (-3)) = (-8, true) := by decide

end Verif.Overlap

import Verif.Hier.Model
import Verif.GridCons.Props
import Verif.Geometry.Props
import Mathlib.Data.List.Forall2
import Mathlib.Data.List.Nodup

/-! # C21, C22, C32: flattening, acceptance on grids, topological order -/

namespace Verif.Hier

open Verif.Geometry (Rect Transformation)
open Verif.GridCons (Pog Axis Term mapM_some)

/-! ## Specification vocabulary -/

/-- `Path D cn p leaf`: starting in module `cn`, the instances `p` (outermost first) lead down to the leaf `leaf`. -/
inductive Path (D : Design) : String → List Inst → String → Prop
  | last {cn m i} : D.mods.lookup cn = some m → i ∈ m.insts → (D.leaves.lookup i.template).isSome →
      Path D cn [i] i.template
  | down {cn m i p leaf} : D.mods.lookup cn = some m → i ∈ m.insts → D.leaves.lookup i.template = none →
      Path D i.template p leaf → Path D cn (i :: p) leaf

/-- Where the instances of a path take a point of the leaf: innermost placement first. -/
def throughPath : List Inst → Int × Int → Int × Int
  | [], q => q
  | i :: p, q => i.tr.hit (throughPath p q)

/-- The instance names joined with a slash. -/
def pathName : List Inst → String
  | [] => ""
  | [i] => i.name
  | i :: j :: p => i.name ++ "/" ++ pathName (j :: p)

/-- The hierarchy is acyclic: a rank decreases towards the templates of instances. -/
def Acyclic (D : Design) (rank : String → Nat) : Prop :=
  ∀ cn m, D.mods.lookup cn = some m → ∀ i ∈ m.insts, rank i.template < rank cn

/-- Every template is known. -/
def Closed (D : Design) : Prop :=
  ∀ cn m, D.mods.lookup cn = some m → ∀ i ∈ m.insts,
    (D.leaves.lookup i.template).isSome ∨ (D.mods.lookup i.template).isSome

/-! ## C21 -/

theorem mapM_forall₂ {α β : Type} {f : α → Option β} : ∀ {l : List α} {bs : List β},
    l.mapM f = some bs → List.Forall₂ (fun a b => f a = some b) l bs := by
  intro l
  induction l with
  | nil => intro bs h; simp at h; subst h; exact .nil
  | cons a l ih =>
    intro bs h
    simp only [List.mapM_cons, Option.bind_eq_bind] at h
    obtain ⟨b, hb, h⟩ := Option.bind_eq_some_iff.mp h
    obtain ⟨bs', hbs, h⟩ := Option.bind_eq_some_iff.mp h
    simp only [Option.pure_def, Option.some.injEq] at h
    subst h
    exact .cons hb (ih hbs)

theorem Path.ne_nil {D : Design} {cn : String} {p : List Inst} {leaf : String} (h : Path D cn p leaf) : p ≠ [] := by
  cases h <;> simp

theorem pathName_cons (i : Inst) {p : List Inst} (h : p ≠ []) :
    pathName (i :: p) = i.name ++ "/" ++ pathName p := by
  cases p with
  | nil => exact absurd rfl h
  | cons j p => rfl

/-- Flattening lists every path down to a leaf exactly once; the reported name is the path, the reported
transformation is the composition of the placements along the path. The instances of a module are distinct entries. -/
theorem C21_flatten (D : Design) (hnd : ∀ cn m, D.mods.lookup cn = some m → m.insts.Nodup) (fuel : Nat) :
    ∀ (cn : String) (fs : List Flat), flatten D fuel cn = some fs →
    ∃ paths : List (List Inst × String), paths.Nodup ∧ (∀ p leaf, (p, leaf) ∈ paths ↔ Path D cn p leaf) ∧
      List.Forall₂ (fun pl f => f.leaf = pl.2 ∧ f.name = pathName pl.1 ∧
        ∀ q, f.tr.hit q = throughPath pl.1 q) paths fs := by
  induction fuel with
  | zero => intro cn fs h; simp [flatten] at h
  | succ fuel ih =>
    intro cn fs h
    unfold flatten at h
    obtain ⟨m, hm, h⟩ := Option.bind_eq_some_iff.mp h
    rw [Option.map_eq_some_iff] at h
    obtain ⟨fss, hf, rfl⟩ := h
    have hndm := hnd cn m hm
    -- the paths through the listed instances
    have key : ∀ (is : List Inst) (fss : List (List Flat)), is.Nodup → (∀ i ∈ is, i ∈ m.insts) →
        List.Forall₂ (fun i b => (if (D.leaves.lookup i.template).isSome then some [transformLeaf i i.template]
          else (flatten D fuel i.template).map (List.map (transformFlat i))) = some b) is fss →
        ∃ paths : List (List Inst × String), paths.Nodup ∧
          (∀ p leaf, (p, leaf) ∈ paths ↔ Path D cn p leaf ∧ ∃ i ∈ is, p.head? = some i) ∧
          List.Forall₂ (fun pl f => f.leaf = pl.2 ∧ f.name = pathName pl.1 ∧
            ∀ q, f.tr.hit q = throughPath pl.1 q) paths fss.flatten := by
      intro is
      induction is with
      | nil => intro fss _ _ h; cases h; exact ⟨[], by simp, by simp, by simp⟩
      | cons i is ihis =>
        intro fss hnd' hsub hall
        cases hall with
        | cons hi hrest =>
          rename_i b fss'
          rw [List.nodup_cons] at hnd'
          obtain ⟨paths, p1, p2, p3⟩ := ihis fss' hnd'.2 (fun j hj => hsub j (List.mem_cons_of_mem _ hj)) hrest
          have him := hsub i (by simp)
          -- paths through `i`
          have hone : ∃ ps : List (List Inst × String), ps.Nodup ∧
              (∀ p leaf, (p, leaf) ∈ ps ↔ Path D cn p leaf ∧ p.head? = some i) ∧
              List.Forall₂ (fun pl f => f.leaf = pl.2 ∧ f.name = pathName pl.1 ∧
                ∀ q, f.tr.hit q = throughPath pl.1 q) ps b := by
            split at hi
            · rename_i hleaf
              simp only [Option.some.injEq] at hi
              subst hi
              refine ⟨[([i], i.template)], by simp, ?_, ?_⟩
              · intro p leaf
                simp only [List.mem_singleton, Prod.mk.injEq]
                constructor
                · rintro ⟨rfl, rfl⟩
                  exact ⟨.last hm him hleaf, rfl⟩
                · rintro ⟨hp, hh⟩
                  cases hp with
                  | last _ _ _ => simp only [List.head?_cons, Option.some.injEq] at hh; subst hh; exact ⟨rfl, rfl⟩
                  | down _ _ hn _ =>
                    simp only [List.head?_cons, Option.some.injEq] at hh
                    subst hh; rw [hn] at hleaf; simp at hleaf
              · refine .cons ⟨rfl, rfl, fun q => ?_⟩ .nil
                rw [transformLeaf, Verif.Geometry.C01_mult_is_sequential]
                simp [throughPath, Transformation.hit]
            · rename_i hleaf
              have hnone : D.leaves.lookup i.template = none := Option.not_isSome_iff_eq_none.mp hleaf
              rw [Option.map_eq_some_iff] at hi
              obtain ⟨fs', hfs', rfl⟩ := hi
              obtain ⟨ps, q1, q2, q3⟩ := ih i.template fs' hfs'
              refine ⟨ps.map fun pl => (i :: pl.1, pl.2), ?_, ?_, ?_⟩
              · refine List.Nodup.map ?_ q1
                rintro ⟨a, b⟩ ⟨c, d⟩ h
                simp only [Prod.mk.injEq, List.cons.injEq, true_and] at h
                simp [h.1, h.2]
              · intro p leaf
                simp only [List.mem_map, Prod.mk.injEq, Prod.exists]
                constructor
                · rintro ⟨p', l', h1, rfl, rfl⟩
                  exact ⟨.down hm him hnone ((q2 _ _).mp h1), rfl⟩
                · rintro ⟨hp, hh⟩
                  cases hp with
                  | last _ _ hl =>
                    simp only [List.head?_cons, Option.some.injEq] at hh
                    subst hh; rw [hnone] at hl; simp at hl
                  | down _ _ _ hd =>
                    simp only [List.head?_cons, Option.some.injEq] at hh
                    subst hh
                    exact ⟨_, _, (q2 _ _).mpr hd, rfl, rfl⟩
              · rw [List.forall₂_map_left_iff, List.forall₂_map_right_iff]
                have : ∀ (ps : List (List Inst × String)) (fs' : List Flat), (∀ pl ∈ ps, pl.1 ≠ []) →
                    List.Forall₂ (fun pl f => f.leaf = pl.2 ∧ f.name = pathName pl.1 ∧
                      ∀ q, f.tr.hit q = throughPath pl.1 q) ps fs' →
                    List.Forall₂ (fun (pl : List Inst × String) f => (transformFlat i f).leaf = pl.2 ∧
                      (transformFlat i f).name = pathName (i :: pl.1) ∧
                      ∀ q, (transformFlat i f).tr.hit q = throughPath (i :: pl.1) q) ps fs' := by
                  intro ps fs' hne hall
                  induction hall with
                  | nil => exact .nil
                  | cons h _ ih' =>
                    refine .cons ⟨h.1, ?_, fun q => ?_⟩ (ih' fun pl hpl => hne pl (List.mem_cons_of_mem _ hpl))
                    · rw [pathName_cons i (hne _ (by simp)), ← h.2.1]; rfl
                    · show (Transformation.mult i.tr _).hit q = _
                      rw [Verif.Geometry.C01_mult_is_sequential, h.2.2 q]; rfl
                exact this ps fs' (fun pl hpl => ((q2 pl.1 pl.2).mp hpl).ne_nil) q3
          obtain ⟨ps, q1, q2, q3⟩ := hone
          refine ⟨ps ++ paths, ?_, ?_, ?_⟩
          · rw [List.nodup_append]
            refine ⟨q1, p1, ?_⟩
            rintro ⟨a, la⟩ ha ⟨b', lb⟩ hb heq
            simp only [Prod.mk.injEq] at heq
            obtain ⟨rfl, rfl⟩ := heq
            have e1 := ((q2 _ _).mp ha).2
            obtain ⟨-, j, hj, e2⟩ := (p2 _ _).mp hb
            rw [e1, Option.some.injEq] at e2
            subst e2
            exact hnd'.1 hj
          · intro p leaf
            rw [List.mem_append, q2, p2]
            constructor
            · rintro (⟨a, b⟩ | ⟨a, j, hj, b⟩)
              · exact ⟨a, i, by simp, b⟩
              · exact ⟨a, j, List.mem_cons_of_mem _ hj, b⟩
            · rintro ⟨a, j, hj, b⟩
              rcases List.mem_cons.mp hj with rfl | hj
              · exact Or.inl ⟨a, b⟩
              · exact Or.inr ⟨a, j, hj, b⟩
          · rw [List.flatten_cons]
            exact List.rel_append q3 p3
    obtain ⟨paths, p1, p2, p3⟩ := key m.insts fss hndm (fun i hi => hi) (mapM_forall₂ hf)
    refine ⟨paths, p1, fun p leaf => ?_, p3⟩
    rw [p2]
    constructor
    · exact fun h => h.1
    · intro h
      refine ⟨h, ?_⟩
      cases h with
      | last h1 h2 _ => rw [hm, Option.some.injEq] at h1; subst h1; exact ⟨_, h2, rfl⟩
      | down h1 h2 _ _ => rw [hm, Option.some.injEq] at h1; subst h1; exact ⟨_, h2, rfl⟩

/-- Flattening succeeds on every acyclic hierarchy in which all templates are known. -/
theorem C21_total (D : Design) (rank : String → Nat) (hac : Acyclic D rank) (hcl : Closed D) :
    ∀ (fuel : Nat) (cn : String), rank cn < fuel → (D.mods.lookup cn).isSome → (flatten D fuel cn).isSome := by
  intro fuel
  induction fuel with
  | zero => intro cn h; omega
  | succ fuel ih =>
    intro cn hr hs
    obtain ⟨m, hm⟩ := Option.isSome_iff_exists.mp hs
    have : ∃ bs, (m.insts.mapM fun i =>
        if (D.leaves.lookup i.template).isSome then some [transformLeaf i i.template]
        else (flatten D fuel i.template).map (List.map (transformFlat i))) = some bs ∧
          List.Forall₂ (fun _ _ => True) m.insts bs := by
      refine mapM_some _ (fun _ _ => True) _ fun i hi => ?_
      split
      · exact ⟨_, rfl, trivial⟩
      · rename_i hl
        have h1 := ih i.template (by have := hac cn m hm i hi; omega)
          ((hcl cn m hm i hi).resolve_left hl)
        obtain ⟨fs, hfs⟩ := Option.isSome_iff_exists.mp h1
        exact ⟨_, by rw [hfs]; rfl, trivial⟩
    obtain ⟨bs, hbs, -⟩ := this
    simp only [flatten, hm, Option.bind_some, hbs, Option.map_some, Option.isSome_some]

/-! ## C22 -/

/-- `x` lies on the grid `offset + k * pitch` for an offset of a term that lists the orientation `s`. -/
def OnGrid (c : Pog) (x s : Int) : Prop :=
  ∃ t ∈ c.terms, s ∈ t.scalings ∧ ∃ o ∈ t.offsets, ∃ k : Int, x = o + k * c.pitch

/-- The point and orientation that count for a direction: `H` constrains y, `V` constrains x. -/
def placedAt (t : Transformation) : Axis → Int × Int
  | .H => (t.oY, t.sY)
  | .V => (t.oX, t.sX)

theorem satisfied_iff (c : Pog) (t : Transformation) (hp : 0 < c.pitch) :
    satisfied c t = true ↔ OnGrid c (placedAt t c.direction).1 (placedAt t c.direction).2 := by
  have he : (if c.direction = .H then (t.oY, t.sY) else (t.oX, t.sX)) = placedAt t c.direction := by
    cases c.direction <;> rfl
  unfold satisfied
  rw [he]
  generalize placedAt t c.direction = os
  obtain ⟨o, s⟩ := os
  simp only [List.any_eq_true, Bool.and_eq_true, decide_eq_true_eq, List.contains_iff_mem, OnGrid]
  constructor
  · rintro ⟨term, h1, off, h2, h3, h4⟩
    refine ⟨term, h1, h4, off, h2, (o - off) / c.pitch, ?_⟩
    rw [Int.fmod_eq_emod_of_nonneg _ (by omega)] at h3
    have := Int.mul_ediv_add_emod (o - off) c.pitch
    rw [mul_comm]; omega
  · rintro ⟨term, h1, h4, off, h2, k, hk⟩
    refine ⟨term, h1, off, h2, ?_, h4⟩
    rw [Int.fmod_eq_emod_of_nonneg _ (by omega), hk]
    have : off + k * c.pitch - off = k * c.pitch := by ring
    rw [this, Int.mul_emod_left]

/-- A placement is accepted exactly when every leaf, at the location composed along its path, lies on the grid of
each of its constraints. -/
theorem C22_accepted_iff (D : Design) (hnd : ∀ cn m, D.mods.lookup cn = some m → m.insts.Nodup) (fuel : Nat)
    (top : String) (cons : List (String × List Pog))
    (hpitch : ∀ leaf cs, cons.lookup leaf = some cs → ∀ c ∈ cs, 0 < c.pitch)
    (hflat : (flatten D fuel top).isSome) :
    checkPlaceOnGrid D fuel top cons = some () ↔
      ∀ p leaf, Path D top p leaf → ∀ cs, cons.lookup leaf = some cs → ∀ c ∈ cs,
        ∀ t : Transformation, (∀ q, t.hit q = throughPath p q) →
          OnGrid c (placedAt t c.direction).1 (placedAt t c.direction).2 := by
  obtain ⟨fs, hfs⟩ := Option.isSome_iff_exists.mp hflat
  obtain ⟨paths, -, h2, h3⟩ := C21_flatten D hnd fuel top fs hfs
  have hbody : ∀ f : Flat, ((match cons.lookup f.leaf with
        | none => true
        | some cs => (checkLeaf f cs).isSome) = true) ↔
      ∀ cs, cons.lookup f.leaf = some cs → ∀ c ∈ cs,
        OnGrid c (placedAt f.tr c.direction).1 (placedAt f.tr c.direction).2 := by
    intro f
    cases hc : cons.lookup f.leaf with
    | none => simp
    | some cs =>
      have : (checkLeaf f cs).isSome = true ↔ cs.all (satisfied · f.tr) = true := by
        unfold checkLeaf; split <;> simp_all
      simp only [this, List.all_eq_true, Option.some.injEq]
      constructor
      · rintro h cs' rfl c hcm
        exact (satisfied_iff c f.tr (hpitch _ _ hc c hcm)).mp (h c hcm)
      · intro h c hcm
        exact (satisfied_iff c f.tr (hpitch _ _ hc c hcm)).mpr (h cs rfl c hcm)
  have hiff : checkPlaceOnGrid D fuel top cons = some () ↔
      ∀ f ∈ fs, ∀ cs, cons.lookup f.leaf = some cs → ∀ c ∈ cs,
        OnGrid c (placedAt f.tr c.direction).1 (placedAt f.tr c.direction).2 := by
    unfold checkPlaceOnGrid
    rw [hfs, Option.bind_some]
    constructor
    · intro h
      split at h
      · rename_i hall
        rw [List.all_eq_true] at hall
        exact fun f hf => (hbody f).mp (hall f hf)
      · simp at h
    · intro h
      rw [if_pos]
      rw [List.all_eq_true]
      exact fun f hf => (hbody f).mpr (h f hf)
  rw [hiff]
  constructor
  · intro h p leaf hp cs hcs c hc t ht
    have : ∀ (ps : List (List Inst × String)) (fs : List Flat), List.Forall₂ (fun pl f => f.leaf = pl.2 ∧
        f.name = pathName pl.1 ∧ ∀ q, f.tr.hit q = throughPath pl.1 q) ps fs → (p, leaf) ∈ ps →
        ∃ f ∈ fs, f.leaf = leaf ∧ ∀ q, f.tr.hit q = throughPath p q := by
      intro ps fs hall hmem
      induction hall with
      | nil => simp at hmem
      | cons h' _ ih =>
        rcases List.mem_cons.mp hmem with h0 | h0
        · subst h0
          exact ⟨_, List.mem_cons_self, h'.1, h'.2.2⟩
        · obtain ⟨f, hf, r⟩ := ih h0
          exact ⟨f, List.mem_cons_of_mem _ hf, r⟩
    obtain ⟨f, hf, hl, ht'⟩ := this paths fs h3 ((h2 p leaf).mpr hp)
    have htt : t = f.tr := Verif.Geometry.C01_hit_faithful _ _ fun q => by rw [ht, ht']
    rw [htt]
    exact h f hf cs (by rw [hl]; exact hcs) c hc
  · intro h f hf cs hcs c hc
    have : ∀ (ps : List (List Inst × String)) (fs : List Flat), List.Forall₂ (fun pl f => f.leaf = pl.2 ∧
        f.name = pathName pl.1 ∧ ∀ q, f.tr.hit q = throughPath pl.1 q) ps fs → f ∈ fs →
        ∃ p, (p, f.leaf) ∈ ps ∧ ∀ q, f.tr.hit q = throughPath p q := by
      intro ps fs hall hmem
      induction hall with
      | nil => simp at hmem
      | @cons pl f' _ _ h' _ ih =>
        rcases List.mem_cons.mp hmem with h0 | h0
        · subst h0
          refine ⟨pl.1, ?_, h'.2.2⟩
          rw [h'.1]; exact List.mem_cons_self
        · obtain ⟨p, hp, r⟩ := ih h0
          exact ⟨p, List.mem_cons_of_mem _ hp, r⟩
    obtain ⟨p, hp, ht⟩ := this paths fs h3 hf
    exact h p f.leaf ((h2 _ _).mp hp) cs hcs c hc f.tr ht

/-! ## C32 -/

/-- `Below D a b`: `b` is `a` or is instantiated, directly or not, in `a`. -/
inductive Below (D : Design) : String → String → Prop
  | refl (a) : Below D a a
  | step {a m i b} : D.mods.lookup a = some m → i ∈ m.insts → Below D i.template b → Below D a b

/-- Every module of the list comes after the templates of all its instances. -/
def ChildrenFirst (D : Design) (order : List String) : Prop :=
  ∀ pre n post, order = pre ++ n :: post → ∀ m, D.mods.lookup n = some m → ∀ i ∈ m.insts, i.template ∈ pre

theorem childrenFirst_snoc {D : Design} {o : List String} (h : ChildrenFirst D o) {n : String}
    (hn : ∀ m, D.mods.lookup n = some m → ∀ i ∈ m.insts, i.template ∈ o) : ChildrenFirst D (o ++ [n]) := by
  intro pre k post he m hm i hi
  rcases List.eq_nil_or_concat post with rfl | ⟨post', x, rfl⟩
  · have : o = pre ∧ n = k := by
      have := List.append_inj' he (by simp)
      simp at this; exact this
    obtain ⟨rfl, rfl⟩ := this
    exact hn m hm i hi
  · have : o = pre ++ k :: post' ∧ n = x := by
      have h2 : o ++ [n] = (pre ++ k :: post') ++ [x] := by rw [he]; simp
      have := List.append_inj' h2 (by simp)
      simpa using this
    exact h pre k post' this.1 m hm i hi

/-- What one call of the depth-first search does. -/
structure TopoStep (D : Design) (st st' : Topo) (new : List String) : Prop where
  order : st'.order = st.order ++ new
  nodup : st'.order.Nodup
  first : ChildrenFirst D st'.order
  found : ∀ x, x ∈ st'.found ↔ x ∈ st.found ∨ x ∈ new

theorem topoAux_spec (D : Design) (rank : String → Nat) (hac : Acyclic D rank) (fuel : Nat) :
    ∀ (cn : String) (st : Topo), rank cn < fuel → cn ∉ st.found → st.order.Nodup →
      (∀ x ∈ st.order, x ∈ st.found) → (∀ x ∈ st.found, x ∈ st.order ∨ rank cn < rank x) →
      ChildrenFirst D st.order →
      ∃ st' new, topoAux D fuel cn st = some st' ∧ TopoStep D st st' (new ++ [cn]) ∧
        ∀ x ∈ new ++ [cn], Below D cn x := by
  induction fuel with
  | zero => intro cn st h; omega
  | succ fuel ih =>
    intro cn st hr hnf hnd hof hfo hcf
    have hno : cn ∉ st.order := fun h => hnf (hof _ h)
    unfold topoAux
    cases hm : D.mods.lookup cn with
    | none =>
      refine ⟨_, [], rfl, ⟨by simp, ?_, ?_, ?_⟩, ?_⟩
      · rw [List.nodup_append]
        refine ⟨hnd, by simp, ?_⟩
        intro a ha b hb
        simp only [List.mem_singleton] at hb
        subst hb
        intro h; subst h; exact hno ha
      · exact childrenFirst_snoc hcf (by rw [hm]; simp)
      · intro x; simp [or_comm]
      · intro x hx; simp at hx; subst hx; exact .refl _
    | some m =>
      -- the loop over the instances
      have loop : ∀ (is : List Inst) (st1 : Topo), (∀ i ∈ is, i ∈ m.insts) → st1.order.Nodup →
          (∀ x ∈ st1.order, x ∈ st1.found) → (∀ x ∈ st1.found, x ∈ st1.order ∨ rank cn ≤ rank x) →
          ChildrenFirst D st1.order →
          ∃ st2 new, is.foldlM (fun (st : Topo) i =>
              if i.template ∈ st.found then some st else topoAux D fuel i.template st) st1 = some st2 ∧
            TopoStep D st1 st2 new ∧ (∀ x ∈ new, Below D cn x ∧ rank x < rank cn) ∧
            ∀ i ∈ is, i.template ∈ st2.order := by
        intro is
        induction is with
        | nil =>
          intro st1 _ h1 h2 h3 h4
          exact ⟨st1, [], rfl, ⟨by simp, h1, h4, by simp⟩, by simp, by simp⟩
        | cons i is ihis =>
          intro st1 hsub h1 h2 h3 h4
          have him := hsub i (by simp)
          have hri := hac cn m hm i him
          have hsub' : ∀ j ∈ is, j ∈ m.insts := fun j hj => hsub j (List.mem_cons_of_mem _ hj)
          by_cases hf : i.template ∈ st1.found
          · obtain ⟨st2, new, e, ts, hb, hall⟩ := ihis st1 hsub' h1 h2 h3 h4
            refine ⟨st2, new, ?_, ts, hb, ?_⟩
            · rw [List.foldlM_cons, if_pos hf]; exact e
            · intro j hj
              rcases List.mem_cons.mp hj with rfl | hj
              · rcases h3 _ hf with h | h
                · rw [ts.order]; exact List.mem_append_left _ h
                · omega
              · exact hall j hj
          · obtain ⟨sta, newa, ea, ta, ba⟩ := ih i.template st1 (by omega) hf h1 h2
              (fun x hx => by rcases h3 x hx with h | h; exact Or.inl h; right; omega) h4
            have hbelow : ∀ x ∈ newa ++ [i.template], Below D cn x ∧ rank x < rank cn := by
              have hbr : ∀ {a b}, Below D a b → rank b ≤ rank a := by
                intro a b h
                induction h with
                | refl => exact le_refl _
                | step h1 h2 _ ih' => have := hac _ _ h1 _ h2; omega
              intro x hx
              have := hbr (ba x hx)
              exact ⟨.step hm him (ba x hx), by omega⟩
            obtain ⟨st2, new, e, ts, hb, hall⟩ := ihis sta hsub' ta.nodup
              (fun x hx => by
                rw [ta.found]
                rw [ta.order] at hx
                rcases List.mem_append.mp hx with h | h
                · exact Or.inl (h2 x h)
                · exact Or.inr h)
              (fun x hx => by
                rw [ta.found] at hx
                rw [ta.order]
                rcases hx with h | h
                · rcases h3 x h with h | h
                  · exact Or.inl (List.mem_append_left _ h)
                  · exact Or.inr h
                · exact Or.inl (List.mem_append_right _ h))
              ta.first
            refine ⟨st2, (newa ++ [i.template]) ++ new, ?_, ⟨?_, ts.nodup, ts.first, ?_⟩, ?_, ?_⟩
            · rw [List.foldlM_cons, if_neg hf, ea]; exact e
            · rw [ts.order, ta.order, List.append_assoc]
            · intro x
              simp only [ts.found, ta.found, List.mem_append, or_assoc]
            · intro x hx
              rcases List.mem_append.mp hx with h | h
              · exact hbelow x h
              · exact hb x h
            · intro j hj
              rcases List.mem_cons.mp hj with rfl | hj
              · rw [ts.order, ta.order]; simp
              · exact hall j hj
      obtain ⟨st2, new, e, ts, hb, hall⟩ := loop m.insts ⟨cn :: st.found, st.order⟩ (fun i hi => hi) hnd
        (fun x hx => List.mem_cons_of_mem _ (hof x hx))
        (fun x hx => by
          rcases List.mem_cons.mp hx with rfl | hx
          · exact Or.inr (le_refl _)
          · rcases hfo x hx with h | h
            · exact Or.inl h
            · right; omega) hcf
      have hcn2 : cn ∉ st2.order := by
        rw [ts.order]
        intro h
        rcases List.mem_append.mp h with h | h
        · exact hno h
        · have := (hb cn h).2; omega
      refine ⟨⟨st2.found, st2.order ++ [cn]⟩, new, ?_, ⟨?_, ?_, ?_, ?_⟩, ?_⟩
      · simp only
        rw [e]; rfl
      · simp only [ts.order, List.append_assoc]
      · rw [List.nodup_append]
        refine ⟨ts.nodup, by simp, ?_⟩
        intro a ha b hb'
        simp only [List.mem_singleton] at hb'
        subst hb'
        intro h; subst h; exact hcn2 ha
      · refine childrenFirst_snoc ts.first ?_
        intro m' hm' i hi
        rw [hm, Option.some.injEq] at hm'
        subst hm'
        exact hall i hi
      · intro x
        rw [ts.found]
        simp only [List.mem_cons, List.mem_append, List.not_mem_nil, or_false]
        constructor
        · rintro ((h | h) | h)
          · exact Or.inr (Or.inr h)
          · exact Or.inl h
          · exact Or.inr (Or.inl h)
        · rintro (h | h | h)
          · exact Or.inl (Or.inr h)
          · exact Or.inr h
          · exact Or.inl (Or.inl h)
      · intro x hx
        rcases List.mem_append.mp hx with h | h
        · exact (hb x h).1
        · simp only [List.mem_singleton] at h; subst h; exact .refl _

/-- On every acyclic hierarchy the order exists, lists exactly the top module and everything below it, each once,
children before parents, and ends with the top module. -/
theorem C32_topological_order (D : Design) (rank : String → Nat) (hac : Acyclic D rank) (fuel : Nat) (top : String)
    (hfuel : rank top < fuel) :
    ∃ order, topoOrder D fuel top = some order ∧ order.Nodup ∧ ChildrenFirst D order ∧
      (∀ x, x ∈ order ↔ Below D top x) ∧ order.getLast? = some top := by
  obtain ⟨st', new, e, ts, hb⟩ := topoAux_spec D rank hac fuel top ⟨[], []⟩ hfuel (by simp) (by simp) (by simp)
    (by simp) (by intro pre n post h; simp at h)
  have ho : st'.order = new ++ [top] := by rw [ts.order]; simp
  refine ⟨st'.order, by simp [topoOrder, e], ts.nodup, ts.first, fun x => ?_, by rw [ho]; simp⟩
  constructor
  · intro h; exact hb x (by rw [← ho]; exact h)
  · intro h
    have htop : top ∈ st'.order := by rw [ho]; simp
    have hclosed : ∀ {a b}, Below D a b → a ∈ st'.order → b ∈ st'.order := by
      intro a b h
      induction h with
      | refl => exact fun h => h
      | step h1 h2 _ ih =>
        intro ha
        obtain ⟨pre, post, hs⟩ := List.append_of_mem ha
        have := ts.first pre _ post hs _ h1 _ h2
        exact ih (by rw [hs]; exact List.mem_append_left _ this)
    exact hclosed h htop

/-- A hierarchy of three levels, with a module and a leaf used twice, that meets the hypotheses. -/
def sample : Design :=
  { mods := [("top", ⟨["in"], [⟨"u0", "mid", { oX := 10, sX := -1 }, [("a", "in")]⟩,
        ⟨"u1", "mid", { oY := 20 }, [("a", "n")]⟩, ⟨"u2", "leaf", {}, [("p", "n")]⟩]⟩),
      ("mid", ⟨["a"], [⟨"v0", "leaf", { oX := 3 }, [("p", "a")]⟩, ⟨"v1", "leaf", { oX := 7, sY := -1 }, [("p", "b")]⟩]⟩)]
    leaves := [("leaf", ⟨[("p", ⟨0, 0, 1, 1⟩)]⟩)]
    globals := [] }

example : Acyclic sample (fun n => if n = "top" then 2 else if n = "mid" then 1 else 0) := by
  intro cn m h i hi
  simp only [sample, List.lookup_cons, List.lookup_nil] at h
  split at h
  · rename_i hc; simp only [beq_iff_eq] at hc; subst hc; cases h
    simp at hi
    rcases hi with rfl | rfl | rfl <;> decide
  · split at h
    · rename_i hc; simp only [beq_iff_eq] at hc; subst hc; cases h
      simp at hi
      rcases hi with rfl | rfl <;> decide
    · cases h

example : (flatten sample 3 "top").map (List.map fun f => (f.name, f.tr.oX, f.tr.sX, f.tr.oY, f.tr.sY)) =
    some [("u0/v0", 7, -1, 0, 1), ("u0/v1", 3, -1, 0, -1), ("u1/v0", 3, 1, 20, 1), ("u1/v1", 7, 1, 20, -1),
      ("u2", 0, 1, 0, 1)] := by decide

example : topoOrder sample 3 "top" = some ["leaf", "mid", "top"] := by decide

example : checkPlaceOnGrid sample 3 "top" [("leaf", [⟨.H, 20, [⟨[0], [1, -1]⟩]⟩])] = some () ∧
    checkPlaceOnGrid sample 3 "top" [("leaf", [⟨.V, 20, [⟨[0], [1, -1]⟩]⟩])] = none := by decide

end Verif.Hier

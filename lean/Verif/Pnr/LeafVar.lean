import Verif.Pnr.Load

/-!
# C110: the variants of the leaf blocks

What `MergeLEFMapData` (`PlaceRouteHierFlow/PnRDB/PnRdatabase.cpp` 1757-1848) makes of the blocks when a database is built. The model is
in `Verif/Pnr/Load.lean`.
-/

namespace Verif.Load

open Verif.Turn (Pt Box Contact Via)
open Verif.PnrNet (VMod VInst)

/-! ## Specification -/

/-- The file `f` is called `s`, without directory and extension. -/
def Names (f s : String) : Prop :=
  '/' ∉ s.toList ∧ ∃ dir ext : String, f = dir ++ s ++ ext ∧ (dir = "" ∨ ∃ d, dir = d ++ "/") ∧
    ((ext = "" ∧ '.' ∉ s.toList) ∨ ∃ e : String, ext = "." ++ e ∧ '.' ∉ e.toList ∧ '/' ∉ e.toList)

/-- Some module is called `a`. -/
def IsModule (ms : List VMod) (a : String) : Prop := ∃ m ∈ ms, PnrNet.modName m = some a

/-- A pin has the shapes of the first pin of its name in the macro, and none if there is no such pin. -/
def Shapes (l : Macro) (p : Pin) : Prop :=
  (∀ l1 q r, l.pins = l1 ++ q :: r → q.1 = p.name → (∀ y ∈ l1, y.1 ≠ p.name) → p.contacts = q.2.1 ∧ p.vias = q.2.2) ∧
  ((∀ q ∈ l.pins, q.1 ≠ p.name) → p.contacts = [] ∧ p.vias = [])

/-- The variant of instance `x` of `a` with layout `f`: the macro is the one that is called like the file. -/
structure Leaf (lef : List (String × Macro)) (x : VInst) (a f : String) (v : Inst) : Prop where
  master : v.master = a
  name : v.name = x.name
  gds : v.gds = f
  shape : ∀ s, Names f s → f.length < 2 ^ 31 → ∃ l, lef.lookup s = some l ∧ v.lefmaster = l.name ∧ v.width = l.width ∧ v.height = l.height ∧
    v.originBox = ⟨⟨0, 0⟩, ⟨l.width, l.height⟩⟩ ∧ v.originCenter = ⟨l.width.tdiv 2, l.height.tdiv 2⟩ ∧ v.metals = l.metals ∧ v.vias = l.vias ∧
    ∀ p ∈ v.pins, Shapes l p

/-- The block of instance `x` of `a`. -/
structure Variants (files : List (String × List String)) (lef : List (String × Macro)) (ms : List VMod) (x : VInst) (a : String)
    (b : Block) : Prop where
  /-- A template with layouts has one variant per layout, in order. -/
  leaf : ∀ fs, files.lookup a = some fs → b.num = fs.length ∧ List.Forall₂ (Leaf lef x a) fs b.insts
  /-- A module without layouts has a single instance, and no variants yet. -/
  module : files.lookup a = none → IsModule ms a → b.num = 0 ∧ ∃ v, b.insts = [v] ∧ v.master = a ∧ v.name = x.name
  /-- Leaves are marked. -/
  mark : ∀ v ∈ b.insts, v.isLeaf = true ↔ ¬ IsModule ms a
  /-- The child is the module. -/
  child : (b.child = -1 ∧ ¬ IsModule ms a) ∨ ∃ (j : Nat) (m : VMod), b.child = j ∧ ms[j]? = some m ∧ PnrNet.modName m = some a

/-! ## The name of a file -/

theorem lastOf_split {c : Char} {l r : List Char} (h : c ∉ r) : lastOf c (l ++ c :: r) = l.length := by
  unfold lastOf
  rw [List.zipIdx_append, List.zipIdx_cons, List.filter_append, List.filter_cons]
  have : (r.zipIdx (0 + l.length + 1)).filter (fun x => x.1 == c) = [] := by
    rw [List.filter_eq_nil_iff]
    rintro ⟨y, i⟩ hy
    have := List.fst_mem_of_mem_zipIdx hy
    simp only [beq_iff_eq]
    rintro rfl
    exact h this
  rw [Nat.zero_add] at this
  simp [this]

theorem lastOf_none {c : Char} {s : List Char} (h : c ∉ s) : lastOf c s = 2 ^ 32 - 1 := by
  unfold lastOf
  have : s.zipIdx.filter (fun x => x.1 == c) = [] := by
    rw [List.filter_eq_nil_iff]
    rintro ⟨y, i⟩ hy
    have := List.fst_mem_of_mem_zipIdx hy
    simp only [beq_iff_eq]
    rintro rfl
    exact h this
  simp [this]

theorem split_mem {c : Char} {s : List Char} (h : c ∈ s) : ∃ l r, s = l ++ c :: r ∧ c ∉ r := by
  induction s with
  | nil => simp at h
  | cons x s ih =>
    by_cases hs : c ∈ s
    · obtain ⟨l, r, rfl, hr⟩ := ih hs
      exact ⟨x :: l, r, rfl, hr⟩
    · rcases List.mem_cons.1 h with rfl | h
      · exact ⟨[], s, rfl, hs⟩
      · exact absurd h hs

/-- **C110** The name of a file is found, also if it has no extension and a directory has a dot in its name. -/
theorem C110_stem (f s : String) (h : Names f s) (hl : f.length < 2 ^ 31) : stem f = s := by
  obtain ⟨hs, dir, ext, rfl, hd, he⟩ := h
  have hlen : dir.toList.length + s.toList.length + ext.toList.length < 2 ^ 31 := by
    rw [← String.length_toList] at hl
    simpa only [String.toList_append, List.length_append] using hl
  have hext : '/' ∉ ext.toList := by
    rcases he with ⟨rfl, -⟩ | ⟨e, rfl, -, h2⟩
    · simp
    · simpa using h2
  have hstart : (lastOf '/' (dir ++ s ++ ext).toList + 1) % 2 ^ 32 = dir.toList.length := by
    rcases hd with rfl | ⟨d, rfl⟩
    · rw [lastOf_none]
      · simp
      · simp [hs, hext]
    · have : (d ++ "/" ++ s ++ ext).toList = d.toList ++ '/' :: (s.toList ++ ext.toList) := by simp
      rw [this, lastOf_split (by simp [hs, hext])]
      have h2 : (d ++ "/").toList.length = d.toList.length + 1 := by simp
      rw [h2] at hlen ⊢
      exact Nat.mod_eq_of_lt (by omega)
  have hdrop : (dir ++ s ++ ext).toList.drop dir.toList.length = s.toList ++ ext.toList := by
    simp [String.toList_append, List.append_assoc]
  have htake : ((dir ++ s ++ ext).toList.drop ((lastOf '/' (dir ++ s ++ ext).toList + 1) % 2 ^ 32)).take
      ((lastOf '.' (dir ++ s ++ ext).toList + 2 ^ 32 - (lastOf '/' (dir ++ s ++ ext).toList + 1) % 2 ^ 32) % 2 ^ 32) = s.toList := by
    rw [hstart, hdrop]
    rcases he with ⟨rfl, h1⟩ | ⟨e, rfl, h1, -⟩
    · have hbig : s.toList.length ≤ (lastOf '.' (dir ++ s ++ "").toList + 2 ^ 32 - dir.toList.length) % 2 ^ 32 := by
        by_cases hdot : '.' ∈ dir.toList
        · obtain ⟨l, r, hlr, hr⟩ := split_mem hdot
          have : (dir ++ s ++ "").toList = l ++ '.' :: (r ++ s.toList) := by simp [hlr]
          rw [this, lastOf_split (by simp [hr, h1])]
          have h2 : dir.toList.length = l.length + (r.length + 1) := by rw [hlr]; simp
          rw [h2] at hlen ⊢
          rw [Nat.mod_eq_of_lt (by omega)]
          simp only [String.toList_empty, List.length_nil] at hlen
          omega
        · rw [lastOf_none (by simp [hdot, h1])]
          have : 2 ^ 32 - 1 + 2 ^ 32 - dir.toList.length = (2 ^ 32 - 1 - dir.toList.length) + 2 ^ 32 := by omega
          rw [this, Nat.add_mod_right, Nat.mod_eq_of_lt (by omega)]
          omega
      simp only [String.toList_empty, List.append_nil]
      exact List.take_of_length_le hbig
    · have : (dir ++ s ++ ("." ++ e)).toList = (dir.toList ++ s.toList) ++ '.' :: e.toList := by simp
      rw [this, lastOf_split h1, List.length_append]
      have h2 : dir.toList.length + s.toList.length + 2 ^ 32 - dir.toList.length = s.toList.length + 2 ^ 32 := by omega
      rw [h2, Nat.add_mod_right, Nat.mod_eq_of_lt (by omega)]
      simp
  unfold stem
  simp only [htake]
  exact String.ofList_toList

/-! ## The blocks -/

/-- The block that is merged. -/
def prepared (pb : PnrNet.Block) (c : Int) : Block :=
  { insts := (freshBlock pb).insts.map fun v => { v with isLeaf := decide (c = -1) }, num := 0, child := c }

/-- What is known of a block after the merge. -/
def Merged (files : List (String × List String)) (lef : List (String × Macro)) (ms : List VMod) (x : VInst) (b : Block) : Prop :=
  ∃ (pb : PnrNet.Block) (c : Int), pb.name = x.name ∧ PnrNet.master x = some pb.master ∧ ((c = -1 ∧ ¬ IsModule ms pb.master) ∨
    ∃ (j : Nat) (m : VMod), c = j ∧ ms[j]? = some m ∧ PnrNet.modName m = some pb.master) ∧ mergeBlock files lef (prepared pb c) = some b

theorem mergePin_shapes {l : Macro} {p : Pin} (hc : p.contacts = []) (hv : p.vias = []) : Shapes l (mergePin l p) := by
  have hn : (mergePin l p).name = p.name := by
    unfold mergePin
    split <;> rfl
  constructor
  · intro l1 q r hl hq hy
    rw [hn] at hq hy
    have : (l.pins.find? fun q => q.1 == p.name) = some q := by
      rw [List.find?_eq_some_iff_append]
      exact ⟨by simpa using hq, l1, r, hl, by simpa using hy⟩
    simp only [mergePin, this]
    exact ⟨trivial, trivial⟩
  · intro hy
    rw [hn] at hy
    have : (l.pins.find? fun q => q.1 == p.name) = none := by
      rw [List.find?_eq_none]
      simpa using hy
    simp only [mergePin, this]
    exact ⟨hc, hv⟩

theorem isModule_iff {c : Int} {ms : List VMod} {a : String} (h : (c = -1 ∧ ¬ IsModule ms a) ∨
    ∃ (j : Nat) (m : VMod), c = j ∧ ms[j]? = some m ∧ PnrNet.modName m = some a) : c = -1 ↔ ¬ IsModule ms a := by
  rcases h with ⟨h1, h2⟩ | ⟨j, m, h1, h2, h3⟩
  · exact ⟨fun _ => h2, fun _ => h1⟩
  · constructor
    · intro h
      omega
    · intro h
      exact absurd ⟨m, List.mem_of_getElem? h2, h3⟩ h

theorem merged_variants {files : List (String × List String)} {lef : List (String × Macro)} {ms : List VMod} {x : VInst} {b : Block}
    (h : Merged files lef ms x b) {a : String} (ha : PnrNet.master x = some a) :
    Variants files lef ms x a b ∧
    (files.lookup a = none → ¬ IsModule ms a → contains "Cap" a = false → contains "CAP" a = false → contains "cap" a = false →
      b.insts = [] ∧ b.num = 0) ∧
    (files.lookup a = none → ¬ IsModule ms a → (contains "Cap" a || contains "CAP" a || contains "cap" a) = true →
      b.num = 0 ∧ ∃ v, b.insts = [v] ∧ v.gds = "" ∧ v.width = 0 ∧ v.height = 0 ∧ ∀ p ∈ v.pins, p.contacts = []) := by
  obtain ⟨pb, c, h1, h2, h3, h4⟩ := h
  rw [ha, Option.some.injEq] at h2
  subst h2
  have hc := isModule_iff h3
  simp only [mergeBlock, prepared, freshBlock, List.map_cons, List.map_nil, List.head?_cons, List.getLast?_singleton, Option.bind_eq_bind,
    Option.bind_some] at h4
  cases hk : files.lookup pb.master with
  | none =>
    rw [hk] at h4
    simp only [Bool.or_eq_true, Bool.not_eq_true', decide_eq_false_iff_not] at h4
    by_cases hcond : ((contains "Cap" pb.master = true ∨ contains "CAP" pb.master = true) ∨ contains "cap" pb.master = true) ∨ ¬ c = -1
    · rw [if_pos hcond] at h4
      rw [← Option.some.inj h4]
      refine ⟨⟨fun fs hfs => (by rw [hk] at hfs; cases hfs), fun _ _ => ⟨rfl, _, rfl, rfl, h1⟩, ?_, h3⟩, ?_, fun _ _ _ => ⟨rfl, _, rfl, rfl, rfl, rfl, ?_⟩⟩
      · intro v hv
        rw [List.mem_singleton.1 hv]
        simp only [decide_eq_true_eq]
        exact hc
      · intro _ hm c1 c2 c3
        rw [c1, c2, c3] at hcond
        simp only [Bool.false_eq_true, or_false, false_or] at hcond
        exact absurd (hc.2 hm) hcond
      · intro p hp
        simp only [List.mem_map] at hp
        obtain ⟨q, -, rfl⟩ := hp
        rfl
    · rw [if_neg hcond] at h4
      rw [← Option.some.inj h4]
      refine ⟨⟨fun fs hfs => (by rw [hk] at hfs; cases hfs), fun _ hm => ?_, by simp, h3⟩, fun _ _ _ _ _ => ⟨rfl, rfl⟩, ?_⟩
      · exfalso
        apply hcond
        right
        intro he
        exact hc.1 he hm
      · intro _ _ hcap
        exfalso
        apply hcond
        left
        simpa [or_assoc] using hcap
  | some fs =>
    rw [hk] at h4
    simp only [Option.bind_eq_some_iff, Option.some.injEq] at h4
    obtain ⟨vs, hvs, rfl⟩ := h4
    have hrel := mapM_rel hvs
    refine ⟨⟨?_, fun hn => (by rw [hk] at hn; cases hn), ?_, h3⟩, fun hn => (by cases hn), fun hn => (by cases hn)⟩
    · intro fs' hfs'
      rw [hk, Option.some.injEq] at hfs'
      subst hfs'
      refine ⟨rfl, hrel.imp ?_⟩
      intro f v hfv
      simp only [mergeInst, Option.map_eq_some_iff] at hfv
      obtain ⟨l, hl, rfl⟩ := hfv
      refine ⟨rfl, h1, rfl, ?_⟩
      intro s hs hlen
      rw [C110_stem f s hs hlen] at hl
      refine ⟨l, hl, rfl, rfl, rfl, rfl, rfl, rfl, rfl, ?_⟩
      intro p hp
      simp only [List.map_map, List.mem_map, Function.comp_def] at hp
      obtain ⟨q, -, rfl⟩ := hp
      exact mergePin_shapes rfl rfl
    · intro v hv
      obtain ⟨j, hj⟩ := List.mem_iff_getElem?.1 hv
      obtain ⟨f, -, hfv⟩ := (PnrNet.forall₂_at hrel (k := j)).2 hj
      simp only [mergeInst, Option.map_eq_some_iff] at hfv
      obtain ⟨l, -, rfl⟩ := hfv
      simp only [decide_eq_true_eq]
      exact hc

/-- The modules before the merge. -/
def pre (topcell : String) (t : List Node) : List Node :=
  (t.zipWith withChild (HierTree.semantic0 topcell { tree := t.map project, topidx := none }).tree).map fun n => markLeaf (attach n)

/-- The blocks of a module before the merge. -/
def Prep (ms : List VMod) (x : VInst) (b : Block) : Prop :=
  ∃ (pb : PnrNet.Block) (c : Int), pb.name = x.name ∧ PnrNet.master x = some pb.master ∧ ((c = -1 ∧ ¬ IsModule ms pb.master) ∨
    ∃ (j : Nat) (m : VMod), c = j ∧ ms[j]? = some m ∧ PnrNet.modName m = some pb.master) ∧ b = prepared pb c

theorem pre_blocks {topcell : String} {sn : String → List (String × String)} {ms : List VMod} {ns : List PnrNet.Node}
    (hr : PnrNet.readJson ms = some ns) :
    List.Forall₂ (fun (m : VMod) (n : Node) => List.Forall₂ (Prep ms) m.insts n.blocks) ms (pre topcell (ns.map (fresh sn))) := by
  have hr' := mapM_rel hr
  have hl : HierTree.Linked (HierTree.shape ((ns.map (fresh sn)).map project))
      (HierTree.semantic0 topcell { tree := (ns.map (fresh sn)).map project, topidx := none }).tree := by
    refine HierTree.C107_links { tree := (ns.map (fresh sn)).map project, topidx := none } topcell rfl ?_ ?_
    · intro n hn
      simp only [List.mem_map] at hn
      obtain ⟨x, -, rfl⟩ := hn
      rfl
    · intro n hn
      simp only [List.mem_map] at hn
      obtain ⟨x, -, rfl⟩ := hn
      rfl
  unfold pre
  generalize (HierTree.semantic0 topcell { tree := (ns.map (fresh sn)).map project, topidx := none }).tree = links at hl
  have hshape : HierTree.shape links = ns.map fun n => (n.name, n.blocks.map (·.master)) := by
    rw [hl.same]
    simp [HierTree.shape, project, fresh, freshBlock, Function.comp_def]
  have hlen : links.length = ns.length := by
    have := congrArg List.length hshape
    simpa [HierTree.shape] using this
  have hname : ∀ a, (∃ m ∈ links, m.name = a) ↔ IsModule ms a := by
    intro a
    constructor
    · rintro ⟨l, hlm, rfl⟩
      obtain ⟨j, hj⟩ := List.mem_iff_getElem?.1 hlm
      have h1 : (HierTree.shape links)[j]? = some (l.name, l.blocks.map (·.master)) := by simp [HierTree.shape, hj]
      rw [hshape, List.getElem?_map, Option.map_eq_some_iff] at h1
      obtain ⟨n, hn, he⟩ := h1
      obtain ⟨m, hm, hh⟩ := (PnrNet.forall₂_at hr' (k := j)).2 hn
      refine ⟨m, List.mem_of_getElem? hm, ?_⟩
      rw [(read_node hh).2.2.2.2.2]
      exact congrArg some (congrArg Prod.fst he)
    · rintro ⟨m, hm, hh⟩
      obtain ⟨j, hj⟩ := List.mem_iff_getElem?.1 hm
      obtain ⟨n, hn, hmn⟩ := (PnrNet.forall₂_at hr' (k := j)).1 hj
      rw [(read_node hmn).2.2.2.2.2, Option.some.injEq] at hh
      subst hh
      have h1 : (HierTree.shape links)[j]? = some (n.name, n.blocks.map (·.master)) := by rw [hshape]; simp [hn]
      obtain ⟨l, hlj, he⟩ := HierTree.shape_get.1 h1
      exact ⟨l, List.mem_of_getElem? hlj, (congrArg Prod.fst he).symm⟩
  have hidx : ∀ (j : Nat) (l : HierTree.Node), links[j]? = some l → ∃ m, ms[j]? = some m ∧ PnrNet.modName m = some l.name := by
    intro j l hj
    have h1 : (HierTree.shape links)[j]? = some (l.name, l.blocks.map (·.master)) := by simp [HierTree.shape, hj]
    rw [hshape, List.getElem?_map, Option.map_eq_some_iff] at h1
    obtain ⟨n, hn, he⟩ := h1
    obtain ⟨m, hm, hh⟩ := (PnrNet.forall₂_at hr' (k := j)).2 hn
    refine ⟨m, hm, ?_⟩
    rw [(read_node hh).2.2.2.2.2]
    exact congrArg some (congrArg Prod.fst he)
  rw [List.forall₂_iff_get]
  refine ⟨by simp [hr'.length_eq, hlen], ?_⟩
  intro j hj1 hj2
  simp only [List.length_map, List.length_zipWith] at hj2
  have hjn : j < ns.length := by omega
  have hjl : j < links.length := by omega
  simp only [List.get_eq_getElem, List.getElem_map, List.getElem_zipWith]
  have hread := (List.forall₂_iff_get.1 hr').2 j hj1 hjn
  simp only [List.get_eq_getElem] at hread
  have hb := (read_node hread).2.2.2.2.1
  have hbl : links[j].blocks.map (·.master) = ns[j].blocks.map (·.master) := by
    have h1 : (HierTree.shape links)[j]? = some (links[j].name, links[j].blocks.map (·.master)) := by
      simp [HierTree.shape, hjl]
    rw [hshape, List.getElem?_map, List.getElem?_eq_getElem hjn] at h1
    exact (congrArg Prod.snd (Option.some.inj h1)).symm
  have hbll : links[j].blocks.length = ns[j].blocks.length := by
    have := congrArg List.length hbl
    simpa using this
  rw [List.forall₂_iff_get]
  refine ⟨by simp [markLeaf, attach, withChild, fresh, hb.length_eq, hbll], ?_⟩
  intro k hk1 hk2
  have hkn : k < ns[j].blocks.length := by rw [← hb.length_eq]; exact hk1
  have hkl : k < links[j].blocks.length := by omega
  obtain ⟨e1, e2, -⟩ := (List.forall₂_iff_get.1 hb).2 k hk1 hkn
  simp only [List.get_eq_getElem] at e1 e2
  have hkm : links[j].blocks[k].master = ns[j].blocks[k].master := by
    have := congrArg (fun l => l[k]?) hbl
    simpa [hkl, hkn] using this
  refine ⟨ns[j].blocks[k], links[j].blocks[k].child, e1, e2, ?_, ?_⟩
  · rcases hl.child j k links[j] links[j].blocks[k] (List.getElem?_eq_getElem hjl) (List.getElem?_eq_getElem hkl) with ⟨h1, h2⟩ | ⟨i, l, h1, h2, h3⟩
    · left
      refine ⟨h1, ?_⟩
      rw [← hname]
      rintro ⟨l, hlm, hh⟩
      exact h2 l hlm (by rw [hh, hkm])
    · right
      obtain ⟨m, hm1, hm2⟩ := hidx i l h2
      exact ⟨i, m, h1, hm1, by rw [hm2, h3, hkm]⟩
  · simp only [List.get_eq_getElem, markLeaf, attach, withChild, fresh, List.getElem_map, List.getElem_zipWith, prepared, freshBlock]

theorem semantic0_blocks {topcell : String} {sn : String → List (String × String)} {files : List (String × List String)}
    {lef : List (String × Macro)} {ms : List VMod} {ns : List PnrNet.Node} {t : List Node} (hr : PnrNet.readJson ms = some ns)
    (h : semantic0 topcell files lef (ns.map (fresh sn)) = some t) :
    List.Forall₂ (fun (m : VMod) (n : Node) => List.Forall₂ (Merged files lef ms) m.insts n.blocks) ms t := by
  have h' : (pre topcell (ns.map (fresh sn))).mapM (merge files lef) = some t := h
  refine rel_comp ?_ (pre_blocks (topcell := topcell) (sn := sn) hr) (mapM_rel h')
  intro m n n' hp hm
  simp only [merge, Option.map_eq_some_iff] at hm
  obtain ⟨bs, hbs, rfl⟩ := hm
  refine rel_comp ?_ hp (mapM_rel hbs)
  rintro x b b' ⟨pb, c, h1, h2, h3, rfl⟩ hb
  exact ⟨pb, c, h1, h2, h3, hb⟩

theorem semantic1_blocks : ∀ (gs : List Signal) {t t' : List Node}, semantic1 gs t = some t' →
    List.Forall₂ (fun (n n' : Node) => n'.blocks = n.blocks) t t'
  | [], t, t', h => by
    simp only [semantic1, List.foldlM_nil, Option.pure_def, Option.some.injEq] at h
    subst h
    rw [List.forall₂_same]
    intro n _
    rfl
  | g :: gs, t, t', h => by
    simp only [semantic1, List.foldlM_cons, Option.bind_eq_bind, Option.bind_eq_some_iff, Option.map_eq_some_iff] at h
    obtain ⟨t1, ⟨pw, -, rfl⟩, h2⟩ := h
    have := semantic1_blocks gs (show semantic1 gs (t.map (takeSupply g pw)) = some t' from h2)
    rw [List.forall₂_map_left_iff] at this
    exact this

theorem number_blocks {n n' : Node} (h : number n = some n') : ∃ w, n'.blocks = finalBlocks w n.blocks := by
  simp only [number, Option.bind_eq_bind, Option.bind_eq_some_iff, Option.some.injEq] at h
  obtain ⟨n1, h1, r, h2, rfl⟩ := h
  obtain ⟨a1, a2, -⟩ := writes_final (n0 := n) _ finalBlocks_nil.symm finalTerms_nil.symm h1
  have hp : ∀ (ps : List Power) (w : List (Conn × Int)) (n1 : Node) (r : Node × List Power), n1.blocks = finalBlocks w n.blocks →
      n1.terms = finalTerms w n.terms → numberPowers n1 ps = some r → ∃ w, r.1.blocks = finalBlocks w n.blocks := by
    intro ps
    induction ps with
    | nil =>
      intro w n1 r hb ht h
      simp only [numberPowers, Option.some.injEq] at h
      subst h
      exact ⟨w, hb⟩
    | cons p ps ih =>
      intro w n1 r hb ht h
      simp only [numberPowers, Option.bind_eq_bind, Option.bind_eq_some_iff, Option.some.injEq] at h
      obtain ⟨s, g1, q, g2, rfl⟩ := h
      obtain ⟨k1, k2, -⟩ := power_final (n0 := n) p.connected (s := (n1, p.pins)) hb ht g1
      exact ih _ _ q k1 k2 g2
  exact hp _ _ _ _ a1 a2 h2

theorem load_blocks {topcell : String} {sn : String → List (String × String)} {files : List (String × List String)}
    {lef : List (String × Macro)} {gs : List Signal} {ms : List VMod} {t : List Node} (h : load topcell sn files lef gs ms = some t) :
    List.Forall₂ (fun (m : VMod) (n : Node) => ∃ bs w, List.Forall₂ (Merged files lef ms) m.insts bs ∧ n.blocks = finalBlocks w bs) ms t := by
  simp only [load, Option.bind_eq_bind, Option.bind_eq_some_iff] at h
  obtain ⟨ns, h1, t1, h2, t2, h3, h4⟩ := h
  refine rel_comp (S := fun (b n : Node) => ∃ w, n.blocks = finalBlocks w b.blocks) ?_ (semantic0_blocks h1 h2)
    (rel_comp ?_ (semantic1_blocks gs h3) (semantic2_rounds h4))
  · rintro m n0 n hm ⟨w, hw⟩
    exact ⟨_, w, hm, hw⟩
  · rintro n0 b n hb ⟨r, ns, hn, -, rfl, -⟩
    obtain ⟨w, hw⟩ := number_blocks hn
    exact ⟨w, by rw [← hb]; exact hw⟩

theorem final_variants {files : List (String × List String)} {lef : List (String × Macro)} {ms : List VMod} {x : VInst} {a : String}
    {b : Block} (w : List (Conn × Int)) (k : Nat) (h : Variants files lef ms x a b) :
    Variants files lef ms x a { b with insts := b.insts.map (finalInst w k) } := by
  refine ⟨?_, ?_, ?_, h.child⟩
  · intro fs hfs
    obtain ⟨h1, h2⟩ := h.leaf fs hfs
    refine ⟨h1, ?_⟩
    simp only
    rw [List.forall₂_map_right_iff]
    refine h2.imp ?_
    rintro f v ⟨g1, g2, g3, g4⟩
    refine ⟨g1, g2, g3, ?_⟩
    intro s hs hlen
    obtain ⟨l, k1, k2, k3, k4, k5, k6, k7, k8, k9⟩ := g4 s hs hlen
    refine ⟨l, k1, k2, k3, k4, k5, k6, k7, k8, ?_⟩
    intro p hp
    simp only [finalInst, List.mem_mapIdx] at hp
    obtain ⟨i, hi, rfl⟩ := hp
    exact k9 v.pins[i] (List.getElem_mem hi)
  · intro h1 h2
    obtain ⟨g1, v, g2, g3, g4⟩ := h.module h1 h2
    exact ⟨g1, finalInst w k v, by simp [g2], g3, g4⟩
  · intro v hv
    simp only [List.mem_map] at hv
    obtain ⟨v0, hv0, rfl⟩ := hv
    exact h.mark v0 hv0

/-! ## Theorems -/

theorem load_at {topcell : String} {sn : String → List (String × String)} {files : List (String × List String)}
    {lef : List (String × Macro)} {gs : List Signal} {ms : List VMod} {t : List Node} (h : load topcell sn files lef gs ms = some t)
    {q k : Nat} {m : VMod} {n : Node} {x : VInst} {b : Block} (hm : ms[q]? = some m) (hn : t[q]? = some n) (hx : m.insts[k]? = some x)
    (hb : n.blocks[k]? = some b) : ∃ b0 w, Merged files lef ms x b0 ∧ b = { b0 with insts := b0.insts.map (finalInst w k) } := by
  obtain ⟨n1, hn1, bs, w, h1, h2⟩ := (PnrNet.forall₂_at (load_blocks h) (k := q)).1 hm
  rw [hn, Option.some.injEq] at hn1
  subst hn1
  obtain ⟨b0, hb0, h3⟩ := (PnrNet.forall₂_at h1 (k := k)).1 hx
  rw [h2] at hb
  simp only [finalBlocks, List.getElem?_mapIdx, hb0, Option.map_some, Option.some.injEq] at hb
  exact ⟨b0, w, h3, hb.symm⟩

/-- **C110** In the database the block of an instance has one variant for every layout of its template, with the size and the shapes of the
macro that is called like the file; the instance of a module has no variants yet and knows its module. -/
theorem C110_variants_partial (topcell : String) (sn : String → List (String × String)) (files : List (String × List String))
    (lef : List (String × Macro)) (gs : List Signal) (ms : List VMod) (t : List Node) (h : load topcell sn files lef gs ms = some t)
    (q k : Nat) (m : VMod) (n : Node) (x : VInst) (b : Block) (a : String) (hm : ms[q]? = some m) (hn : t[q]? = some n)
    (hx : m.insts[k]? = some x) (hb : n.blocks[k]? = some b) (ha : PnrNet.master x = some a) : Variants files lef ms x a b := by
  obtain ⟨b0, w, h1, rfl⟩ := load_at h hm hn hx hb
  exact final_variants w k (merged_variants h1 ha).1

/-- **C110** What is missing: a template without layouts that is no module has no instance at all, unless its name has `Cap`, `CAP` or
`cap` in it; then it has one without layout, size and shapes. In both cases the database is built. -/
theorem C110_unknown (topcell : String) (sn : String → List (String × String)) (files : List (String × List String))
    (lef : List (String × Macro)) (gs : List Signal) (ms : List VMod) (t : List Node) (h : load topcell sn files lef gs ms = some t)
    (q k : Nat) (m : VMod) (n : Node) (x : VInst) (b : Block) (a : String) (hm : ms[q]? = some m) (hn : t[q]? = some n)
    (hx : m.insts[k]? = some x) (hb : n.blocks[k]? = some b) (ha : PnrNet.master x = some a) (hf : files.lookup a = none)
    (hmod : ¬ IsModule ms a) :
    (¬ "Cap".toList <:+: a.toList → ¬ "CAP".toList <:+: a.toList → ¬ "cap".toList <:+: a.toList → b.insts = []) ∧
    ("Cap".toList <:+: a.toList ∨ "CAP".toList <:+: a.toList ∨ "cap".toList <:+: a.toList →
      ∃ v, b.insts = [v] ∧ v.gds = "" ∧ v.width = 0 ∧ v.height = 0 ∧ ∀ p ∈ v.pins, p.contacts = []) := by
  have hcon : ∀ p s : String, contains p s = true ↔ p.toList <:+: s.toList := by
    intro p s
    simp only [contains, List.any_eq_true, List.mem_tails, List.isPrefixOf_iff_prefix]
    constructor
    · rintro ⟨u, h1, h2⟩
      exact h2.isInfix.trans h1.isInfix
    · intro h
      obtain ⟨u, h1, h2⟩ := List.infix_iff_prefix_suffix.1 h
      exact ⟨u, h2, h1⟩
  obtain ⟨b0, w, h1, rfl⟩ := load_at h hm hn hx hb
  obtain ⟨-, h2, h3⟩ := merged_variants h1 ha
  constructor
  · intro c1 c2 c3
    rw [← hcon, Bool.not_eq_true] at c1 c2 c3
    simp [(h2 hf hmod c1 c2 c3).1]
  · intro hc
    rw [← hcon, ← hcon, ← hcon] at hc
    obtain ⟨-, v, g1, g2, g3, g4, g5⟩ := h3 hf hmod (by simpa [or_assoc] using hc)
    refine ⟨finalInst w k v, by simp [g1], g2, g3, g4, ?_⟩
    intro p hp
    simp only [finalInst, List.mem_mapIdx] at hp
    obtain ⟨i, hi, rfl⟩ := hp
    exact g5 v.pins[i] (List.getElem_mem hi)

/-! ## The database is built -/

theorem mapM_some {α β : Type} {f : α → Option β} : ∀ {l : List α}, (∀ x ∈ l, ∃ y, f x = some y) → ∃ l', l.mapM f = some l'
  | [], _ => ⟨[], rfl⟩
  | x :: l, h => by
    obtain ⟨y, hy⟩ := h x (by simp)
    obtain ⟨ys, hys⟩ := mapM_some fun z hz => h z (List.mem_cons_of_mem x hz)
    exact ⟨y :: ys, by simp [List.mapM_cons, hy, hys]⟩

/-- The module has the pin or terminal, and the block has a variant. -/
def Fits (n : Node) : Conn → Prop
  | .pin i k => ∃ b, n.blocks[k]? = some b ∧ b.insts ≠ [] ∧ ∀ v ∈ b.insts, i < v.pins.length
  | .term q => q < n.terms.length

theorem write_fits {w : List (Conn × Int)} {n0 n : Node} {c : Conn} {v : Int} (hb : n.blocks = finalBlocks w n0.blocks)
    (ht : n.terms = finalTerms w n0.terms) (hf : Fits n0 c) : ∃ n', write n (c, v) = some n' := by
  cases c with
  | pin i k =>
    obtain ⟨b, h1, -, h3⟩ := hf
    obtain ⟨vs, hvs⟩ := mapM_some (f := setPin i v) (l := b.insts.map (finalInst w k)) (by
      intro x hx
      simp only [List.mem_map] at hx
      obtain ⟨y, hy, rfl⟩ := hx
      have := h3 y hy
      simp [setPin, finalInst, this])
    refine ⟨{ n with blocks := n.blocks.set k { b with insts := vs } }, ?_⟩
    simp only [write, hb, finalBlocks, List.getElem?_mapIdx, h1, Option.map_some, Option.bind_eq_bind, Option.bind_some, hvs]
  | term q =>
    have : q < n.terms.length := by
      have hq : q < n0.terms.length := hf
      rw [ht]
      simpa [finalTerms] using hq
    simp only [write, this, if_true]
    exact ⟨_, rfl⟩

theorem writes_fits {n0 : Node} : ∀ (l : List (Conn × Int)) {w : List (Conn × Int)} {n : Node}, n.blocks = finalBlocks w n0.blocks →
    n.terms = finalTerms w n0.terms → (∀ x ∈ l, Fits n0 x.1) → ∃ n', l.foldlM write n = some n'
  | [], _, n, _, _, _ => ⟨n, rfl⟩
  | x :: l, w, n, hb, ht, hf => by
    obtain ⟨n1, h1⟩ := write_fits (v := x.2) hb ht (hf x (by simp))
    obtain ⟨a1, a2, -⟩ := write_final hb ht h1
    obtain ⟨n2, h2⟩ := writes_fits l a1 a2 fun y hy => hf y (by simp [hy])
    exact ⟨n2, by simp only [List.foldlM_cons, Option.bind_eq_bind]; rw [show write n x = some n1 from h1]; exact h2⟩

theorem powerPin_fits {w : List (Conn × Int)} {n0 n : Node} {c : Conn} (hb : n.blocks = finalBlocks w n0.blocks)
    (ht : n.terms = finalTerms w n0.terms) (hf : Fits n0 c) : ∃ p, powerPin n c = some p := by
  cases c with
  | pin i k =>
    obtain ⟨b, h1, h2, h3⟩ := hf
    cases hg : b.insts.getLast? with
    | none => exact absurd (List.getLast?_eq_none_iff.1 hg) h2
    | some v =>
      have hi := h3 v (List.mem_of_getLast? hg)
      simp [powerPin, hb, finalBlocks, List.getElem?_mapIdx, h1, List.getLast?_map, hg, finalInst, List.getElem?_eq_getElem hi]
  | term q =>
    have hq : q < n0.terms.length := hf
    simp [powerPin, ht, finalTerms, List.getElem?_mapIdx, List.getElem?_eq_getElem hq]

theorem power_fits {n0 : Node} : ∀ (cs : List Conn) {w : List (Conn × Int)} {s : Node × List Pin}, s.1.blocks = finalBlocks w n0.blocks →
    s.1.terms = finalTerms w n0.terms → (∀ c ∈ cs, Fits n0 c) → ∃ s', cs.foldlM numberPower s = some s'
  | [], _, s, _, _, _ => ⟨s, rfl⟩
  | c :: cs, w, s, hb, ht, hf => by
    obtain ⟨n1, h1⟩ := write_fits (v := -1) hb ht (hf c (by simp))
    obtain ⟨a1, a2, -⟩ := write_final hb ht h1
    obtain ⟨p, hp⟩ := powerPin_fits a1 a2 (hf c (by simp))
    obtain ⟨s', hs'⟩ := power_fits cs (s := (n1, s.2 ++ [p])) a1 a2 fun y hy => hf y (by simp [hy])
    refine ⟨s', ?_⟩
    have : numberPower s c = some (n1, s.2 ++ [p]) := by simp [numberPower, h1, hp]
    simp only [List.foldlM_cons, Option.bind_eq_bind, this, Option.bind_some, hs']

theorem powers_fits {n0 : Node} : ∀ (ps : List Power) {w : List (Conn × Int)} {n : Node}, n.blocks = finalBlocks w n0.blocks →
    n.terms = finalTerms w n0.terms → (∀ p ∈ ps, ∀ c ∈ p.connected, Fits n0 c) → ∃ r, numberPowers n ps = some r
  | [], _, n, _, _, _ => ⟨(n, []), rfl⟩
  | p :: ps, w, n, hb, ht, hf => by
    obtain ⟨s, hs⟩ := power_fits p.connected (s := (n, p.pins)) hb ht (hf p (by simp))
    obtain ⟨a1, a2, -⟩ := power_final (n0 := n0) p.connected (s := (n, p.pins)) hb ht hs
    obtain ⟨r, hr⟩ := powers_fits ps a1 a2 fun y hy => hf y (by simp [hy])
    exact ⟨(r.1, { p with pins := s.2 } :: r.2), by simp [numberPowers, hs, hr]⟩

theorem number_fits {n : Node} (h : ∀ x ∈ writes n, Fits n x.1) : ∃ r, number n = some r := by
  obtain ⟨n1, h1⟩ := writes_fits (n0 := n) (n.nets.zipIdx.flatMap fun (x : Net × Nat) => x.1.connected.map fun c => (c, (x.2 : Int)))
    (n := n) finalBlocks_nil.symm finalTerms_nil.symm fun x hx => h x (List.mem_append_left _ hx)
  obtain ⟨a1, a2, -, a4, -⟩ := writes_final (n0 := n) _ finalBlocks_nil.symm finalTerms_nil.symm h1
  obtain ⟨r, hr⟩ := powers_fits (n0 := n) n1.powers a1 a2 (by
    rw [a4]
    intro p hp c hc
    exact h (c, -1) (mem_writes.2 (Or.inr ⟨rfl, p, hp, hc⟩)))
  exact ⟨{ r.1 with powers := r.2 }, by simp only [number, numberNets, h1, Option.bind_eq_bind, Option.bind_some, hr]⟩

theorem symFold_fits : ∀ (ps : List (String × String)) {ns : List Net},
    (∀ p ∈ ps, p.1 ∈ ns.map (·.name) ∧ p.2 ∈ ns.map (·.name)) → ∃ ns', ps.foldlM symPair ns = some ns'
  | [], ns, _ => ⟨ns, rfl⟩
  | p :: ps, ns, h => by
    have hfind : ∀ a, a ∈ ns.map (·.name) → ∃ i, (ns.findIdx? fun t => t.name == a) = some i := by
      intro a ha
      rw [← Option.isSome_iff_exists, List.findIdx?_isSome, List.any_eq_true]
      simp only [List.mem_map] at ha
      obtain ⟨t, ht, rfl⟩ := ha
      exact ⟨t, ht, by simp⟩
    obtain ⟨i, hi⟩ := hfind _ (h p (by simp)).1
    obtain ⟨j, hj⟩ := hfind _ (h p (by simp)).2
    obtain ⟨ns1, h1⟩ : ∃ ns1, symPair ns p = some ns1 := by
      simp only [symPair, hi, hj, Option.bind_eq_bind, Option.bind_some]
      exact ⟨_, rfl⟩
    obtain ⟨ns2, h2⟩ := symFold_fits ps (ns := ns1) (by
      rw [sameNets_names (symPair_same h1)]
      exact fun q hq => h q (by simp [hq]))
    exact ⟨ns2, by simp only [List.foldlM_cons, Option.bind_eq_bind, h1, Option.bind_some, h2]⟩

/-- The module can be numbered, and the symmetric nets are there. -/
def Numbers (b : Node) : Prop := (∃ r, number b = some r) ∧ ∀ p ∈ b.snets, p.1 ∈ b.nets.map (·.name) ∧ p.2 ∈ b.nets.map (·.name)

theorem round_some {t0 t : List Node} {i : Nat} (h0 : ∀ b ∈ t0, Numbers b) (hlt : i < t.length)
    (hi : ∀ (k : Nat) (n : Node), t[k]? = some n → ∃ b, t0[k]? = some b ∧ Round i k b n) : ∃ t', round t i = some t' := by
  obtain ⟨b, hb, r, ns, -, h2, h3, h4, -, h5⟩ := hi i t[i] (List.getElem?_eq_getElem hlt)
  have := h2 (Nat.le_refl _)
  subst this
  obtain ⟨⟨r', hr'⟩, -⟩ := h0 r (List.mem_of_getElem? hb)
  have hnum : number t[i] = some (withNets r' ns) := by rw [h4, number_nets h3, hr', Option.map_some]
  have hsym : ∀ (b r : Node) (ns : List Net), b ∈ t0 → r.snets = b.snets → SameNets b.nets ns → ∃ y, symNode (withNets r ns) = some y := by
    intro b r ns hb hs hn
    obtain ⟨ns', hns'⟩ := symFold_fits b.snets (ns := ns) (by rw [sameNets_names hn]; exact (h0 b hb).2)
    refine ⟨{ withNets r ns with nets := ns' }, ?_⟩
    simp only [symNode]
    rw [show (withNets r ns).snets = b.snets from hs, show (withNets r ns).nets = ns from rfl, hns', Option.map_some]
  obtain ⟨t', ht'⟩ := mapM_some (f := symNode) (l := t.set i (withNets r' ns)) (by
    intro n hn
    obtain ⟨k, hk⟩ := List.mem_iff_getElem?.1 hn
    by_cases hik : i = k
    · subst hik
      rw [List.getElem?_set_self hlt, Option.some.injEq] at hk
      subst hk
      exact hsym r r' ns (List.mem_of_getElem? hb) (number_keeps hr').2 h3
    · rw [List.getElem?_set_ne hik] at hk
      obtain ⟨b, hb, r, ns, g1, g2, g3, rfl, -, -⟩ := hi k n hk
      refine hsym b r ns (List.mem_of_getElem? hb) ?_ g3
      by_cases hki : k < i
      · exact (number_keeps (g1 hki)).2
      · rw [g2 (by omega)])
  exact ⟨t', by simp only [round, List.getElem?_eq_getElem hlt, Option.bind_eq_bind, Option.bind_some, hnum, ht']⟩

theorem semantic2_some {t0 : List Node} (h0 : ∀ b ∈ t0, Numbers b) : ∃ t, semantic2 t0 = some t := by
  have key : ∀ (i : Nat), i ≤ t0.length → ∃ t, (List.range i).foldlM round t0 = some t ∧ t.length = t0.length ∧
      ∀ (k : Nat) (n : Node), t[k]? = some n → ∃ b, t0[k]? = some b ∧ Round i k b n := by
    intro i
    induction i with
    | zero =>
      intro _
      refine ⟨t0, rfl, rfl, ?_⟩
      intro k n hn
      exact ⟨n, hn, n, n.nets, fun hh => by omega, fun _ => rfl, sameNets_refl _, rfl, fun hh => by omega, fun _ _ h _ => h⟩
    | succ i ih =>
      intro hle
      obtain ⟨t1, h1, g1, g2⟩ := ih (by omega)
      obtain ⟨t2, h2⟩ := round_some h0 (by omega) g2
      obtain ⟨k1, k2⟩ := round_step g2 h2
      refine ⟨t2, ?_, k1.trans g1, k2⟩
      rw [List.range_succ, List.foldlM_append]
      simp [h1, h2]
  obtain ⟨t, ht, -⟩ := key t0.length (Nat.le_refl _)
  exact ⟨t, ht⟩

theorem instLoop_some : ∀ (xs : List VInst) (s : PnrNet.S) (k : Nat), (∀ x ∈ xs, ∃ a, PnrNet.master x = some a) →
    ∃ r, PnrNet.instLoop s k xs = some r
  | [], s, _, _ => ⟨(s, []), rfl⟩
  | x :: xs, s, k, h => by
    obtain ⟨a, ha⟩ := h x (by simp)
    obtain ⟨r, hr⟩ := instLoop_some xs (PnrNet.pinLoop k s 0 x.fa).1 (k + 1) fun y hy => h y (by simp [hy])
    exact ⟨(r.1, { master := a, name := x.name, pins := (PnrNet.pinLoop k s 0 x.fa).2 } :: r.2), by simp [PnrNet.instLoop, ha, hr]⟩

/-- What the templates of a netlist have to be: templates with layouts that have macros, or modules. -/
def Known (files : List (String × List String)) (lef : List (String × Macro)) (ms : List VMod) (a : String) : Prop :=
  (∃ fs, files.lookup a = some fs ∧ fs ≠ [] ∧ ∀ f ∈ fs, f.length < 2 ^ 31 ∧ ∃ s l, Names f s ∧ lef.lookup s = some l) ∨
  (files.lookup a = none ∧ IsModule ms a)

theorem merge_known {files : List (String × List String)} {lef : List (String × Macro)} {ms : List VMod} {x : VInst} {b : Block}
    (h : Prep ms x b) (hk : ∀ a, PnrNet.master x = some a → Known files lef ms a) : ∃ b', mergeBlock files lef b = some b' ∧ b'.insts ≠ [] := by
  obtain ⟨pb, c, -, h2, h3, rfl⟩ := h
  rcases hk _ h2 with ⟨fs, g1, g2, g3⟩ | ⟨g1, g2⟩
  · obtain ⟨v, hv, hvm⟩ : ∃ v, (prepared pb c).insts = [v] ∧ v.master = pb.master := ⟨_, rfl, rfl⟩
    obtain ⟨vs, hvs⟩ := mapM_some (f := mergeInst lef v) (l := fs) (by
      intro f hf
      obtain ⟨k1, s, l, k2, k3⟩ := g3 f hf
      simp only [mergeInst, C110_stem f s k2 k1, k3, Option.map_some]
      exact ⟨_, rfl⟩)
    refine ⟨{ prepared pb c with insts := vs, num := fs.length }, ?_, ?_⟩
    · unfold mergeBlock
      simp only [hv, List.head?_cons, List.getLast?_singleton, Option.bind_eq_bind, Option.bind_some, hvm, g1, hvs]
    · rintro rfl
      have := (mapM_rel hvs).length_eq
      simp only [List.length_nil, List.length_eq_zero_iff] at this
      exact g2 this
  · have hc : c ≠ -1 := by
      rcases h3 with ⟨-, h3⟩ | ⟨j, m, rfl, -⟩
      · exact absurd g2 h3
      · omega
    obtain ⟨v, hv, hvm, hvl⟩ : ∃ v, (prepared pb c).insts = [v] ∧ v.master = pb.master ∧ v.isLeaf = decide (c = -1) := ⟨_, rfl, rfl, rfl⟩
    refine ⟨prepared pb c, ?_, by simp [hv]⟩
    unfold mergeBlock
    simp [hv, hvm, g1, hvl, hc]

theorem semantic1_some : ∀ (gs : List Signal) (t : List Node), (∀ g ∈ gs, g.formal = "supply0" ∨ g.formal = "supply1") → ∃ t', semantic1 gs t = some t'
  | [], t, _ => ⟨t, rfl⟩
  | g :: gs, t, h => by
    obtain ⟨pw, hpw⟩ : ∃ pw, polarity g = some pw := by
      rcases h g (by simp) with e | e <;> simp [polarity, e]
    obtain ⟨t', ht'⟩ := semantic1_some gs (t.map (takeSupply g pw)) fun y hy => h y (by simp [hy])
    exact ⟨t', by simp only [semantic1, List.foldlM_cons, hpw, Option.map_some, Option.bind_eq_bind, Option.bind_some]; exact ht'⟩

/-- **C109** The database is built if modules and instances have names, templates have layouts with macros or are modules, signals are
`supply0` or `supply1` and symmetric nets have a pin and are no supplies. -/
theorem C109_loads (topcell : String) (sn : String → List (String × String)) (files : List (String × List String))
    (lef : List (String × Macro)) (gs : List Signal) (ms : List VMod) (hname : ∀ m ∈ ms, ∃ nm, PnrNet.modName m = some nm)
    (hmaster : ∀ m ∈ ms, ∀ x ∈ m.insts, ∃ a, PnrNet.master x = some a)
    (hknown : ∀ m ∈ ms, ∀ x ∈ m.insts, ∀ a, PnrNet.master x = some a → Known files lef ms a)
    (hg : ∀ g ∈ gs, g.formal = "supply0" ∨ g.formal = "supply1")
    (hs : ∀ m ∈ ms, ∀ nm, PnrNet.modName m = some nm → ∀ p ∈ sn nm, ∀ a, a = p.1 ∨ a = p.2 → (∃ i k, OnNet m i k a) ∧ ¬ Supply gs a) :
    ∃ t, load topcell sn files lef gs ms = some t := by
  obtain ⟨ns, h1⟩ := mapM_some (f := PnrNet.node) (l := ms) (by
    intro m hm
    obtain ⟨nm, hnm⟩ := hname m hm
    obtain ⟨r, hr⟩ := instLoop_some m.insts { map := [], nets := [], conns := [] } 0 (hmaster m hm)
    simp only [PnrNet.node, hnm, hr, Option.bind_some, Option.map_some]
    exact ⟨_, rfl⟩)
  have h1 : PnrNet.readJson ms = some ns := h1
  have hpre := pre_blocks (topcell := topcell) (sn := sn) h1
  have hmerge : ∀ n ∈ pre topcell (ns.map (fresh sn)), ∃ y, merge files lef n = some y := by
    intro n hn
    obtain ⟨q, hq⟩ := List.mem_iff_getElem?.1 hn
    obtain ⟨m, hm, hp⟩ := (PnrNet.forall₂_at hpre (k := q)).2 hq
    obtain ⟨bs, hbs⟩ := mapM_some (f := mergeBlock files lef) (l := n.blocks) (by
      intro b hb
      obtain ⟨k, hk⟩ := List.mem_iff_getElem?.1 hb
      obtain ⟨x, hx, hxb⟩ := (PnrNet.forall₂_at hp (k := k)).2 hk
      obtain ⟨b', hb', -⟩ := merge_known hxb (hknown m (List.mem_of_getElem? hm) x (List.mem_of_getElem? hx))
      exact ⟨b', hb'⟩)
    exact ⟨{ n with blocks := bs }, by simp only [merge, hbs, Option.map_some]⟩
  obtain ⟨t1, h2⟩ := mapM_some hmerge
  have h2' : semantic0 topcell files lef (ns.map (fresh sn)) = some t1 := h2
  have hne : List.Forall₂ (fun (m : VMod) (n : Node) => m ∈ ms → ∀ b ∈ n.blocks, b.insts ≠ []) ms t1 := by
    refine rel_comp ?_ hpre (mapM_rel h2)
    intro m n n' hp hn hm b hb
    simp only [merge, Option.map_eq_some_iff] at hn
    obtain ⟨bs, hbs, rfl⟩ := hn
    obtain ⟨k, hk⟩ := List.mem_iff_getElem?.1 (show b ∈ bs from hb)
    obtain ⟨b0, hb0, hmb⟩ := (PnrNet.forall₂_at (mapM_rel hbs) (k := k)).2 hk
    obtain ⟨x, hx, hxb⟩ := (PnrNet.forall₂_at hp (k := k)).2 hb0
    obtain ⟨b', hb', hh⟩ := merge_known hxb (hknown m hm x (List.mem_of_getElem? hx))
    rw [hmb, Option.some.injEq] at hb'
    rw [hb']
    exact hh
  obtain ⟨t2, h3⟩ := semantic1_some gs t1 hg
  have htaken := semantic1_taken (semantic0_ready h1 h2') gs h3
  have hblocks := semantic1_blocks gs h3
  obtain ⟨t, h4⟩ := semantic2_some (t0 := t2) (by
    intro b hb
    obtain ⟨q, hq⟩ := List.mem_iff_getElem?.1 hb
    obtain ⟨m, hm, n0, hr, hk⟩ := (PnrNet.forall₂_at htaken (k := q)).2 hq
    obtain ⟨n1, hn1, hbl⟩ := (PnrNet.forall₂_at hblocks (k := q)).2 hq
    obtain ⟨m', hm', hins⟩ := (PnrNet.forall₂_at hne (k := q)).2 hn1
    rw [hm, Option.some.injEq] at hm'
    subst hm'
    have hmm := List.mem_of_getElem? hm
    have hins := hins hmm
    rw [← hbl] at hins
    have hfit : ∀ c a, On m c a → Fits b c := by
      intro c a hc
      rcases hc with ⟨i, k, rfl, x, f, e1, e2⟩ | ⟨q, rfl, e1⟩
      · obtain ⟨b0, hb0, hp⟩ := (PnrNet.forall₂_at hr.pins (k := k)).1 e1
        rw [← hk.blocks] at hb0
        refine ⟨b0, hb0, hins b0 (List.mem_of_getElem? hb0), ?_⟩
        intro v hv
        have := congrArg List.length (hp v hv)
        simp only [List.length_map] at this
        rw [this]
        exact (List.getElem?_eq_some_iff.1 e2).1
      · have hl := hr.terms.length_eq
        show q < b.terms.length
        rw [hk.terms, ← hl]
        exact (List.getElem?_eq_some_iff.1 e1).1
    refine ⟨number_fits ?_, ?_⟩
    · rintro ⟨c, v⟩ hx
      rcases mem_writes.1 hx with ⟨j, t, g1, g2, -⟩ | ⟨-, p, hp, hc⟩
      · have ht := ((taken_net hk).1 (List.mem_of_getElem? g1)).1
        exact hfit c _ ((lists_on (hr.lists t ht).1).1 g2)
      · rcases (hk.powers p hp).2.2 with he | ⟨t, ht, -, he⟩
        · rw [he] at hc
          cases hc
        · rw [← he] at hc
          exact hfit c _ ((lists_on (hr.lists t ht).1).1 hc)
    · intro p hp
      obtain ⟨nm, hnm⟩ := hname m hmm
      rw [hk.snets, hr.snets nm hnm] at hp
      have key : ∀ a, a = p.1 ∨ a = p.2 → a ∈ b.nets.map (·.name) := by
        intro a ha
        obtain ⟨u1, u2⟩ := hs m hmm nm hnm p hp a ha
        obtain ⟨t, ht, rfl⟩ := List.mem_map.1 ((hr.nets a).2 u1)
        exact List.mem_map.2 ⟨t, (taken_net hk).2 ⟨ht, u2⟩, rfl⟩
      exact ⟨key _ (Or.inl rfl), key _ (Or.inr rfl)⟩)
  exact ⟨t, by simp only [load, h1, Option.bind_eq_bind, Option.bind_some, h2', h3, h4]⟩

/-! ## Concrete cases -/

/-- The hypotheses of `C110_stem` are met: a directory with a dot, with and without extension. -/
example : Names "./lib.d/RES_0.gds" "RES_0" ∧ Names "./lib.d/RES_0" "RES_0" :=
  ⟨⟨by decide +kernel, "./lib.d/", ".gds", by decide +kernel, Or.inr ⟨"./lib.d", by decide +kernel⟩,
      Or.inr ⟨"gds", by decide +kernel, by decide +kernel, by decide +kernel⟩⟩,
    ⟨by decide +kernel, "./lib.d/", "", by decide +kernel, Or.inr ⟨"./lib.d", by decide +kernel⟩, Or.inl ⟨rfl, by decide +kernel⟩⟩⟩

/-- The templates of the netlist of `Verif/Pnr/Load.lean` are known. -/
example : Known layouts macros netlist "RES" ∧ Known layouts macros netlist "SUB" := by
  constructor
  · refine Or.inl ⟨["./lib/RES_0.gds", "./lib/RES_1.gds"], by decide +kernel, by decide +kernel, ?_⟩
    intro f hf
    simp only [List.mem_cons, List.not_mem_nil, or_false] at hf
    rcases hf with rfl | rfl
    · exact ⟨by decide +kernel, "RES_0", _, ⟨by decide +kernel, "./lib/", ".gds", by decide +kernel, Or.inr ⟨"./lib", by decide +kernel⟩,
        Or.inr ⟨"gds", by decide +kernel, by decide +kernel, by decide +kernel⟩⟩, rfl⟩
    · exact ⟨by decide +kernel, "RES_1", _, ⟨by decide +kernel, "./lib/", ".gds", by decide +kernel, Or.inr ⟨"./lib", by decide +kernel⟩,
        Or.inr ⟨"gds", by decide +kernel, by decide +kernel, by decide +kernel⟩⟩, rfl⟩
  · exact Or.inr ⟨by decide +kernel, netlist[1], List.getElem_mem (by decide), by decide +kernel⟩

/-- The variants of instances with two layouts, and their shapes. -/
example : (load "TOP" pairs layouts macros supplies (netlist.drop 1)).map (fun t => t.flatMap fun n => n.blocks.flatMap fun b =>
    b.insts.map fun v => (v.gds, v.width)) = some [("./lib/RES_0.gds", 10), ("./lib/RES_1.gds", 20)] := by
  decide +kernel

example : (load "TOP" pairs layouts macros supplies (netlist.drop 1)).map (fun t => t.flatMap fun n => n.blocks.flatMap fun b =>
    b.insts.flatMap fun v => v.pins.map fun p => p.contacts.length) = some [0, 1, 0, 1] := by
  decide +kernel

/-- **C110** violated: an instance of a template that is neither a module nor in the map has no variant in the database; the database is
built all the same if none of its pins is on a supply, and `back()` of the empty vector is read if one is. -/
theorem C110_violated_unknown :
    ((load "TOP" pairs [] macros [] (netlist.drop 1)).map fun t => t.map fun n => n.blocks.map fun b => b.insts.length) = some [[0]] ∧
    load "TOP" pairs [] macros [⟨"global_power", "supply1", "A"⟩] (netlist.drop 1) = none := by
  decide +kernel

end Verif.Load

import Mathlib.Data.List.Basic
import Mathlib.Data.List.Nodup
import Mathlib.Data.List.Forall2
import Verif.Pnr.Names

/-!
# C85: routing bottom up

Model of `route_bottom_up` (`align/pnr/router.py`, 182-251), without the routing of a single variant itself.

Simplifications: the database is the list of its modules; a module has a name and, for each placement, its blocks with the
index of their module (none for a leaf) and the selected placement of it.  The routed nodes, which are appended to the list of
modules, are kept in a list of their own; the index of the node at position `q` is `q` plus the number of modules.  The two
loops (208-210) are one loop over all pairs of module and placement.  Dictionaries are association lists; `ord` is the order
in which a set is iterated over; `fuel` bounds the depth of the hierarchy.  A failed assertion or a missing entry is `none`.
`order` is the result of `TraverseHierTree` of the C++ library.
-/

namespace Verif.Route

/-- A block: the index of its module, if it is not a leaf, and the placement selected for it. -/
structure Blk where
  child : Option Nat
  sel : Nat
  deriving DecidableEq

structure Module where
  name : List Char
  variants : List (List Blk)
  deriving DecidableEq

/-- A routed node: module and placement it was made from, the nodes of its blocks, the nodes it is used in. -/
structure RN where
  src : Nat
  sel : Nat
  kids : List (Option Nat)
  parent : List Nat
  deriving DecidableEq

/-- The blocks of a placement of a module, `CheckoutHierNode`. -/
def blocks (T : List Module) (i s : Nat) : Option (List Blk) := (T[i]?).bind fun h => h.variants[s]?

/-- `placements_to_run` (184-185). -/
def placements (given : Option (List Nat)) (nroutings n : Nat) : List Nat :=
  match given with
  | some l => l
  | none => List.range (min nroutings n)

/-- A block in `aux` (193-196). -/
def visit (rec : Nat → Nat → Option (List (Nat × Nat))) (b : Blk) : Option (List (Nat × Nat)) :=
  match b.child with
  | none => some []
  | some c => rec c b.sel

/-- `aux` (190-196): the pairs of module and placement that are visited. -/
def collect (T : List Module) : Nat → Nat → Nat → Option (List (Nat × Nat))
  | 0, _, _ => none
  | fuel + 1, i, s => (blocks T i s).bind fun bs =>
    (bs.mapM (visit (collect T fuel))).map fun l => (i, s) :: l.flatten

/-- The pairs in the order of the two loops (208-210). -/
def jobs (ord : List Nat → List Nat) (order : List Nat) (seen : List (Nat × Nat)) : List (Nat × Nat) :=
  order.flatMap fun i => (ord (((seen.filter fun x => decide (x.1 = i)).map Prod.snd).eraseDups)).map fun j => (i, j)

/-- `DB.hierTree[blk.child].parent = list(set(DB.hierTree[blk.child].parent + [...]))` (245-248). -/
def addParent (base idx : Nat) (R : List RN) (k : Option Nat) : List RN :=
  match k with
  | none => R
  | some q => R.modify (q - base) fun r => { r with parent := if idx ∈ r.parent then r.parent else r.parent ++ [idx] }

/-- `results_name_map[result_name] = ...` (243). -/
def put (d : List (List Char × Nat)) (n : List Char) (k : Nat) : List (List Char × Nat) :=
  if (d.lookup n).isSome then d.map fun e => if e.1 = n then (n, k) else e else d ++ [(n, k)]

structure St where
  routed : List RN
  index : List ((Nat × Nat) × Nat)
  results : List (List Char × Nat)

/-- The node of a block (224-231). -/
def kid (index : List ((Nat × Nat) × Nat)) (b : Blk) : Option (Option Nat) :=
  match b.child with
  | none => some none
  | some c => (index.lookup (c, b.sel)).map some

/-- One round (211-249): the blocks get the nodes routed before; the new node is appended. -/
def step (T : List Module) (st : St) (x : Nat × Nat) : Option St :=
  (T[x.1]?).bind fun h => (h.variants[x.2]?).bind fun bs =>
    (bs.mapM (kid st.index)).map fun kids =>
      { routed := kids.foldl (addParent T.length (T.length + st.routed.length)) (st.routed ++ [⟨x.1, x.2, kids, []⟩])
        index := st.index ++ [(x, T.length + st.routed.length)]
        results := put st.results (Pnr.joinName h.name x.2) (T.length + st.routed.length) }

/-- `route_bottom_up` (182-251). -/
def bottomUp (ord : List Nat → List Nat) (T : List Module) (order : List Nat) (top : Nat) (given : Option (List Nat)) (nroutings fuel : Nat) :
    Option St :=
  if order.getLast? = some top then
    ((placements given nroutings ((T[top]?).map fun h => h.variants.length).iget).mapM (collect T fuel top)).bind fun l =>
      (jobs ord order l.flatten).foldlM (step T) ⟨[], [], []⟩
  else none

/-! ## Specification -/

/-- A placement of module `i` has a block of module `c`. -/
def Uses (T : List Module) (i c : Nat) : Prop :=
  ∃ (s : Nat) (h : Module) (bs : List Blk) (b : Blk), T[i]? = some h ∧ h.variants[s]? = some bs ∧ b ∈ bs ∧ b.child = some c

/-- What the database guarantees: modules have different names, every block refers to a placement that exists, and the order
lists all modules that are used, each once and after those it uses, with the top at the end. -/
structure Database (T : List Module) (order : List Nat) (top : Nat) : Prop where
  names : ∀ (i j : Nat) (h h' : Module), T[i]? = some h → T[j]? = some h' → h.name = h'.name → i = j
  placed : ∀ (i s : Nat) (h : Module) (bs : List Blk) (b : Blk) (c : Nat), T[i]? = some h → h.variants[s]? = some bs → b ∈ bs → b.child = some c →
    ∃ h' bs', T[c]? = some h' ∧ h'.variants[b.sel]? = some bs'
  last : order.getLast? = some top
  once : order.Nodup
  closed : ∀ i ∈ order, ∀ c, Uses T i c → c ∈ order
  childrenFirst : order.Pairwise fun i c => ¬ Uses T i c
  self : ∀ i, ¬ Uses T i i

/-- The placements that are part of the asked placements of the top. -/
inductive Needed (T : List Module) (top : Nat) (tops : List Nat) : Nat → Nat → Prop
  | top {s : Nat} : s ∈ tops → Needed T top tops top s
  | child {i s c : Nat} {h : Module} {bs : List Blk} {b : Blk} : Needed T top tops i s → T[i]? = some h → h.variants[s]? = some bs → b ∈ bs →
      b.child = some c → Needed T top tops c b.sel

/-- The nodes made by routing: one for each needed placement; every block points to the node of its module and placement, which
was routed before; the parents of a node are the nodes with such a block; each node is found under its own name. -/
structure Routed (T : List Module) (top : Nat) (tops : List Nat) (st : St) : Prop where
  needed : ∀ i s, Needed T top tops i s ↔ ∃ r ∈ st.routed, r.src = i ∧ r.sel = s
  once : (st.routed.map fun r => (r.src, r.sel)).Nodup
  kids : ∀ (p : Nat) (r : RN), st.routed[p]? = some r → ∃ h bs, T[r.src]? = some h ∧ h.variants[r.sel]? = some bs ∧
    List.Forall₂ (fun (b : Blk) (k : Option Nat) => (b.child = none ∧ k = none) ∨
      ∃ (c q : Nat) (r' : RN), b.child = some c ∧ k = some (T.length + q) ∧ q < p ∧ st.routed[q]? = some r' ∧ r'.src = c ∧ r'.sel = b.sel) bs r.kids
  parents : ∀ (q : Nat) (r : RN), st.routed[q]? = some r → ∀ x, x ∈ r.parent ↔
    ∃ (p : Nat) (r' : RN), x = T.length + p ∧ st.routed[p]? = some r' ∧ some (T.length + q) ∈ r'.kids
  results : ∀ (n : List Char) (x : Nat), st.results.lookup n = some x ↔
    ∃ (q : Nat) (r : RN) (h : Module), x = T.length + q ∧ st.routed[q]? = some r ∧ T[r.src]? = some h ∧ n = Pnr.joinName h.name r.sel

/-! ## Proofs -/

variable {T : List Module} {order : List Nat} {top : Nat} {tops : List Nat}

theorem blocks_some {i s : Nat} {bs : List Blk} : blocks T i s = some bs ↔ ∃ h, T[i]? = some h ∧ h.variants[s]? = some bs := by
  simp [blocks, Option.bind_eq_some_iff]

/-- Reached from a pair. -/
inductive Reach (T : List Module) : Nat × Nat → Nat × Nat → Prop
  | refl (x : Nat × Nat) : Reach T x x
  | child {x : Nat × Nat} {bs : List Blk} {b : Blk} {c : Nat} {y : Nat × Nat} : blocks T x.1 x.2 = some bs → b ∈ bs → b.child = some c →
      Reach T (c, b.sel) y → Reach T x y

theorem mapM_forall₂ {α β : Type} {f : α → Option β} : ∀ {l : List α} {r : List β}, l.mapM f = some r ↔ List.Forall₂ (fun a b => f a = some b) l r
  | [], r => by
    simp only [List.mapM_nil, Option.pure_def, Option.some.injEq]
    constructor
    · rintro rfl; exact .nil
    · intro h; cases h; rfl
  | a :: l, r => by
    simp only [List.mapM_cons, Option.pure_def, Option.bind_eq_bind, Option.bind_eq_some_iff, Option.some.injEq]
    constructor
    · rintro ⟨b, hb, l', hl, rfl⟩
      exact .cons hb (mapM_forall₂.1 hl)
    · intro h
      cases h with
      | cons h t => exact ⟨_, h, _, mapM_forall₂.2 t, rfl⟩

theorem forall₂_right {α β : Type} {R : α → β → Prop} : ∀ {l : List α} {r : List β}, List.Forall₂ R l r → ∀ b ∈ r, ∃ a ∈ l, R a b
  | _, _, .nil, b, hb => by simp at hb
  | _, _, .cons h t, b, hb => by
    rcases List.mem_cons.1 hb with rfl | hb
    · exact ⟨_, by simp, h⟩
    · obtain ⟨a, ha, hr⟩ := forall₂_right t b hb
      exact ⟨a, by simp [ha], hr⟩

theorem forall₂_left {α β : Type} {R : α → β → Prop} : ∀ {l : List α} {r : List β}, List.Forall₂ R l r → ∀ a ∈ l, ∃ b ∈ r, R a b
  | _, _, .nil, b, hb => by simp at hb
  | _, _, .cons h t, b, hb => by
    rcases List.mem_cons.1 hb with rfl | hb
    · exact ⟨_, by simp, h⟩
    · obtain ⟨a, ha, hr⟩ := forall₂_left t b hb
      exact ⟨a, by simp [ha], hr⟩

theorem collect_mem : ∀ (fuel : Nat) {i s : Nat} {l : List (Nat × Nat)}, collect T fuel i s = some l → ∀ y, y ∈ l ↔ Reach T (i, s) y
  | 0, i, s, l, h => by simp [collect] at h
  | fuel + 1, i, s, l, h => by
    simp only [collect, Option.bind_eq_some_iff, Option.map_eq_some_iff] at h
    obtain ⟨bs, hbs, ls, hls, rfl⟩ := h
    rw [mapM_forall₂] at hls
    intro y
    rw [List.mem_cons, List.mem_flatten]
    constructor
    · rintro (rfl | ⟨l', hl', hy⟩)
      · exact .refl _
      · obtain ⟨b, hb, he⟩ := forall₂_right hls l' hl'
        cases hc : b.child with
        | none => simp [visit, hc] at he; subst he; simp at hy
        | some c =>
          simp only [visit, hc] at he
          exact .child hbs hb hc ((collect_mem fuel he y).1 hy)
    · intro hr
      cases hr with
      | refl => exact Or.inl rfl
      | child h1 h2 h3 h4 =>
        rename_i bs' b c
        rw [hbs] at h1
        rw [← Option.some.inj h1] at h2
        obtain ⟨l', hl', he⟩ := forall₂_left hls b h2
        simp only [visit, h3] at he
        exact Or.inr ⟨l', hl', (collect_mem fuel he y).2 h4⟩

theorem collect_some (hd : Database T order top) : ∀ (l r : List Nat), order = l ++ r → ∀ (fuel : Nat), l.length < fuel → ∀ i s bs,
    i ∈ l → blocks T i s = some bs → (collect T fuel i s).isSome
  | l, r, ho, fuel, hf, i, s, bs, hi, hbs => by
    induction fuel generalizing l r i s bs with
    | zero => omega
    | succ fuel ih =>
      obtain ⟨l1, l2, rfl⟩ := List.append_of_mem hi
      obtain ⟨h, hh1, hh2⟩ := blocks_some.1 hbs
      have : ∃ ls, bs.mapM (visit (collect T fuel)) = some ls := by
        have key : ∀ b ∈ bs, ∃ l', visit (collect T fuel) b = some l' := by
          intro b hb
          cases hc : b.child with
          | none => exact ⟨[], by simp [visit, hc]⟩
          | some c =>
            obtain ⟨h', bs', g1, g2⟩ := hd.placed i s h bs b c hh1 hh2 hb hc
            have hu : Uses T i c := ⟨s, h, bs, b, hh1, hh2, hb, hc⟩
            have hco := hd.closed i (by rw [ho]; simp) c hu
            have hcl : c ∈ l1 := by
              rw [ho, List.append_assoc] at hco
              rcases List.mem_append.1 hco with h5 | h5
              · exact h5
              · exfalso
                have hp := hd.childrenFirst
                rw [ho, List.append_assoc] at hp
                have hp2 := (List.pairwise_append.1 hp).2.1
                rw [List.cons_append] at hp2 h5
                rcases List.mem_cons.1 h5 with rfl | h6
                · exact hd.self _ hu
                · exact (List.pairwise_cons.1 hp2).1 c h6 hu
            have := ih l1 (i :: l2 ++ r) (by rw [ho, List.append_assoc]) (by simp at hf; omega) c b.sel bs' hcl (blocks_some.2 ⟨h', g1, g2⟩)
            obtain ⟨l', hl'⟩ := Option.isSome_iff_exists.1 this
            exact ⟨l', by simp [visit, hc, hl']⟩
        clear hbs hh2
        induction bs with
        | nil => exact ⟨[], rfl⟩
        | cons b bs ihb =>
          obtain ⟨l', hl'⟩ := key b (by simp)
          obtain ⟨ls, hls⟩ := ihb (fun b hb => key b (by simp [hb]))
          exact ⟨l' :: ls, by
            rw [mapM_forall₂] at hls ⊢
            exact .cons hl' hls⟩
      obtain ⟨ls, hls⟩ := this
      simp [collect, hbs, hls]

theorem reach_needed {x y : Nat × Nat} (h : Reach T x y) (hx : Needed T top tops x.1 x.2) : Needed T top tops y.1 y.2 := by
  induction h with
  | refl => exact hx
  | child h1 h2 h3 _ ih =>
    obtain ⟨m, g1, g2⟩ := blocks_some.1 h1
    exact ih (.child hx g1 g2 h2 h3)

theorem reach_snoc {x y : Nat × Nat} (h : Reach T x y) {bs : List Blk} {b : Blk} {c : Nat} (h1 : blocks T y.1 y.2 = some bs) (h2 : b ∈ bs)
    (h3 : b.child = some c) : Reach T x (c, b.sel) := by
  induction h with
  | refl => exact .child h1 h2 h3 (.refl _)
  | child g1 g2 g3 _ ih => exact .child g1 g2 g3 (ih h1)

theorem needed_reach {i s : Nat} (h : Needed T top tops i s) : ∃ t ∈ tops, Reach T (top, t) (i, s) := by
  induction h with
  | top h => exact ⟨_, h, .refl _⟩
  | child _ h1 h2 h3 h4 ih =>
    obtain ⟨t, ht, hr⟩ := ih
    exact ⟨t, ht, reach_snoc hr (blocks_some.2 ⟨_, h1, h2⟩) h3 h4⟩

theorem needed_blocks (hd : Database T order top) (htop : ∀ t ∈ tops, ∃ bs, blocks T top t = some bs) {i s : Nat} (h : Needed T top tops i s) :
    i ∈ order ∧ ∃ bs, blocks T i s = some bs := by
  induction h with
  | top h => exact ⟨List.mem_of_getLast? hd.last, htop _ h⟩
  | child _ h1 h2 h3 h4 ih =>
    refine ⟨hd.closed _ ih.1 _ ⟨_, _, _, _, h1, h2, h3, h4⟩, ?_⟩
    obtain ⟨h', bs', g1, g2⟩ := hd.placed _ _ _ _ _ _ h1 h2 h3 h4
    exact ⟨bs', blocks_some.2 ⟨h', g1, g2⟩⟩

theorem nodup_eraseDups {α : Type} [DecidableEq α] : ∀ (n : Nat) (l : List α), l.length ≤ n → l.eraseDups.Nodup
  | 0, l, h => by
    have : l = [] := List.length_eq_zero_iff.1 (Nat.le_zero.1 h)
    subst this; simp
  | n + 1, [], _ => by simp
  | n + 1, a :: l, h => by
    rw [List.eraseDups_cons, List.nodup_cons]
    refine ⟨?_, nodup_eraseDups n _ ?_⟩
    · simp
    · have := List.length_filter_le (fun b => !b == a) l
      simp at h; omega

theorem mem_jobs {ord : List Nat → List Nat} (ho : ∀ l, (ord l).Perm l) {seen : List (Nat × Nat)} {x : Nat × Nat} :
    x ∈ jobs ord order seen ↔ x.1 ∈ order ∧ x ∈ seen := by
  simp only [jobs, List.mem_flatMap, List.mem_map, (ho _).mem_iff, List.mem_eraseDups, List.mem_filter, decide_eq_true_eq]
  constructor
  · rintro ⟨i, hi, j, ⟨y, ⟨hy, rfl⟩, rfl⟩, rfl⟩
    exact ⟨hi, hy⟩
  · rintro ⟨h1, h2⟩
    exact ⟨x.1, h1, x.2, ⟨x, ⟨h2, rfl⟩, rfl⟩, rfl⟩

theorem jobs_nodup {ord : List Nat → List Nat} (ho : ∀ l, (ord l).Perm l) {seen : List (Nat × Nat)} (hn : order.Nodup) :
    (jobs ord order seen).Nodup := by
  unfold jobs
  induction order with
  | nil => simp
  | cons i r ih =>
    rw [List.nodup_cons] at hn
    rw [List.flatMap_cons, List.nodup_append]
    refine ⟨?_, ih hn.2, ?_⟩
    · refine List.Nodup.map (fun a b h => (Prod.mk.inj h).2) ?_
      rw [(ho _).nodup_iff]
      exact nodup_eraseDups _ _ (Nat.le_refl _)
    · intro a ha b hb e
      subst e
      rcases List.mem_map.1 ha with ⟨j, _, rfl⟩
      rcases List.mem_flatMap.1 hb with ⟨i', hi', h'⟩
      rcases List.mem_map.1 h' with ⟨_, _, e⟩
      injection e with e1 _
      subst e1
      exact hn.1 hi'

theorem jobs_first {ord : List Nat → List Nat} {seen : List (Nat × Nat)} (hself : ∀ i, ¬ Uses T i i) (hp : order.Pairwise fun i c => ¬ Uses T i c) :
    (jobs ord order seen).Pairwise fun x y => ¬ Uses T x.1 y.1 := by
  unfold jobs
  induction order with
  | nil => simp
  | cons i r ih =>
    rw [List.pairwise_cons] at hp
    rw [List.flatMap_cons, List.pairwise_append]
    refine ⟨?_, ih hp.2, ?_⟩
    · rw [List.pairwise_map]
      exact List.pairwise_of_forall fun _ _ => hself i
    · intro a ha b hb
      rcases List.mem_map.1 ha with ⟨j, _, rfl⟩
      rcases List.mem_flatMap.1 hb with ⟨i', hi', h'⟩
      rcases List.mem_map.1 h' with ⟨_, _, rfl⟩
      exact hp.1 i' hi'

theorem addParent_get {base idx : Nat} : ∀ (ks : List (Option Nat)) (R : List RN), (∀ k, some k ∈ ks → base ≤ k) →
    (ks.foldl (addParent base idx) R).length = R.length ∧ ∀ (q : Nat) (r' : RN), (ks.foldl (addParent base idx) R)[q]? = some r' →
      ∃ r, R[q]? = some r ∧ r'.src = r.src ∧ r'.sel = r.sel ∧ r'.kids = r.kids ∧
        ∀ x, x ∈ r'.parent ↔ x ∈ r.parent ∨ (x = idx ∧ some (base + q) ∈ ks)
  | [], R, _ => ⟨rfl, fun q r' h => ⟨r', h, rfl, rfl, rfl, by simp⟩⟩
  | k :: ks, R, hk => by
    obtain ⟨h1, h2⟩ := addParent_get ks (addParent base idx R k) (fun k' h => hk k' (by simp [h]))
    have hlen : (addParent base idx R k).length = R.length := by cases k <;> simp [addParent]
    refine ⟨by rw [List.foldl_cons, h1, hlen], ?_⟩
    intro q r' hr'
    rw [List.foldl_cons] at hr'
    obtain ⟨r1, e1, e2, e3, e4, e5⟩ := h2 q r' hr'
    cases k with
    | none =>
      refine ⟨r1, e1, e2, e3, e4, fun x => ?_⟩
      rw [e5]; simp
    | some k =>
      simp only [addParent, List.getElem?_modify, Option.map_eq_map, Option.map_eq_some_iff] at e1
      obtain ⟨r, hr, he⟩ := e1
      have hbk := hk k (by simp)
      by_cases hq : k - base = q
      · rw [if_pos hq] at he
        have hkq : base + q = k := by omega
        subst he
        refine ⟨r, hr, e2, e3, e4, fun x => ?_⟩
        rw [e5]
        simp only [hkq, List.mem_cons, true_or, and_true]
        split_ifs with hm
        · constructor
          · rintro (h | h)
            · exact Or.inl h
            · exact Or.inr h.1
          · rintro (h | rfl)
            · exact Or.inl h
            · exact Or.inl hm
        · simp only [List.mem_append, List.mem_singleton]
          tauto
      · rw [if_neg hq] at he
        subst he
        have hkq : ¬ base + q = k := by omega
        refine ⟨r, hr, e2, e3, e4, fun x => ?_⟩
        rw [e5]
        simp [hkq]

/-- The state after the pairs `l`. -/
structure SInv (T : List Module) (l : List (Nat × Nat)) (st : St) : Prop where
  keys : st.routed.map (fun r => (r.src, r.sel)) = l
  index : ∀ x k, st.index.lookup x = some k ↔ ∃ q, k = T.length + q ∧ l[q]? = some x
  kids : ∀ (p : Nat) (r : RN), st.routed[p]? = some r → ∃ h bs, T[r.src]? = some h ∧ h.variants[r.sel]? = some bs ∧
    List.Forall₂ (fun (b : Blk) (k : Option Nat) => (b.child = none ∧ k = none) ∨
      ∃ (c q : Nat), b.child = some c ∧ k = some (T.length + q) ∧ q < p ∧ l[q]? = some (c, b.sel)) bs r.kids
  parents : ∀ (q : Nat) (r : RN), st.routed[q]? = some r → ∀ x, x ∈ r.parent ↔
    ∃ (p : Nat) (r' : RN), x = T.length + p ∧ st.routed[p]? = some r' ∧ some (T.length + q) ∈ r'.kids
  results : ∃ f : Nat × Nat → List Char, (∀ x ∈ l, ∃ h, T[x.1]? = some h ∧ f x = Pnr.joinName h.name x.2) ∧
    st.results = l.zipIdx.map fun e => (f e.1, T.length + e.2)

theorem lookup_snoc' {α : Type} [BEq α] [LawfulBEq α] [DecidableEq α] {l : List (α × Nat)} {a b : α} {k : Nat} :
    (l ++ [(a, k)]).lookup b = ((l.lookup b).or (if b = a then some k else none)) := by
  induction l with
  | nil =>
    by_cases h : b = a
    · simp [List.lookup, h]
    · have h' : (b == a) = false := by simp [h]
      simp [List.lookup, h, h']
  | cons e l ih =>
    by_cases h : b = e.1
    · simp [List.lookup, h]
    · have : (b == e.1) = false := by simp [h]
      simp only [List.cons_append, List.lookup, this, ih]

theorem step_inv (hd : Database T order top) {l : List (Nat × Nat)} {st : St} (hi : SInv T l st) {x : Nat × Nat} (hx : x ∉ l) {bs : List Blk}
    (hb : blocks T x.1 x.2 = some bs) (hkids : ∀ b ∈ bs, ∀ c, b.child = some c → (c, b.sel) ∈ l) :
    ∃ st', step T st x = some st' ∧ SInv T (l ++ [x]) st' := by
  obtain ⟨h, hh1, hh2⟩ := blocks_some.1 hb
  have hlen : st.routed.length = l.length := by rw [← hi.keys, List.length_map]
  have hm : ∃ kids, bs.mapM (kid st.index) = some kids := by
    clear hb hh2
    induction bs with
    | nil => exact ⟨[], rfl⟩
    | cons b bs ih =>
      obtain ⟨ks, hks⟩ := ih (fun b hb => hkids b (by simp [hb]))
      have : ∃ k, kid st.index b = some k := by
        cases hc : b.child with
        | none => exact ⟨none, by simp [kid, hc]⟩
        | some c =>
          obtain ⟨q, hq⟩ := List.mem_iff_getElem?.1 (hkids b (by simp) c hc)
          exact ⟨some (T.length + q), by simp [kid, hc, (hi.index (c, b.sel) (T.length + q)).2 ⟨q, rfl, hq⟩]⟩
      obtain ⟨k, hk⟩ := this
      exact ⟨k :: ks, by rw [mapM_forall₂] at hks ⊢; exact .cons hk hks⟩
  obtain ⟨kids, hkd⟩ := hm
  have hst : step T st x = some
      { routed := kids.foldl (addParent T.length (T.length + st.routed.length)) (st.routed ++ [⟨x.1, x.2, kids, []⟩])
        index := st.index ++ [(x, T.length + st.routed.length)]
        results := put st.results (Pnr.joinName h.name x.2) (T.length + st.routed.length) } := by
    simp only [step, hh1, hh2, Option.bind_some, hkd, Option.map_some]
  rw [mapM_forall₂] at hkd
  have hk2 : List.Forall₂ (fun (b : Blk) (k : Option Nat) => (b.child = none ∧ k = none) ∨
      ∃ (c q : Nat), b.child = some c ∧ k = some (T.length + q) ∧ q < l.length ∧ l[q]? = some (c, b.sel)) bs kids := by
    refine hkd.imp ?_
    intro b k hk
    cases hc : b.child with
    | none => simp [kid, hc] at hk; exact Or.inl ⟨rfl, hk.symm⟩
    | some c =>
      simp only [kid, hc, Option.map_eq_some_iff] at hk
      obtain ⟨k', hk', rfl⟩ := hk
      obtain ⟨q, rfl, hq⟩ := (hi.index _ _).1 hk'
      rcases List.getElem?_eq_some_iff.1 hq with ⟨hlt, _⟩
      exact Or.inr ⟨c, q, rfl, rfl, hlt, hq⟩
  have hge : ∀ k, some k ∈ kids → T.length ≤ k ∧ k < T.length + l.length := by
    intro k hk
    obtain ⟨b, _, h1 | ⟨c, q, _, h2, h3, _⟩⟩ := forall₂_right hk2 _ hk
    · simp at h1
    · rw [Option.some.inj h2]; omega
  obtain ⟨al, ag⟩ := addParent_get (idx := T.length + st.routed.length) kids (st.routed ++ [⟨x.1, x.2, kids, []⟩]) (fun k hk => (hge k hk).1)
  refine ⟨_, hst, ?_, ?_, ?_, ?_, ?_⟩
  · simp only
    rw [← hi.keys]
    apply List.ext_getElem?
    intro q
    simp only [List.getElem?_map]
    cases hq : (kids.foldl (addParent T.length (T.length + st.routed.length)) (st.routed ++ [⟨x.1, x.2, kids, []⟩]))[q]? with
    | none =>
      rw [List.getElem?_eq_none_iff, al] at hq
      symm
      simp at hq
      simp [hq]
    | some r' =>
      obtain ⟨r, hr, e1, e2, _, _⟩ := ag q r' hq
      have : (st.routed.map (fun r => (r.src, r.sel)) ++ [x]) = (st.routed ++ [(⟨x.1, x.2, kids, []⟩ : RN)]).map fun r => (r.src, r.sel) := by simp
      rw [this, List.getElem?_map, hr]
      simp [e1, e2]
  · intro y k
    simp only
    rw [lookup_snoc']
    by_cases hy : y = x
    · subst hy
      have : st.index.lookup y = none := by
        cases hh : st.index.lookup y with
        | none => rfl
        | some k' =>
          obtain ⟨q, _, hq⟩ := (hi.index y k').1 hh
          exact absurd (List.mem_of_getElem? hq) hx
      rw [this, if_pos rfl]
      simp only [Option.none_or, Option.some.injEq]
      constructor
      · rintro rfl
        exact ⟨st.routed.length, rfl, by rw [hlen]; simp⟩
      · rintro ⟨q, rfl, hq⟩
        by_cases hql : q < l.length
        · rw [List.getElem?_append_left hql] at hq
          exact absurd (List.mem_of_getElem? hq) hx
        · rcases List.getElem?_eq_some_iff.1 hq with ⟨h1, _⟩
          simp at h1
          omega
    · rw [if_neg hy, Option.or_none, hi.index]
      constructor
      · rintro ⟨q, rfl, hq⟩
        rcases List.getElem?_eq_some_iff.1 hq with ⟨h1, _⟩
        exact ⟨q, rfl, by rw [List.getElem?_append_left h1]; exact hq⟩
      · rintro ⟨q, rfl, hq⟩
        refine ⟨q, rfl, ?_⟩
        by_cases hql : q < l.length
        · rw [List.getElem?_append_left hql] at hq; exact hq
        · rw [List.getElem?_append_right (by omega)] at hq
          have := List.mem_of_getElem? hq
          simp [hy] at this
  · intro p r' hr'
    obtain ⟨r, hr, e1, e2, e3, _⟩ := ag p r' hr'
    rw [e1, e2, e3]
    by_cases hp : p < st.routed.length
    · rw [List.getElem?_append_left hp] at hr
      obtain ⟨h', bs', g1, g2, g3⟩ := hi.kids p r hr
      refine ⟨h', bs', g1, g2, g3.imp ?_⟩
      rintro b k (hbk | ⟨c, q, a1, a2, a3, a4⟩)
      · exact Or.inl hbk
      · refine Or.inr ⟨c, q, a1, a2, a3, ?_⟩
        rw [List.getElem?_append_left (by omega)]; exact a4
    · have hpe : p = st.routed.length := by
        rcases List.getElem?_eq_some_iff.1 hr with ⟨h1, _⟩
        simp at h1; omega
      subst hpe
      simp at hr
      subst hr
      refine ⟨h, bs, hh1, hh2, hk2.imp ?_⟩
      rintro b k (hbk | ⟨c, q, a1, a2, a3, a4⟩)
      · exact Or.inl hbk
      · refine Or.inr ⟨c, q, a1, a2, by omega, ?_⟩
        rw [List.getElem?_append_left a3]; exact a4
  · intro q r' hr' y
    obtain ⟨r, hr, _, _, _, e5⟩ := ag q r' hr'
    simp only
    rw [e5]
    have hback : ∀ (p : Nat) (z : RN), (st.routed ++ [⟨x.1, x.2, kids, []⟩])[p]? = some z → ∃ z',
        (kids.foldl (addParent T.length (T.length + st.routed.length)) (st.routed ++ [⟨x.1, x.2, kids, []⟩]))[p]? = some z' ∧ z'.kids = z.kids := by
      intro p z hz
      rcases List.getElem?_eq_some_iff.1 hz with ⟨h1, _⟩
      rw [← al] at h1
      obtain ⟨z0, hz0, _, _, e3, _⟩ := ag p _ (List.getElem?_eq_getElem h1)
      rw [hz] at hz0
      rw [← Option.some.inj hz0] at e3
      exact ⟨_, List.getElem?_eq_getElem h1, e3⟩
    constructor
    · rintro (hy | ⟨rfl, hy⟩)
      · by_cases hq : q < st.routed.length
        · rw [List.getElem?_append_left hq] at hr
          obtain ⟨p, z, rfl, hz, hzk⟩ := (hi.parents q r hr y).1 hy
          rcases List.getElem?_eq_some_iff.1 hz with ⟨hpl, _⟩
          obtain ⟨z', hz', e⟩ := hback p z (by rw [List.getElem?_append_left hpl]; exact hz)
          exact ⟨p, z', rfl, hz', by rw [e]; exact hzk⟩
        · have hqe : q = st.routed.length := by
            rcases List.getElem?_eq_some_iff.1 hr with ⟨h1, _⟩
            simp at h1; omega
          subst hqe
          simp at hr
          subst hr
          simp at hy
      · obtain ⟨z', hz', e⟩ := hback st.routed.length ⟨x.1, x.2, kids, []⟩ (by simp)
        exact ⟨st.routed.length, z', rfl, hz', by rw [e]; exact hy⟩
    · rintro ⟨p, z', rfl, hz', hzk⟩
      obtain ⟨z, hz, _, _, e3, _⟩ := ag p z' hz'
      rw [e3] at hzk
      by_cases hp : p < st.routed.length
      · rw [List.getElem?_append_left hp] at hz
        left
        have hq : q < st.routed.length := by
          obtain ⟨_, _, _, _, g3⟩ := hi.kids p z hz
          obtain ⟨b, _, h1 | ⟨c, q', _, h2, h3, _⟩⟩ := forall₂_right g3 _ hzk
          · simp at h1
          · have := Option.some.inj h2; omega
        rw [List.getElem?_append_left hq] at hr
        exact (hi.parents q r hr _).2 ⟨p, z, rfl, hz, hzk⟩
      · have hpe : p = st.routed.length := by
          rcases List.getElem?_eq_some_iff.1 hz with ⟨h1, _⟩
          simp at h1; omega
        subst hpe
        simp at hz
        subst hz
        exact Or.inr ⟨rfl, hzk⟩
  · obtain ⟨f, hf1, hf2⟩ := hi.results
    refine ⟨fun y => if y = x then Pnr.joinName h.name x.2 else f y, ?_, ?_⟩
    · intro y hy
      by_cases hyx : y = x
      · subst hyx; exact ⟨h, hh1, by simp⟩
      · have : y ∈ l := by simpa [hyx] using hy
        obtain ⟨h', g1, g2⟩ := hf1 y this
        exact ⟨h', g1, by simp [hyx, g2]⟩
    · have hno : st.results.lookup (Pnr.joinName h.name x.2) = none := by
        rw [List.lookup_eq_none_iff, hf2]
        intro e he
        obtain ⟨⟨y, q⟩, hy, rfl⟩ := List.mem_map.1 he
        have hyl : y ∈ l := by
          rcases List.mem_zipIdx hy with ⟨_, _, e⟩
          rw [e]; exact List.getElem_mem _
        obtain ⟨h', g1, g2⟩ := hf1 y hyl
        simp only [g2, bne_iff_ne, beq_eq_false_iff_ne, ne_eq]
        intro e
        obtain ⟨e1, e2⟩ := Pnr.joinName_inj e
        have : x = y := Prod.ext (hd.names _ _ _ _ hh1 g1 e1) e2
        rw [this] at hx
        exact hx hyl
      simp only [put, hno, Option.isSome_none, Bool.false_eq_true, if_false]
      rw [hf2, List.zipIdx_append, List.map_append]
      congr 1
      · apply List.map_congr_left
        rintro ⟨y, q⟩ hy
        have : y ∈ l := by
          rcases List.mem_zipIdx hy with ⟨_, _, e⟩
          rw [e]; exact List.getElem_mem _
        have hne : y ≠ x := by rintro rfl; exact hx this
        simp [hne]
      · simp [hlen]

theorem foldlM_inv (hd : Database T order top) : ∀ (r l : List (Nat × Nat)) (st : St), SInv T l st → (l ++ r).Nodup →
    (∀ x ∈ l ++ r, ∃ bs, blocks T x.1 x.2 = some bs ∧ ∀ b ∈ bs, ∀ c, b.child = some c → (c, b.sel) ∈ l ++ r) →
    (l ++ r).Pairwise (fun x y => ¬ Uses T x.1 y.1) → ∃ st', r.foldlM (step T) st = some st' ∧ SInv T (l ++ r) st'
  | [], l, st, hi, _, _, _ => ⟨st, rfl, by simpa using hi⟩
  | x :: r, l, st, hi, hn, hb, hp => by
    obtain ⟨bs, hbs, hk⟩ := hb x (by simp)
    obtain ⟨m, hm1, hm2⟩ := blocks_some.1 hbs
    have hnx : x ∉ l := by
      rw [List.nodup_append] at hn
      intro h
      exact hn.2.2 x h x (by simp) rfl
    have hkl : ∀ b ∈ bs, ∀ c, b.child = some c → (c, b.sel) ∈ l := by
      intro b hb' c hc
      have hu : Uses T x.1 c := ⟨x.2, m, bs, b, hm1, hm2, hb', hc⟩
      rcases List.mem_append.1 (hk b hb' c hc) with h1 | h1
      · exact h1
      · exfalso
        rcases List.mem_cons.1 h1 with h2 | h2
        · have : c = x.1 := by rw [← h2]
          rw [this] at hu
          exact hd.self _ hu
        · exact (List.pairwise_cons.1 (List.pairwise_append.1 hp).2.1).1 _ h2 hu
    obtain ⟨st1, h1, h2⟩ := step_inv hd hi hnx hbs hkl
    obtain ⟨st', h3, h4⟩ := foldlM_inv hd r (l ++ [x]) st1 h2 (by simpa using hn) (by simpa using hb) (by simpa using hp)
    exact ⟨st', by simp [h1, h3], by simpa using h4⟩

theorem lookup_zip {α : Type} [BEq α] [LawfulBEq α] [DecidableEq α] {β : Type} (f : β → α) : ∀ {l : List β} {k : Nat} (_ : (l.map f).Nodup) {n : α} {base x : Nat},
    ((l.zipIdx k).map fun e => (f e.1, base + e.2)).lookup n = some x ↔ ∃ q y, l[q]? = some y ∧ f y = n ∧ x = base + (k + q)
  | [], k, _, n, base, x => by simp
  | b :: l, k, hn, n, base, x => by
    rw [List.map_cons, List.nodup_cons] at hn
    rw [List.zipIdx_cons, List.map_cons]
    by_cases hb : n = f b
    · subst hb
      simp only [List.lookup, beq_self_eq_true, Option.some.injEq]
      constructor
      · rintro rfl; exact ⟨0, b, rfl, rfl, by omega⟩
      · rintro ⟨q, y, h1, h2, rfl⟩
        cases q with
        | zero => omega
        | succ q =>
          exfalso
          have : y ∈ l := List.mem_of_getElem? (by simpa using h1)
          exact hn.1 (List.mem_map.2 ⟨y, this, h2⟩)
    · have hb' : (n == f b) = false := by simp [hb]
      simp only [List.lookup, hb']
      rw [lookup_zip f hn.2]
      constructor
      · rintro ⟨q, y, h1, h2, rfl⟩
        exact ⟨q + 1, y, by simpa using h1, h2, by omega⟩
      · rintro ⟨q, y, h1, h2, rfl⟩
        cases q with
        | zero => simp at h1; subst h1; exact absurd h2.symm hb
        | succ q => exact ⟨q, y, by simpa using h1, h2, by omega⟩

/-- **C85**: routing bottom up succeeds and makes exactly the nodes that are needed. -/
theorem C85_bottom_up (ord : List Nat → List Nat) (ho : ∀ l, (ord l).Perm l) (hd : Database T order top) {M : Module} (hM : T[top]? = some M)
    (given : Option (List Nat)) (nroutings : Nat) (hg : ∀ l, given = some l → ∀ s ∈ l, s < M.variants.length) :
    ∃ st, bottomUp ord T order top given nroutings (order.length + 1) = some st ∧
      Routed T top (given.getD (List.range (min nroutings M.variants.length))) st := by
  have hpl : placements given nroutings ((T[top]?).map fun h => h.variants.length).iget =
      given.getD (List.range (min nroutings M.variants.length)) := by
    rw [hM]; cases given <;> rfl
  generalize htops : given.getD (List.range (min nroutings M.variants.length)) = tops at hpl
  have htop : ∀ t ∈ tops, ∃ bs, blocks T top t = some bs := by
    intro t ht
    have : t < M.variants.length := by
      cases given with
      | none => rw [← htops] at ht; simp at ht; omega
      | some l => rw [← htops] at ht; exact hg l rfl t ht
    exact ⟨M.variants[t], blocks_some.2 ⟨M, hM, List.getElem?_eq_getElem this⟩⟩
  have hmo : top ∈ order := List.mem_of_getLast? hd.last
  have hcol : ∃ ls, tops.mapM (collect T (order.length + 1) top) = some ls := by
    have : ∀ t ∈ tops, ∃ l, collect T (order.length + 1) top t = some l := by
      intro t ht
      obtain ⟨bs, hbs⟩ := htop t ht
      exact Option.isSome_iff_exists.1 (collect_some hd order [] (by simp) _ (Nat.lt_succ_self _) top t bs hmo hbs)
    clear htops hpl htop
    induction tops with
    | nil => exact ⟨[], rfl⟩
    | cons t ts ih =>
      obtain ⟨l, hl⟩ := this t (by simp)
      obtain ⟨ls, hls⟩ := ih (fun t ht => this t (by simp [ht]))
      exact ⟨l :: ls, by rw [mapM_forall₂] at hls ⊢; exact .cons hl hls⟩
  obtain ⟨ls, hls⟩ := hcol
  have hmem : ∀ x, x ∈ ls.flatten ↔ Needed T top tops x.1 x.2 := by
    intro x
    have hls' := mapM_forall₂.1 hls
    rw [List.mem_flatten]
    constructor
    · rintro ⟨l, hl, hx⟩
      obtain ⟨t, ht, he⟩ := forall₂_right hls' l hl
      exact reach_needed ((collect_mem _ he x).1 hx) (.top ht)
    · intro hx
      obtain ⟨t, ht, hr⟩ := needed_reach hx
      obtain ⟨l, hl, he⟩ := forall₂_left hls' t ht
      exact ⟨l, hl, (collect_mem _ he x).2 hr⟩
  have hj : ∀ x, x ∈ jobs ord order ls.flatten ↔ Needed T top tops x.1 x.2 := by
    intro x
    rw [mem_jobs ho, hmem]
    exact ⟨fun h => h.2, fun h => ⟨(needed_blocks hd htop h).1, h⟩⟩
  have hinit : SInv T [] ⟨[], [], []⟩ := ⟨rfl, by simp, by simp, by simp, ⟨fun _ => [], by simp, rfl⟩⟩
  obtain ⟨st, hs, hi⟩ := foldlM_inv hd (jobs ord order ls.flatten) [] ⟨[], [], []⟩ hinit (by simpa using jobs_nodup ho hd.once) (by
    intro x hx
    rw [List.nil_append] at hx ⊢
    have hx' := (hj x).1 hx
    obtain ⟨_, bs, hbs⟩ := needed_blocks hd htop hx'
    obtain ⟨h, h1, h2⟩ := blocks_some.1 hbs
    exact ⟨bs, hbs, fun b hb c hc => (hj (c, b.sel)).2 (.child hx' h1 h2 hb hc)⟩) (by simpa using jobs_first hd.self hd.childrenFirst)
  rw [List.nil_append] at hi
  refine ⟨st, ?_, ?_, ?_, ?_, hi.parents, ?_⟩
  · unfold bottomUp
    rw [if_pos hd.last, hpl, hls]
    exact hs
  · intro i s
    rw [← hj (i, s), ← hi.keys, List.mem_map]
    constructor
    · rintro ⟨r, hr, e⟩; injection e with e1 e2; exact ⟨r, hr, e1, e2⟩
    · rintro ⟨r, hr, rfl, rfl⟩; exact ⟨r, hr, rfl⟩
  · rw [hi.keys]; exact jobs_nodup ho hd.once
  · intro p r hr
    obtain ⟨h, bs, h1, h2, h3⟩ := hi.kids p r hr
    refine ⟨h, bs, h1, h2, h3.imp ?_⟩
    rintro b k (hbk | ⟨c, q, a1, a2, a3, a4⟩)
    · exact Or.inl hbk
    · rw [← hi.keys, List.getElem?_map, Option.map_eq_some_iff] at a4
      obtain ⟨r', hr', e⟩ := a4
      injection e with e1 e2
      exact Or.inr ⟨c, q, r', a1, a2, a3, hr', e1, e2⟩
  · obtain ⟨f, hf1, hf2⟩ := hi.results
    have hnd : ((jobs ord order ls.flatten).map f).Nodup := by
      refine List.Nodup.map_on ?_ (jobs_nodup ho hd.once)
      intro x hx y hy e
      obtain ⟨h, g1, g2⟩ := hf1 x hx
      obtain ⟨h', g1', g2'⟩ := hf1 y hy
      rw [g2, g2'] at e
      obtain ⟨e1, e2⟩ := Pnr.joinName_inj e
      exact Prod.ext (hd.names _ _ _ _ g1 g1' e1) e2
    intro n x
    rw [hf2, lookup_zip f hnd]
    constructor
    · rintro ⟨q, y, h1, rfl, rfl⟩
      obtain ⟨h, g1, g2⟩ := hf1 y (List.mem_of_getElem? h1)
      rw [← hi.keys, List.getElem?_map, Option.map_eq_some_iff] at h1
      obtain ⟨r, hr, rfl⟩ := h1
      exact ⟨q, r, h, by omega, hr, g1, g2⟩
    · rintro ⟨q, r, h, rfl, hr, hh, rfl⟩
      have hq : (jobs ord order ls.flatten)[q]? = some (r.src, r.sel) := by rw [← hi.keys]; simp [hr]
      obtain ⟨h', g1, g2⟩ := hf1 _ (List.mem_of_getElem? hq)
      rw [hh] at g1
      rw [← Option.some.inj g1] at g2
      exact ⟨q, (r.src, r.sel), hq, g2, by omega⟩

/-- Two placements of `A` in two placements of the top. -/
def twice : List Module :=
  [⟨['A'], [[⟨none, 0⟩], [⟨none, 1⟩]]⟩, ⟨['T'], [[⟨some 0, 1⟩, ⟨some 0, 0⟩, ⟨none, 0⟩], [⟨some 0, 1⟩, ⟨some 0, 1⟩]]⟩]

example : Database twice [0, 1] 1 := by
  have hu : ∀ i c, Uses twice i c → i = 1 ∧ c = 0 := by
    rintro i c ⟨s, h, bs, b, h1, h2, h3, h4⟩
    have hi : i = 0 ∨ i = 1 := by
      rcases List.getElem?_eq_some_iff.1 h1 with ⟨hl, _⟩
      simp [twice] at hl; omega
    rcases hi with rfl | rfl
    · exfalso
      simp [twice] at h1
      subst h1
      have := List.mem_of_getElem? h2
      simp at this
      rcases this with rfl | rfl <;> simp at h3 <;> subst h3 <;> simp at h4
    · refine ⟨rfl, ?_⟩
      simp [twice] at h1
      subst h1
      have := List.mem_of_getElem? h2
      simp at this
      rcases this with rfl | rfl <;> simp at h3
      · rcases h3 with rfl | rfl | rfl <;> simp at h4 <;> exact h4.symm
      · subst h3; simp at h4; exact h4.symm
  refine ⟨?_, ?_, by decide, by decide, ?_, ?_, ?_⟩
  · intro i j h h' h1 h2 e
    have hl : ∀ {i : Nat} {h : Module}, twice[i]? = some h → (i = 0 ∧ h.name = ['A']) ∨ (i = 1 ∧ h.name = ['T']) := by
      intro i h hh
      rcases List.getElem?_eq_some_iff.1 hh with ⟨hl, _⟩
      have hi : i = 0 ∨ i = 1 := by simp [twice] at hl; omega
      rcases hi with rfl | rfl <;> simp [twice] at hh <;> subst hh <;> simp
    rcases hl h1 with ⟨rfl, e1⟩ | ⟨rfl, e1⟩ <;> rcases hl h2 with ⟨rfl, e2⟩ | ⟨rfl, e2⟩ <;> simp_all
  · intro i s h bs b c h1 h2 h3 h4
    obtain ⟨rfl, rfl⟩ := hu i c ⟨s, h, bs, b, h1, h2, h3, h4⟩
    simp [twice] at h1
    subst h1
    have := List.mem_of_getElem? h2
    simp at this
    rcases this with rfl | rfl <;> simp at h3
    · rcases h3 with rfl | rfl | rfl <;> simp [twice] at h4 ⊢
    · subst h3; simp [twice] at h4 ⊢
  · intro i _ c h
    obtain ⟨rfl, rfl⟩ := hu i c h
    simp
  · simp only [List.pairwise_cons, List.mem_singleton, forall_eq, List.not_mem_nil, false_imp_iff, implies_true, List.Pairwise.nil, and_true]
    intro h
    have := (hu _ _ h).1
    omega
  · intro i h
    have := hu _ _ h
    omega

example : (bottomUp (fun l => l) twice [0, 1] 1 none 1 3).map (fun st => (st.routed, st.results)) = some (
    [⟨0, 1, [none], [4]⟩, ⟨0, 0, [none], [4]⟩, ⟨1, 0, [some 2, some 3, none], []⟩],
    [(['A', '_', '1'], 2), (['A', '_', '0'], 3), (['T', '_', '0'], 4)]) := by
  decide +kernel

end Verif.Route

import Mathlib.Logic.Function.Basic
import Verif.Pnr.Route

/-!
# C86: routing top down

Model of `route_top_down` and `route_top_down_aux` (`align/pnr/router.py`, 257-328) and of the names given by
`route_single_variant` (149-168), without the routing itself.

Simplifications: as for C85; boxes, orientations and the path of the instance, which are passed on, are left out; the number of
copies of each module is a function; the top is the module with index `top`; a new node starts without parents (the code copies the
parents of the module, which are replaced as soon as the node of the parent is made; the top has none).
-/

namespace Verif.Route

/-- A routed node: module and placement, number of the copy, placement of the top, the nodes of its blocks, its parents. -/
structure TN where
  src : Nat
  sel : Nat
  copy : Nat
  lidx : Nat
  kids : List (Option Nat)
  parent : List Nat
  deriving DecidableEq

structure TSt where
  ncopy : Nat → Nat
  routed : List TN
  results : List (List Char × Nat)

/-- The name of the result (151, 159): the top has no number of the copy. -/
def resName (top i : Nat) (name : List Char) (copy lidx : Nat) : List Char :=
  if i = top then Pnr.joinName name lidx else Pnr.joinName (Pnr.joinName name copy) lidx

/-- `DB.hierTree[blk.child].parent = [ new_currentnode_idx ]` (300-303). -/
def setParent (base idx : Nat) (R : List TN) (k : Option Nat) : List TN :=
  match k with
  | none => R
  | some q => R.modify (q - base) fun r => { r with parent := [idx] }

/-- The loop over the blocks (271-280). -/
def kidsLoop (rec : TSt → Nat → Nat → Option (TSt × Nat)) : TSt → List Blk → Option (TSt × List (Option Nat))
  | st, [] => some (st, [])
  | st, b :: r =>
    match b.child with
    | none => (kidsLoop rec st r).map fun q => (q.1, none :: q.2)
    | some c => (rec st c b.sel).bind fun x => (kidsLoop rec x.1 r).map fun q => (q.1, some x.2 :: q.2)

/-- The end of `route_top_down_aux` (282-307): the new node, its name and the parents of its blocks. -/
def finish (T : List Module) (top lidx i s copy : Nat) (name : List Char) (st : TSt) (kids : List (Option Nat)) : TSt × Nat :=
  ({ ncopy := st.ncopy
     routed := kids.foldl (setParent T.length (T.length + st.routed.length)) (st.routed ++ [⟨i, s, copy, lidx, kids, []⟩])
     results := put st.results (resName top i name copy lidx) (T.length + st.routed.length) }, T.length + st.routed.length)

/-- `route_top_down_aux` (257-307). -/
def down (T : List Module) (top lidx : Nat) : Nat → TSt → Nat → Nat → Option (TSt × Nat)
  | 0, _, _, _ => none
  | fuel + 1, st, i, s =>
    (T[i]?).bind fun h => (h.variants[s]?).bind fun bs =>
      (kidsLoop (down T top lidx fuel) { st with ncopy := Function.update st.ncopy i (st.ncopy i + 1) } bs).map fun q =>
        finish T top lidx i s (st.ncopy i) h.name q.1 q.2

/-- The loop over the placements (317-327); the nodes of the top. -/
def downAll (T : List Module) (top fuel : Nat) : TSt → List Nat → Option (TSt × List Nat)
  | st, [] => some (st, [])
  | st, t :: r => (down T top t fuel st top t).bind fun x => (downAll T top fuel x.1 r).map fun q => (q.1, x.2 :: q.2)

/-- `route_top_down` (309-328). -/
def topDown (T : List Module) (top : Nat) (given : Option (List Nat)) (nroutings fuel : Nat) : Option (TSt × List Nat) :=
  downAll T top fuel ⟨fun _ => 0, [], []⟩ (placements given nroutings ((T[top]?).map fun h => h.variants.length).iget)

/-! ## Specification -/

/-- The name of a routed node. -/
def NameOf (T : List Module) (top : Nat) (r : TN) (n : List Char) : Prop :=
  ∃ h, T[r.src]? = some h ∧ ((r.src = top ∧ n = Pnr.joinName h.name r.lidx) ∨
    (r.src ≠ top ∧ n = Pnr.joinName (Pnr.joinName h.name r.copy) r.lidx))

/-- The routed nodes are a forest with one tree for each asked placement of the top: every block of a node points to a node of
the module and placement of the block, and every node is pointed to by one block only, that of its parent. -/
structure Forest (T : List Module) (top : Nat) (tops : List Nat) (R : List TN) (roots : List Nat) : Prop where
  kids : ∀ (p : Nat) (r : TN), R[p]? = some r → ∃ h bs, T[r.src]? = some h ∧ h.variants[r.sel]? = some bs ∧
    List.Forall₂ (fun (b : Blk) (k : Option Nat) => (b.child = none ∧ k = none) ∨
      ∃ (c q : Nat) (r' : TN), b.child = some c ∧ k = some (T.length + q) ∧ q < p ∧ R[q]? = some r' ∧ r'.src = c ∧ r'.sel = b.sel ∧
        r'.lidx = r.lidx) bs r.kids
  parent : ∀ (q : Nat) (r : TN), R[q]? = some r →
    (T.length + q ∈ roots ∧ r.parent = [] ∧ ∀ (p : Nat) (r' : TN), R[p]? = some r' → some (T.length + q) ∉ r'.kids) ∨
    (T.length + q ∉ roots ∧ ∃ (p : Nat) (r' : TN) (pos : Nat), R[p]? = some r' ∧ r.parent = [T.length + p] ∧
      r'.kids[pos]? = some (some (T.length + q)) ∧
      ∀ (p' : Nat) (r'' : TN) (pos' : Nat), R[p']? = some r'' → r''.kids[pos']? = some (some (T.length + q)) → p' = p ∧ pos' = pos)
  rootNodes : List.Forall₂ (fun t k => ∃ (q : Nat) (r : TN), k = T.length + q ∧ R[q]? = some r ∧ r.src = top ∧ r.sel = t ∧ r.lidx = t) tops roots
  rootsDistinct : roots.Nodup
  copies : (R.map fun r => (r.src, r.copy)).Nodup

/-- Each node is found under its own name. -/
def Named (T : List Module) (top : Nat) (st : TSt) : Prop :=
  ∀ (n : List Char) (x : Nat), st.results.lookup n = some x ↔ ∃ (q : Nat) (r : TN), x = T.length + q ∧ st.routed[q]? = some r ∧ NameOf T top r n

/-! ## Proofs -/

variable {T : List Module} {order : List Nat} {top : Nat}

theorem setParent_get {base idx : Nat} : ∀ (ks : List (Option Nat)) (R : List TN), (∀ k, some k ∈ ks → base ≤ k) →
    (ks.foldl (setParent base idx) R).length = R.length ∧ ∀ (q : Nat) (r' : TN), (ks.foldl (setParent base idx) R)[q]? = some r' →
      ∃ r, R[q]? = some r ∧ (some (base + q) ∈ ks → r' = { r with parent := [idx] }) ∧ (some (base + q) ∉ ks → r' = r)
  | [], R, _ => ⟨rfl, fun q r' h => ⟨r', h, by simp, fun _ => rfl⟩⟩
  | k :: ks, R, hk => by
    obtain ⟨h1, h2⟩ := setParent_get (idx := idx) ks (setParent base idx R k) (fun k' h => hk k' (by simp [h]))
    have hlen : (setParent base idx R k).length = R.length := by cases k <;> simp [setParent]
    refine ⟨by rw [List.foldl_cons, h1, hlen], ?_⟩
    intro q r' hr'
    rw [List.foldl_cons] at hr'
    obtain ⟨r1, e1, e2, e3⟩ := h2 q r' hr'
    cases k with
    | none => exact ⟨r1, e1, by simpa using e2, by simpa using e3⟩
    | some k =>
      simp only [setParent, List.getElem?_modify, Option.map_eq_map, Option.map_eq_some_iff] at e1
      obtain ⟨r, hr, he⟩ := e1
      have hbk := hk k (by simp)
      by_cases hq : k - base = q
      · rw [if_pos hq] at he
        have hkq : base + q = k := by omega
        subst he
        refine ⟨r, hr, fun _ => ?_, fun h => absurd (by simp [hkq]) h⟩
        by_cases hm : some (base + q) ∈ ks
        · exact e2 hm
        · exact e3 hm
      · rw [if_neg hq] at he
        subst he
        have hkq : ¬ base + q = k := by omega
        refine ⟨r, hr, fun h => e2 ?_, fun h => e3 ?_⟩
        · simpa [hkq] using h
        · simpa [hkq] using h

/-- The part of the list from `o` on is a forest with the roots `ks`. -/
structure Seg (T : List Module) (R : List TN) (o : Nat) (ks : List (Option Nat)) : Prop where
  node : ∀ (p : Nat) (r : TN), o ≤ p → R[p]? = some r → ∃ h bs, T[r.src]? = some h ∧ h.variants[r.sel]? = some bs ∧
    List.Forall₂ (fun (b : Blk) (k : Option Nat) => (b.child = none ∧ k = none) ∨
      ∃ (c q : Nat) (r' : TN), b.child = some c ∧ k = some (T.length + q) ∧ o ≤ q ∧ q < p ∧ R[q]? = some r' ∧ r'.src = c ∧ r'.sel = b.sel ∧
        r'.lidx = r.lidx) bs r.kids
  par : ∀ (q : Nat) (r : TN), o ≤ q → R[q]? = some r →
    (some (T.length + q) ∈ ks ∧ r.parent = [] ∧ ∀ (p : Nat) (r' : TN), o ≤ p → R[p]? = some r' → some (T.length + q) ∉ r'.kids) ∨
    (some (T.length + q) ∉ ks ∧ ∃ (p : Nat) (r' : TN) (pos : Nat), o ≤ p ∧ R[p]? = some r' ∧ r.parent = [T.length + p] ∧
      r'.kids[pos]? = some (some (T.length + q)) ∧
      ∀ (p' : Nat) (r'' : TN) (pos' : Nat), o ≤ p' → R[p']? = some r'' → r''.kids[pos']? = some (some (T.length + q)) → p' = p ∧ pos' = pos)
  roots : ∀ k, some k ∈ ks → ∃ q, k = T.length + q ∧ o ≤ q ∧ q < R.length
  distinct : ∀ (pos pos' k : Nat), ks[pos]? = some (some k) → ks[pos']? = some (some k) → pos = pos'

theorem Seg.kid {R : List TN} {o : Nat} {ks : List (Option Nat)} (h : Seg T R o ks) {p : Nat} {r : TN} (ho : o ≤ p) (hr : R[p]? = some r)
    {q : Nat} (hq : some (T.length + q) ∈ r.kids) : o ≤ q ∧ q < p := by
  obtain ⟨_, _, _, _, g⟩ := h.node p r ho hr
  obtain ⟨b, _, h1 | ⟨c, q', _, _, h2, h3, h4, _⟩⟩ := forall₂_right g _ hq
  · simp at h1
  · have := Option.some.inj h2
    omega

theorem get_lt {α : Type} {l : List α} {i : Nat} {a : α} (h : l[i]? = some a) : i < l.length := by
  rcases List.getElem?_eq_some_iff.1 h with ⟨h1, _⟩; exact h1

theorem Seg.append {R N : List TN} {o : Nat} {ks ks' : List (Option Nat)} (h : Seg T R o ks) (h' : Seg T (R ++ N) R.length ks') (ho : o ≤ R.length) :
    Seg T (R ++ N) o (ks ++ ks') := by
  have old : ∀ {p : Nat} {r : TN}, R[p]? = some r → (R ++ N)[p]? = some r := fun hr => by
    rw [List.getElem?_append_left (get_lt hr)]; exact hr
  have old' : ∀ {p : Nat} {r : TN}, p < R.length → (R ++ N)[p]? = some r → R[p]? = some r := fun hp hr => by
    rw [List.getElem?_append_left hp] at hr; exact hr
  refine ⟨?_, ?_, ?_, ?_⟩
  · intro p r hop hr
    by_cases hp : p < R.length
    · obtain ⟨m, bs, g1, g2, g3⟩ := h.node p r hop (old' hp hr)
      refine ⟨m, bs, g1, g2, g3.imp ?_⟩
      rintro b k (hbk | ⟨c, q, r', a1, a2, a3, a4, a5, a6⟩)
      · exact Or.inl hbk
      · exact Or.inr ⟨c, q, r', a1, a2, a3, a4, old a5, a6⟩
    · obtain ⟨m, bs, g1, g2, g3⟩ := h'.node p r (by omega) hr
      refine ⟨m, bs, g1, g2, g3.imp ?_⟩
      rintro b k (hbk | ⟨c, q, r', a1, a2, a3, a4, a5, a6⟩)
      · exact Or.inl hbk
      · exact Or.inr ⟨c, q, r', a1, a2, by omega, a4, a5, a6⟩
  · intro q r hoq hr
    by_cases hq : q < R.length
    · have hks' : some (T.length + q) ∉ ks' := by
        intro hm
        obtain ⟨q', e, h1, _⟩ := h'.roots _ hm
        omega
      have hnew : ∀ (p : Nat) (r' : TN), R.length ≤ p → (R ++ N)[p]? = some r' → some (T.length + q) ∉ r'.kids := by
        intro p r' hp hr' hm
        have := (h'.kid hp hr' hm).1
        omega
      rcases h.par q r hoq (old' hq hr) with ⟨b1, b2, b3⟩ | ⟨b1, p, r', pos, c1, c2, c3, c4, c5⟩
      · refine Or.inl ⟨by simp [b1], b2, ?_⟩
        intro p r' hop hr'
        by_cases hp : p < R.length
        · exact b3 p r' hop (old' hp hr')
        · exact hnew p r' (by omega) hr'
      · refine Or.inr ⟨by simp [b1, hks'], p, r', pos, c1, old c2, c3, c4, ?_⟩
        intro p' r'' pos' hop hr'' hk
        by_cases hp : p' < R.length
        · exact c5 p' r'' pos' hop (old' hp hr'') hk
        · exact absurd (List.mem_of_getElem? hk) (hnew p' r'' (by omega) hr'')
    · have hks : some (T.length + q) ∉ ks := by
        intro hm
        obtain ⟨q', e, _, h1⟩ := h.roots _ hm
        omega
      have hnew : ∀ (p : Nat) (r' : TN), o ≤ p → p < R.length → (R ++ N)[p]? = some r' → some (T.length + q) ∉ r'.kids := by
        intro p r' hop hp hr' hm
        have := (h.kid hop (old' hp hr') hm).2
        omega
      rcases h'.par q r (by omega) hr with ⟨b1, b2, b3⟩ | ⟨b1, p, r', pos, c1, c2, c3, c4, c5⟩
      · refine Or.inl ⟨by simp [b1], b2, ?_⟩
        intro p r' hop hr'
        by_cases hp : p < R.length
        · exact hnew p r' hop hp hr'
        · exact b3 p r' (by omega) hr'
      · refine Or.inr ⟨by simp [b1, hks], p, r', pos, by omega, c2, c3, c4, ?_⟩
        intro p' r'' pos' hop hr'' hk
        by_cases hp : p' < R.length
        · exact absurd (List.mem_of_getElem? hk) (hnew p' r'' hop hp hr'')
        · exact c5 p' r'' pos' (by omega) hr'' hk
  · intro k hk
    rcases List.mem_append.1 hk with hk | hk
    · obtain ⟨q, e, h1, h2⟩ := h.roots k hk
      exact ⟨q, e, h1, by simp; omega⟩
    · obtain ⟨q, e, h1, h2⟩ := h'.roots k hk
      exact ⟨q, e, by omega, h2⟩
  · have cross : ∀ {pos pos' k : Nat}, ks[pos]? = some (some k) → ks'[pos']? = some (some k) → False := by
      intro pos pos' k h1 h2
      obtain ⟨q, e, _, g1⟩ := h.roots k (List.mem_of_getElem? h1)
      obtain ⟨q', e', g2, _⟩ := h'.roots k (List.mem_of_getElem? h2)
      omega
    intro pos pos' k h1 h2
    by_cases hp : pos < ks.length <;> by_cases hp' : pos' < ks.length
    · rw [List.getElem?_append_left hp] at h1
      rw [List.getElem?_append_left hp'] at h2
      exact h.distinct _ _ _ h1 h2
    · rw [List.getElem?_append_left hp] at h1
      rw [List.getElem?_append_right (by omega)] at h2
      exact (cross h1 h2).elim
    · rw [List.getElem?_append_right (by omega)] at h1
      rw [List.getElem?_append_left hp'] at h2
      exact (cross h2 h1).elim
    · rw [List.getElem?_append_right (by omega)] at h1
      rw [List.getElem?_append_right (by omega)] at h2
      have := h'.distinct _ _ _ h1 h2
      omega

/-- The blocks have the right nodes. -/
def Match (T : List Module) (R : List TN) (o lidx : Nat) (bs : List Blk) (ks : List (Option Nat)) : Prop :=
  List.Forall₂ (fun (b : Blk) (k : Option Nat) => (b.child = none ∧ k = none) ∨
    ∃ (c q : Nat) (r' : TN), b.child = some c ∧ k = some (T.length + q) ∧ o ≤ q ∧ R[q]? = some r' ∧ r'.src = c ∧ r'.sel = b.sel ∧ r'.lidx = lidx) bs ks

theorem Seg.close {R : List TN} {o : Nat} {ks : List (Option Nat)} (h : Seg T R o ks) (ho : o ≤ R.length) {i s copy lidx : Nat} {m : Module}
    {bs : List Blk} (hm : T[i]? = some m) (hs : m.variants[s]? = some bs) (hk : Match T R o lidx bs ks) {R' : List TN}
    (hR : R' = ks.foldl (setParent T.length (T.length + R.length)) (R ++ [⟨i, s, copy, lidx, ks, []⟩])) :
    Seg T R' o [some (T.length + R.length)] ∧ R'[R.length]? = some ⟨i, s, copy, lidx, ks, []⟩ ∧ R'.length = R.length + 1 ∧
      (∀ q, q < o → R'[q]? = R[q]?) ∧ R'.map (fun r => (r.src, r.sel, r.copy, r.lidx)) =
        R.map (fun r => (r.src, r.sel, r.copy, r.lidx)) ++ [(i, s, copy, lidx)] := by
  obtain ⟨al, ag⟩ := setParent_get (base := T.length) (idx := T.length + R.length) ks (R ++ [⟨i, s, copy, lidx, ks, []⟩]) (by
    intro k hk'
    obtain ⟨q, e, _⟩ := h.roots k hk'
    omega)
  rw [← hR] at al ag
  have hlen : R'.length = R.length + 1 := by rw [al]; simp
  have hroot : some (T.length + R.length) ∉ ks := by
    intro hm
    obtain ⟨q, e, _, h1⟩ := h.roots _ hm
    omega
  have back : ∀ {q : Nat} {r : TN}, (R ++ [⟨i, s, copy, lidx, ks, []⟩])[q]? = some r → ∃ r', R'[q]? = some r' ∧
      (some (T.length + q) ∈ ks → r' = { r with parent := [T.length + R.length] }) ∧ (some (T.length + q) ∉ ks → r' = r) := by
    intro q r hr
    have hq : q < R'.length := by rw [al]; exact get_lt hr
    obtain ⟨r0, e0, e1, e2⟩ := ag q _ (List.getElem?_eq_getElem hq)
    rw [hr] at e0
    rw [← Option.some.inj e0] at e1 e2
    exact ⟨_, List.getElem?_eq_getElem hq, e1, e2⟩
  have fields : ∀ {q : Nat} {r r' : TN}, (some (T.length + q) ∈ ks → r' = { r with parent := [T.length + R.length] }) →
      (some (T.length + q) ∉ ks → r' = r) → r'.src = r.src ∧ r'.sel = r.sel ∧ r'.copy = r.copy ∧ r'.lidx = r.lidx ∧ r'.kids = r.kids := by
    intro q r r' h1 h2
    by_cases hm : some (T.length + q) ∈ ks
    · rw [h1 hm]; simp
    · rw [h2 hm]; simp
  have hlast : R'[R.length]? = some ⟨i, s, copy, lidx, ks, []⟩ := by
    obtain ⟨r', e1, _, e3⟩ := back (q := R.length) (r := ⟨i, s, copy, lidx, ks, []⟩) (by simp)
    rw [e1, e3 hroot]
  have oldR : ∀ {p : Nat} {r : TN}, R[p]? = some r → (R ++ [⟨i, s, copy, lidx, ks, []⟩])[p]? = some r := fun hr => by
    rw [List.getElem?_append_left (get_lt hr)]; exact hr
  have split : ∀ {p : Nat} {r' : TN}, R'[p]? = some r' → (p = R.length ∧ r' = ⟨i, s, copy, lidx, ks, []⟩) ∨
      (p < R.length ∧ ∃ r, R[p]? = some r ∧ (some (T.length + p) ∈ ks → r' = { r with parent := [T.length + R.length] }) ∧
        (some (T.length + p) ∉ ks → r' = r)) := by
    intro p r' hr'
    have hp := get_lt hr'
    by_cases hpl : p < R.length
    · right
      obtain ⟨r, e0, e1, e2⟩ := ag p r' hr'
      rw [List.getElem?_append_left hpl] at e0
      exact ⟨hpl, r, e0, e1, e2⟩
    · left
      have : p = R.length := by omega
      subst this
      rw [hlast] at hr'
      exact ⟨rfl, (Option.some.inj hr').symm⟩
  refine ⟨⟨?_, ?_, ?_, ?_⟩, hlast, hlen, ?_, ?_⟩
  · intro p r' hop hr'
    rcases split hr' with ⟨rfl, rfl⟩ | ⟨hpl, r, e0, e1, e2⟩
    · refine ⟨m, bs, hm, hs, List.Forall₂.imp ?_ hk⟩
      rintro b k (hbk | ⟨c, q, r', a1, a2, a3, a4, a5, a6, a7⟩)
      · exact Or.inl hbk
      · obtain ⟨r2, f1, f2, f3⟩ := back (oldR a4)
        obtain ⟨g1, g2, _, g4, _⟩ := fields f2 f3
        exact Or.inr ⟨c, q, r2, a1, a2, a3, get_lt a4, f1, by rw [g1, a5], by rw [g2, a6], by rw [g4, a7]⟩
    · obtain ⟨f1, f2, _, f4, f5⟩ := fields e1 e2
      obtain ⟨m', bs', g1, g2, g3⟩ := h.node p r hop e0
      refine ⟨m', bs', by rw [f1]; exact g1, by rw [f2]; exact g2, ?_⟩
      rw [f5]
      refine g3.imp ?_
      rintro b k (hbk | ⟨c, q, r2, a1, a2, a3, a4, a5, a6, a7, a8⟩)
      · exact Or.inl hbk
      · obtain ⟨r3, b1, b2, b3⟩ := back (oldR a5)
        obtain ⟨d1, d2, _, d4, _⟩ := fields b2 b3
        exact Or.inr ⟨c, q, r3, a1, a2, a3, a4, b1, by rw [d1, a6], by rw [d2, a7], by rw [d4, a8, f4]⟩
  · intro q r' hoq hr'
    rcases split hr' with ⟨rfl, rfl⟩ | ⟨hql, r, e0, e1, e2⟩
    · refine Or.inl ⟨by simp, rfl, ?_⟩
      intro p r2 hop hr2
      rcases split hr2 with ⟨rfl, rfl⟩ | ⟨hpl, r3, b0, b1, b2⟩
      · exact hroot
      · rw [(fields b1 b2).2.2.2.2]
        intro hmem
        have := (h.kid hop b0 hmem).2
        omega
    · right
      refine ⟨by simp; omega, ?_⟩
      rcases h.par q r hoq e0 with ⟨b1, b2, b3⟩ | ⟨b1, p, r2, pos, c1, c2, c3, c4, c5⟩
      · obtain ⟨pos, hpos⟩ := List.mem_iff_getElem?.1 b1
        refine ⟨R.length, _, pos, ho, hlast, by rw [e1 b1], hpos, ?_⟩
        intro p' r'' pos' hop hr'' hk''
        rcases split hr'' with ⟨rfl, rfl⟩ | ⟨hpl, r3, d0, d1, d2⟩
        · exact ⟨rfl, h.distinct _ _ _ hk'' hpos⟩
        · rw [(fields d1 d2).2.2.2.2] at hk''
          exact absurd (List.mem_of_getElem? hk'') (b3 p' r3 hop d0)
      · obtain ⟨r3, d1, d2, d3⟩ := back (oldR c2)
        refine ⟨p, r3, pos, c1, d1, by rw [e2 b1]; exact c3, by rw [(fields d2 d3).2.2.2.2]; exact c4, ?_⟩
        intro p' r'' pos' hop hr'' hk''
        rcases split hr'' with ⟨rfl, rfl⟩ | ⟨hpl, r4, g0, g1, g2⟩
        · exact absurd (List.mem_of_getElem? hk'') b1
        · rw [(fields g1 g2).2.2.2.2] at hk''
          exact c5 p' r4 pos' hop g0 hk''
  · intro k hk'
    simp at hk'
    subst hk'
    exact ⟨R.length, rfl, ho, by omega⟩
  · intro pos pos' k h1 h2
    have a1 := get_lt h1
    have a2 := get_lt h2
    simp at a1 a2
    omega
  · intro q hq
    obtain ⟨r', f1, f2, f3⟩ := back (oldR (List.getElem?_eq_getElem (show q < R.length by omega)))
    have : some (T.length + q) ∉ ks := by
      intro hm
      obtain ⟨q', e, h1, _⟩ := h.roots _ hm
      omega
    rw [f1, f3 this]
    exact (List.getElem?_eq_getElem _).symm
  · have : R.map (fun r => (r.src, r.sel, r.copy, r.lidx)) ++ [(i, s, copy, lidx)] =
      (R ++ [(⟨i, s, copy, lidx, ks, []⟩ : TN)]).map (fun r => (r.src, r.sel, r.copy, r.lidx)) := by simp
    rw [this]
    apply List.ext_getElem?
    intro q
    simp only [List.getElem?_map]
    cases hq : R'[q]? with
    | none =>
      rw [List.getElem?_eq_none_iff, al] at hq
      rw [List.getElem?_eq_none_iff.2 hq]
    | some r' =>
      obtain ⟨r, e0, e1, e2⟩ := ag q r' hq
      obtain ⟨f1, f2, f3, f4, _⟩ := fields e1 e2
      simp [e0, f1, f2, f3, f4]

/-- What is recorded for each node. -/
abbrev key (r : TN) : Nat × Nat × Nat × Nat := (r.src, r.sel, r.copy, r.lidx)

/-- The copies from `nc` to `nc'` were used, each once. -/
structure Fresh (N : List (Nat × Nat × Nat × Nat)) (nc nc' : Nat → Nat) : Prop where
  mono : ∀ i, nc i ≤ nc' i
  range : ∀ x ∈ N, nc x.1 ≤ x.2.2.1 ∧ x.2.2.1 < nc' x.1
  nodup : (N.map fun x => (x.1, x.2.2.1)).Nodup

theorem Fresh.append {N N' : List (Nat × Nat × Nat × Nat)} {a b c : Nat → Nat} (h : Fresh N a b) (h' : Fresh N' b c) : Fresh (N ++ N') a c := by
  refine ⟨fun i => Nat.le_trans (h.mono i) (h'.mono i), ?_, ?_⟩
  · intro x hx
    rcases List.mem_append.1 hx with hx | hx
    · have := h.range x hx
      have := h'.mono x.1
      omega
    · have := h'.range x hx
      have := h.mono x.1
      omega
  · rw [List.map_append, List.nodup_append]
    refine ⟨h.nodup, h'.nodup, ?_⟩
    intro x hx y hy e
    subst e
    obtain ⟨u, hu, e1⟩ := List.mem_map.1 hx
    obtain ⟨v, hv, e2⟩ := List.mem_map.1 hy
    rw [← e1] at e2
    injection e2 with e3 e4
    have a1 := h.range u hu
    have a2 := h'.range v hv
    rw [e3] at a2
    omega

def keyName (T : List Module) (top : Nat) (x : Nat × Nat × Nat × Nat) : List Char :=
  resName top x.1 (((T[x.1]?).map Module.name).getD []) x.2.2.1 x.2.2.2

/-- The results recorded for the nodes. -/
def record (T : List Module) (top : Nat) (d : List (List Char × Nat)) (o : Nat) (N : List (Nat × Nat × Nat × Nat)) : List (List Char × Nat) :=
  (N.zipIdx o).foldl (fun d e => put d (keyName T top e.1) (T.length + e.2)) d

theorem record_append {d : List (List Char × Nat)} {o : Nat} {N N' : List (Nat × Nat × Nat × Nat)} :
    record T top d o (N ++ N') = record T top (record T top d o N) (o + N.length) N' := by
  simp [record, List.zipIdx_append]

/-- What a call does to the state. -/
structure Does (T : List Module) (top lidx : Nat) (st st' : TSt) (ks : List (Option Nat)) : Prop where
  old : ∀ q, q < st.routed.length → st'.routed[q]? = st.routed[q]?
  seg : Seg T st'.routed st.routed.length ks
  keys : ∃ N, st'.routed.map key = st.routed.map key ++ N ∧ Fresh N st.ncopy st'.ncopy ∧ (∀ x ∈ N, x.2.2.2 = lidx) ∧
    st'.results = record T top st.results st.routed.length N

theorem Does.len {lidx : Nat} {st st' : TSt} {ks : List (Option Nat)} (h : Does T top lidx st st' ks) : st.routed.length ≤ st'.routed.length := by
  obtain ⟨N, h1, _⟩ := h.keys
  have := congrArg List.length h1
  simp at this
  omega

theorem Does.prefix {lidx : Nat} {st st' : TSt} {ks : List (Option Nat)} (h : Does T top lidx st st' ks) : ∃ N, st'.routed = st.routed ++ N := by
  refine ⟨st'.routed.drop st.routed.length, ?_⟩
  conv_lhs => rw [← List.take_append_drop st.routed.length st'.routed]
  congr 1
  apply List.ext_getElem?
  intro q
  by_cases hq : q < st.routed.length
  · rw [List.getElem?_take_of_lt hq, h.old q hq]
  · rw [List.getElem?_eq_none_iff.2 (by simp; omega), List.getElem?_eq_none_iff.2 (by omega)]

theorem Does.trans {lidx : Nat} {st st' st'' : TSt} {ks ks' : List (Option Nat)} (h : Does T top lidx st st' ks) (h' : Does T top lidx st' st'' ks') :
    Does T top lidx st st'' (ks ++ ks') := by
  refine ⟨?_, ?_, ?_⟩
  · intro q hq
    have := h.len
    rw [h'.old q (by omega), h.old q hq]
  · obtain ⟨N, hN⟩ := h'.prefix
    have h2 := h'.seg
    rw [hN] at h2 ⊢
    exact h.seg.append h2 h.len
  · obtain ⟨N, e1, f1, l1, r1⟩ := h.keys
    obtain ⟨N', e2, f2, l2, r2⟩ := h'.keys
    refine ⟨N ++ N', by rw [e2, e1, List.append_assoc], f1.append f2, ?_, ?_⟩
    · intro x hx
      rcases List.mem_append.1 hx with hx | hx
      · exact l1 x hx
      · exact l2 x hx
    · rw [record_append, r2, r1]
      have := congrArg List.length e1
      simp at this
      rw [this]

theorem Does.refl (lidx : Nat) (st : TSt) : Does T top lidx st st [] :=
  ⟨fun _ _ => rfl,
   ⟨fun p r h1 h2 => by have := get_lt h2; omega, fun p r h1 h2 => by have := get_lt h2; omega, by simp, by simp⟩,
   ⟨[], by simp, ⟨fun _ => Nat.le_refl _, by simp, by simp⟩, by simp, rfl⟩⟩

/-- A call that made a node. -/
def OK (T : List Module) (top lidx : Nat) (rec : TSt → Nat → Nat → Option (TSt × Nat)) : Prop :=
  ∀ st i s x, rec st i s = some x → Does T top lidx st x.1 [some x.2] ∧
    ∃ q r, x.2 = T.length + q ∧ st.routed.length ≤ q ∧ x.1.routed[q]? = some r ∧ r.src = i ∧ r.sel = s ∧ r.lidx = lidx

theorem kidsLoop_ok {lidx : Nat} {rec : TSt → Nat → Nat → Option (TSt × Nat)} (hrec : OK T top lidx rec) : ∀ (bs : List Blk) (st : TSt)
    (x : TSt × List (Option Nat)), kidsLoop rec st bs = some x → Does T top lidx st x.1 x.2 ∧ Match T x.1.routed st.routed.length lidx bs x.2
  | [], st, x, h => by
    simp only [kidsLoop, Option.some.injEq] at h
    subst h
    exact ⟨.refl lidx st, .nil⟩
  | b :: bs, st, x, h => by
    cases hc : b.child with
    | none =>
      simp only [kidsLoop, hc, Option.map_eq_some_iff] at h
      obtain ⟨q, hq, rfl⟩ := h
      obtain ⟨h1, h2⟩ := kidsLoop_ok hrec bs st q hq
      refine ⟨⟨h1.old, ⟨h1.seg.node, ?_, ?_, ?_⟩, h1.keys⟩, .cons (Or.inl ⟨hc, rfl⟩) h2⟩
      · intro p r hp hr
        rcases h1.seg.par p r hp hr with ⟨a1, a2⟩ | ⟨a1, a2⟩
        · exact Or.inl ⟨by simp [a1], a2⟩
        · exact Or.inr ⟨by simp [a1], a2⟩
      · intro k hk
        exact h1.seg.roots k (by simpa using hk)
      · intro pos pos' k g1 g2
        cases pos with
        | zero => simp at g1
        | succ pos =>
          cases pos' with
          | zero => simp at g2
          | succ pos' =>
            have := h1.seg.distinct pos pos' k (by simpa using g1) (by simpa using g2)
            omega
    | some c =>
      simp only [kidsLoop, hc, Option.bind_eq_some_iff, Option.map_eq_some_iff] at h
      obtain ⟨y, hy, q, hq, rfl⟩ := h
      obtain ⟨h1, p, r, e1, e2, e3, e4, e5, e6⟩ := hrec st c b.sel y hy
      obtain ⟨h2, h3⟩ := kidsLoop_ok hrec bs y.1 q hq
      refine ⟨h1.trans h2, .cons (Or.inr ⟨c, p, r, hc, by rw [e1], e2, ?_, e4, e5, e6⟩) (List.Forall₂.imp ?_ h3)⟩
      · rw [h2.old p (get_lt e3)]; exact e3
      · rintro b' k (hbk | ⟨c', q', r', a1, a2, a3, a4⟩)
        · exact Or.inl hbk
        · exact Or.inr ⟨c', q', r', a1, a2, by have := h1.len; omega, a4⟩

theorem down_ok {lidx : Nat} : ∀ fuel, OK T top lidx (down T top lidx fuel)
  | 0, st, i, s, x, h => by simp [down] at h
  | fuel + 1, st, i, s, x, h => by
    simp only [down, Option.bind_eq_some_iff, Option.map_eq_some_iff] at h
    obtain ⟨m, hm, bs, hbs, ⟨st2, ks⟩, hq, rfl⟩ := h
    obtain ⟨h1, h2⟩ := kidsLoop_ok (down_ok fuel) bs _ _ hq
    simp only at h1 h2
    obtain ⟨N, k1, k2, k3, k4⟩ := h1.keys
    obtain ⟨c1, c2, c3, c4, c5⟩ := h1.seg.close h1.len hm hbs h2 (copy := st.ncopy i) rfl
    simp only [finish]
    refine ⟨⟨?_, c1, N ++ [(i, s, st.ncopy i, lidx)], ?_, ?_, ?_, ?_⟩, st2.routed.length, _, rfl, h1.len, c2, rfl, rfl, rfl⟩
    · intro q hq
      rw [c4 q hq]
      exact h1.old q hq
    · rw [c5]
      have : st2.routed.map (fun r => (r.src, r.sel, r.copy, r.lidx)) = st2.routed.map key := rfl
      rw [this, k1, List.append_assoc]
    · refine ⟨?_, ?_, ?_⟩
      · intro j
        have := k2.mono j
        simp only [Function.update_apply] at this
        split_ifs at this with hj
        · subst hj; simp only; omega
        · exact this
      · intro y hy
        rcases List.mem_append.1 hy with hy | hy
        · have := k2.range y hy
          simp only [Function.update_apply] at this
          split_ifs at this with hj
          · rw [hj]; rw [hj] at this; simp only; omega
          · exact this
        · simp only [List.mem_singleton] at hy
          subst hy
          have := k2.mono i
          simp only [Function.update_self] at this
          simp only
          omega
      · rw [List.map_append, List.nodup_append]
        refine ⟨k2.nodup, by simp, ?_⟩
        intro u hu v hv e
        subst e
        simp only [List.map_cons, List.map_nil, List.mem_singleton] at hv
        obtain ⟨y, hy, e⟩ := List.mem_map.1 hu
        rw [hv] at e
        injection e with e1 e2
        have := k2.range y hy
        rw [e1] at this
        simp only [Function.update_self] at this
        omega
    · intro y hy
      rcases List.mem_append.1 hy with hy | hy
      · exact k3 y hy
      · simp only [List.mem_singleton] at hy
        subst hy; rfl
    · rw [record_append, k4]
      have hl := congrArg List.length k1
      simp at hl
      simp [record, keyName, hm, hl]

/-- Same as `Does`, with any placement of the top. -/
structure DoesAll (T : List Module) (top : Nat) (st st' : TSt) (ks : List Nat) : Prop where
  old : ∀ q, q < st.routed.length → st'.routed[q]? = st.routed[q]?
  seg : Seg T st'.routed st.routed.length (ks.map some)
  keys : ∃ N, st'.routed.map key = st.routed.map key ++ N ∧ Fresh N st.ncopy st'.ncopy ∧ st'.results = record T top st.results st.routed.length N

theorem downAll_ok {fuel : Nat} : ∀ (ts : List Nat) (st : TSt) (x : TSt × List Nat), downAll T top fuel st ts = some x →
    DoesAll T top st x.1 x.2 ∧ List.Forall₂ (fun t k => ∃ (q : Nat) (r : TN), k = T.length + q ∧ st.routed.length ≤ q ∧ x.1.routed[q]? = some r ∧
      r.src = top ∧ r.sel = t ∧ r.lidx = t) ts x.2
  | [], st, x, h => by
    simp only [downAll, Option.some.injEq] at h
    subst h
    have := Does.refl (T := T) (top := top) 0 st
    obtain ⟨N, h1, h2, _, h3⟩ := this.keys
    exact ⟨⟨this.old, this.seg, N, h1, h2, h3⟩, .nil⟩
  | t :: ts, st, x, h => by
    simp only [downAll, Option.bind_eq_some_iff, Option.map_eq_some_iff] at h
    obtain ⟨y, hy, q, hq, rfl⟩ := h
    obtain ⟨h1, p, r, e1, e2, e3, e4, e5, e6⟩ := down_ok fuel st top t y hy
    obtain ⟨h2, h3⟩ := downAll_ok ts y.1 q hq
    refine ⟨⟨?_, ?_, ?_⟩, .cons ⟨p, r, e1, e2, ?_, e4, e5, e6⟩ (h3.imp ?_)⟩
    · intro q' hq'
      have := h1.len
      rw [h2.old q' (by omega), h1.old q' hq']
    · have hp : ∃ N, q.1.routed = y.1.routed ++ N := by
        refine ⟨q.1.routed.drop y.1.routed.length, ?_⟩
        conv_lhs => rw [← List.take_append_drop y.1.routed.length q.1.routed]
        congr 1
        apply List.ext_getElem?
        intro q'
        by_cases hq' : q' < y.1.routed.length
        · rw [List.getElem?_take_of_lt hq', h2.old q' hq']
        · rw [List.getElem?_eq_none_iff.2 (by simp; omega), List.getElem?_eq_none_iff.2 (by omega)]
      obtain ⟨N, hN⟩ := hp
      have := h2.seg
      simp only
      rw [hN] at this ⊢
      exact h1.seg.append this h1.len
    · obtain ⟨N, k1, k2, _, k4⟩ := h1.keys
      obtain ⟨N', k1', k2', k4'⟩ := h2.keys
      refine ⟨N ++ N', by rw [k1', k1, List.append_assoc], k2.append k2', ?_⟩
      rw [record_append, k4', k4]
      have := congrArg List.length k1
      simp at this
      rw [this]
    · rw [h2.old p (get_lt e3)]; exact e3
    · rintro t' k ⟨q', r', a1, a2, a3⟩
      exact ⟨q', r', a1, by have := h1.len; omega, a3⟩

theorem kidsLoop_some {rec : TSt → Nat → Nat → Option (TSt × Nat)} : ∀ (bs : List Blk), (∀ b ∈ bs, ∀ c, b.child = some c → ∀ st, ∃ x, rec st c b.sel = some x) →
    ∀ st, ∃ x, kidsLoop rec st bs = some x
  | [], _, st => ⟨_, rfl⟩
  | b :: bs, h, st => by
    cases hc : b.child with
    | none =>
      obtain ⟨x, hx⟩ := kidsLoop_some bs (fun b hb => h b (by simp [hb])) st
      exact ⟨(x.1, none :: x.2), by simp [kidsLoop, hc, hx]⟩
    | some c =>
      obtain ⟨y, hy⟩ := h b (by simp) c hc st
      obtain ⟨x, hx⟩ := kidsLoop_some bs (fun b hb => h b (by simp [hb])) y.1
      exact ⟨(x.1, some y.2 :: x.2), by simp [kidsLoop, hc, hy, hx]⟩

theorem down_some (hd : Database T order top) {lidx : Nat} : ∀ (fuel : Nat) (l r : List Nat), order = l ++ r → l.length < fuel → ∀ i s bs,
    i ∈ l → blocks T i s = some bs → ∀ st, ∃ x, down T top lidx fuel st i s = some x
  | 0, l, r, ho, hf, i, s, bs, hi, hbs, st => by omega
  | fuel + 1, l, r, ho, hf, i, s, bs, hi, hbs, st => by
    obtain ⟨l1, l2, rfl⟩ := List.append_of_mem hi
    obtain ⟨h, hh1, hh2⟩ := blocks_some.1 hbs
    obtain ⟨x, hx⟩ := kidsLoop_some (rec := down T top lidx fuel) bs (by
      intro b hb c hc st
      obtain ⟨h', bs', g1, g2⟩ := hd.placed i s h bs b c hh1 hh2 hb hc
      have hu : Uses T i c := ⟨s, h, bs, b, hh1, hh2, hb, hc⟩
      have hco := hd.closed i (by rw [ho]; simp) c hu
      have hcl : c ∈ l1 := by
        rw [ho, List.append_assoc] at hco
        rcases List.mem_append.1 hco with h5 | h5
        · exact h5
        · exfalso
          have hp := hd.childrenFirst
          rw [ho, List.append_assoc] at hp
          have hp2 := (List.pairwise_append.1 hp).2.1
          rw [List.cons_append] at hp2 h5
          rcases List.mem_cons.1 h5 with rfl | h6
          · exact hd.self _ hu
          · exact (List.pairwise_cons.1 hp2).1 c h6 hu
      exact down_some hd fuel l1 (i :: l2 ++ r) (by rw [ho, List.append_assoc]) (by simp at hf; omega) c b.sel bs' hcl (blocks_some.2 ⟨h', g1, g2⟩) st)
      { st with ncopy := Function.update st.ncopy i (st.ncopy i + 1) }
    exact ⟨finish T top lidx i s (st.ncopy i) h.name x.1 x.2, by simp only [down, hh1, hh2, Option.bind_some, hx, Option.map_some]⟩

theorem downAll_some {fuel : Nat} : ∀ (ts : List Nat), (∀ t ∈ ts, ∀ st, ∃ x, down T top t fuel st top t = some x) → ∀ st, ∃ x, downAll T top fuel st ts = some x
  | [], _, st => ⟨_, rfl⟩
  | t :: ts, h, st => by
    obtain ⟨y, hy⟩ := h t (by simp) st
    obtain ⟨x, hx⟩ := downAll_some ts (fun t ht => h t (by simp [ht])) y.1
    exact ⟨(x.1, y.2 :: x.2), by simp [downAll, hy, hx]⟩

theorem record_nodup {d : List (List Char × Nat)} {o : Nat} : ∀ {N : List (Nat × Nat × Nat × Nat)}, (N.map (keyName T top)).Nodup →
    (∀ x ∈ N, d.lookup (keyName T top x) = none) →
    record T top d o N = d ++ (N.zipIdx o).map fun e => (keyName T top e.1, T.length + e.2)
  | [], _, _ => by simp [record]
  | x :: N, hn, hd => by
    rw [List.map_cons, List.nodup_cons] at hn
    have h1 : record T top d o (x :: N) = record T top (put d (keyName T top x) (T.length + o)) (o + 1) N := by
      simp [record, List.zipIdx_cons]
    have h2 : put d (keyName T top x) (T.length + o) = d ++ [(keyName T top x, T.length + o)] := by
      simp [put, hd x (by simp)]
    rw [h1, h2, record_nodup hn.2, List.zipIdx_cons, List.map_cons, List.append_assoc]
    · rfl
    · intro y hy
      rw [lookup_snoc', hd y (by simp [hy])]
      have : keyName T top y ≠ keyName T top x := fun e => hn.1 (List.mem_map.2 ⟨y, hy, e⟩)
      simp [this]

theorem top_last (hd : Database T order top) {i : Nat} (hi : i ∈ order) : ¬ Uses T i top := by
  intro hu
  obtain ⟨l, hl⟩ : ∃ l, order = l ++ [top] := by
    have := hd.last
    rw [List.getLast?_eq_some_iff] at this
    exact this
  rw [hl] at hi
  rcases List.mem_append.1 hi with h | h
  · have hp := hd.childrenFirst
    rw [hl] at hp
    exact (List.pairwise_append.1 hp).2.2 i h top (by simp) hu
  · rw [List.mem_singleton.1 h] at hu
    exact hd.self _ hu

/-- **C86, part**: routing top down succeeds and makes one tree of nodes for each placement; each node is found under its own
name, if the top is not called like another module with a number behind it. -/
theorem C86_top_down_partial (hd : Database T order top) {M : Module} (hM : T[top]? = some M) (given : Option (List Nat)) (nroutings : Nat)
    (hg : ∀ l, given = some l → ∀ s ∈ l, s < M.variants.length) :
    ∃ st roots, topDown T top given nroutings (order.length + 1) = some (st, roots) ∧
      Forest T top (given.getD (List.range (min nroutings M.variants.length))) st.routed roots ∧
      ((given.getD []).Nodup → (∀ (i : Nat) (h : Module) (c : Nat), T[i]? = some h → M.name ≠ Pnr.joinName h.name c) → Named T top st) := by
  have hpl : placements given nroutings ((T[top]?).map fun h => h.variants.length).iget =
      given.getD (List.range (min nroutings M.variants.length)) := by
    rw [hM]; cases given <;> rfl
  have hndp : (given.getD []).Nodup → (given.getD (List.range (min nroutings M.variants.length))).Nodup := by
    cases given with
    | none => intro _; exact List.nodup_range
    | some l => exact fun h => h
  generalize htops : given.getD (List.range (min nroutings M.variants.length)) = tops at hpl hndp
  have htop : ∀ t ∈ tops, ∃ bs, blocks T top t = some bs := by
    intro t ht
    have : t < M.variants.length := by
      cases given with
      | none => rw [← htops] at ht; simp at ht; omega
      | some l => rw [← htops] at ht; exact hg l rfl t ht
    exact ⟨M.variants[t], blocks_some.2 ⟨M, hM, List.getElem?_eq_getElem this⟩⟩
  have hmo : top ∈ order := List.mem_of_getLast? hd.last
  obtain ⟨⟨st, roots⟩, hx⟩ := downAll_some (T := T) (top := top) (fuel := order.length + 1) tops (by
    intro t ht st
    obtain ⟨bs, hbs⟩ := htop t ht
    exact down_some hd _ order [] (by simp) (Nat.lt_succ_self _) top t bs hmo hbs st) ⟨fun _ => 0, [], []⟩
  obtain ⟨h1, h2⟩ := downAll_ok tops _ _ hx
  simp only at h1 h2
  obtain ⟨N, k1, k2, k3⟩ := h1.keys
  simp only [List.map_nil, List.nil_append, List.length_nil] at k1 k3
  have hroots : List.Forall₂ (fun t k => ∃ (q : Nat) (r : TN), k = T.length + q ∧ st.routed[q]? = some r ∧ r.src = top ∧ r.sel = t ∧ r.lidx = t) tops roots := by
    refine h2.imp ?_
    rintro t k ⟨q, r, a1, _, a2⟩
    exact ⟨q, r, a1, a2⟩
  have hseg := h1.seg
  simp only [List.length_nil] at hseg
  refine ⟨st, roots, by rw [topDown, hpl]; exact hx, ⟨?_, ?_, hroots, ?_, ?_⟩, ?_⟩
  · intro p r hr
    obtain ⟨m, bs, g1, g2, g3⟩ := hseg.node p r (Nat.zero_le _) hr
    refine ⟨m, bs, g1, g2, g3.imp ?_⟩
    rintro b k (hbk | ⟨c, q, r', a1, a2, _, a3⟩)
    · exact Or.inl hbk
    · exact Or.inr ⟨c, q, r', a1, a2, a3⟩
  · intro q r hr
    rcases hseg.par q r (Nat.zero_le _) hr with ⟨a1, a2, a3⟩ | ⟨a1, p, r', pos, c1, c2, c3, c4, c5⟩
    · exact Or.inl ⟨by simpa using a1, a2, fun p r' h => a3 p r' (Nat.zero_le _) h⟩
    · exact Or.inr ⟨by simpa using a1, p, r', pos, c2, c3, c4, fun p' r'' pos' h h' => c5 p' r'' pos' (Nat.zero_le _) h h'⟩
  · rw [List.nodup_iff_injective_getElem]
    intro ⟨a, ha⟩ ⟨b, hb⟩ e
    simp only at e
    have := hseg.distinct a b roots[a] (by simp [ha]) (by simp [hb, e])
    simp [this]
  · have := k2.nodup
    rw [← k1, List.map_map] at this
    exact this
  · intro hnd hcol
    have hsrc : ∀ (q : Nat) (r : TN), st.routed[q]? = some r → r.src = top → T.length + q ∈ roots := by
      intro q r hr hrt
      rcases hseg.par q r (Nat.zero_le _) hr with ⟨a1, _⟩ | ⟨_, p, r', pos, _, c2, _, c4, _⟩
      · simpa using a1
      · exfalso
        obtain ⟨m, bs, g1, g2, g3⟩ := hseg.node p r' (Nat.zero_le _) c2
        obtain ⟨b, hb, h5 | ⟨c, q', r2, a1, a2, _, _, a3, a4, _⟩⟩ := forall₂_right g3 _ (List.mem_of_getElem? c4)
        · simp at h5
        · have hqq : q' = q := by have := Option.some.inj a2; omega
          subst hqq
          rw [hr] at a3
          rw [← Option.some.inj a3, hrt] at a4
          subst a4
          have hu : Uses T r'.src top := ⟨r'.sel, m, bs, b, g1, g2, hb, a1⟩
          -- the module of the parent is in the order
          have hmem : ∀ (n p : Nat) (z : TN), st.routed.length ≤ n + p → st.routed[p]? = some z → z.src ∈ order := by
            intro n
            induction n with
            | zero => intro p z hl hz; have := get_lt hz; omega
            | succ n ih =>
              intro p z hl hz
              rcases hseg.par p z (Nat.zero_le _) hz with ⟨b1, _⟩ | ⟨_, p2, z2, pos2, _, d2, _, d4, _⟩
              · obtain ⟨t, _, q2, r3, e1, e2, e3, _⟩ := forall₂_right hroots (T.length + p) (by simpa using b1)
                have : q2 = p := by omega
                subst this
                rw [hz] at e2
                rw [Option.some.inj e2, e3]; exact hmo
              · have hlt := (hseg.kid (Nat.zero_le _) d2 (List.mem_of_getElem? d4)).2
                have h6 := ih p2 z2 (by omega) d2
                obtain ⟨m2, bs2, f1, f2, f3⟩ := hseg.node p2 z2 (Nat.zero_le _) d2
                obtain ⟨b2, hb2, h7 | ⟨c2, q3, r4, x1, x2, _, _, x3, x4, _⟩⟩ := forall₂_right f3 _ (List.mem_of_getElem? d4)
                · simp at h7
                · have : q3 = p := by have := Option.some.inj x2; omega
                  subst this
                  rw [hz] at x3
                  rw [Option.some.inj x3, x4]
                  exact hd.closed _ h6 _ ⟨_, _, _, _, f1, f2, hb2, x1⟩
          exact top_last hd (hmem st.routed.length p r' (by omega) c2) hu
    have hname : ∀ (q : Nat) (r : TN), st.routed[q]? = some r → ∃ m, T[r.src]? = some m ∧ keyName T top (key r) =
        if r.src = top then Pnr.joinName m.name r.lidx else Pnr.joinName (Pnr.joinName m.name r.copy) r.lidx := by
      intro q r hr
      obtain ⟨m, _, g1, _⟩ := hseg.node q r (Nat.zero_le _) hr
      exact ⟨m, g1, by simp [keyName, key, g1, resName]⟩
    have hinj : ∀ (q q' : Nat) (r r' : TN), st.routed[q]? = some r → st.routed[q']? = some r' → keyName T top (key r) = keyName T top (key r') → q = q' := by
      intro q q' r r' hr hr' e
      obtain ⟨m, hm, hn⟩ := hname q r hr
      obtain ⟨m', hm', hn'⟩ := hname q' r' hr'
      rw [hn, hn'] at e
      by_cases ht : r.src = top <;> by_cases ht' : r'.src = top
      · rw [if_pos ht, if_pos ht'] at e
        have el := (Pnr.joinName_inj e).2
        obtain ⟨t, ht1, q2, r2, e1, e2, e3, e4, e5⟩ := forall₂_right hroots _ (hsrc q r hr ht)
        obtain ⟨t', ht1', q2', r2', e1', e2', e3', e4', e5'⟩ := forall₂_right hroots _ (hsrc q' r' hr' ht')
        have hq2 : q2 = q := by omega
        have hq2' : q2' = q' := by omega
        subst hq2 hq2'
        rw [hr] at e2
        rw [hr'] at e2'
        rw [← Option.some.inj e2] at e5
        rw [← Option.some.inj e2'] at e5'
        -- equal placements are at the same position
        have htt : t = t' := by rw [← e5, ← e5', el]
        obtain ⟨pos, hpos⟩ := List.mem_iff_getElem?.1 (hsrc q2 r hr ht)
        obtain ⟨pos', hpos'⟩ := List.mem_iff_getElem?.1 (hsrc q2' r' hr' ht')
        have gp : ∀ {pos q : Nat} {r : TN}, roots[pos]? = some (T.length + q) → st.routed[q]? = some r → tops[pos]? = some r.lidx := by
          intro pos q r h7 h8
          have hlen := hroots.length_eq
          have hlt : pos < tops.length := by rw [hlen]; exact get_lt h7
          have := List.Forall₂.get hroots hlt (by rw [← hlen]; exact hlt)
          obtain ⟨q3, r3, y1, y2, _, _, y3⟩ := this
          have h9 : roots[pos]? = some (roots.get ⟨pos, by rw [← hlen]; exact hlt⟩) := by simp
          rw [h7] at h9
          have hq3 : q3 = q := by have := Option.some.inj h9; omega
          subst hq3
          rw [h8] at y2
          rw [Option.some.inj y2, y3]
          simp
        have g1 := gp hpos hr
        have g2 := gp hpos' hr'
        rw [el] at g1
        have hpp : pos = pos' := by
          obtain ⟨l1, n1⟩ := List.getElem?_eq_some_iff.1 g1
          obtain ⟨l2, n2⟩ := List.getElem?_eq_some_iff.1 g2
          exact ((hndp hnd).getElem_inj_iff).1 (n1.trans n2.symm)
        subst hpp
        rw [hpos] at hpos'
        have := Option.some.inj hpos'
        omega
      · rw [if_pos ht, if_neg ht'] at e
        have := (Pnr.joinName_inj e).1
        rw [ht, hM] at hm
        rw [← Option.some.inj hm] at this
        exact absurd this (hcol _ _ _ hm')
      · rw [if_neg ht, if_pos ht'] at e
        have := (Pnr.joinName_inj e).1
        rw [ht', hM] at hm'
        rw [← Option.some.inj hm'] at this
        exact absurd this.symm (hcol _ _ _ hm)
      · rw [if_neg ht, if_neg ht'] at e
        obtain ⟨e1, e2⟩ := Pnr.joinName_inj (Pnr.joinName_inj e).1
        have e3 := hd.names _ _ _ _ hm hm' e1
        have hk := k2.nodup
        rw [← k1, List.map_map] at hk
        have g1 : (st.routed.map ((fun x : Nat × Nat × Nat × Nat => (x.1, x.2.2.1)) ∘ key))[q]? = some (r.src, r.copy) := by simp [hr, key]
        have g2 : (st.routed.map ((fun x : Nat × Nat × Nat × Nat => (x.1, x.2.2.1)) ∘ key))[q']? = some (r.src, r.copy) := by simp [hr', key, e3, e2]
        obtain ⟨l1, n1⟩ := List.getElem?_eq_some_iff.1 g1
        obtain ⟨l2, n2⟩ := List.getElem?_eq_some_iff.1 g2
        exact (hk.getElem_inj_iff).1 (n1.trans n2.symm)
    have hnames : (N.map (keyName T top)).Nodup := by
      rw [← k1, List.map_map, List.nodup_iff_injective_getElem]
      intro ⟨a, ha⟩ ⟨b, hb⟩ e
      simp only [List.getElem_map, Function.comp_apply] at e
      have ha' : a < st.routed.length := by simpa using ha
      have hb' : b < st.routed.length := by simpa using hb
      have := hinj a b _ _ (List.getElem?_eq_getElem ha') (List.getElem?_eq_getElem hb') e
      simp [this]
    intro n x
    rw [k3, record_nodup hnames (by simp), List.nil_append, lookup_zip (keyName T top) hnames]
    constructor
    · rintro ⟨q, y, g1, rfl, rfl⟩
      rw [← k1, List.getElem?_map, Option.map_eq_some_iff] at g1
      obtain ⟨r, hr, rfl⟩ := g1
      obtain ⟨m, hm, hn⟩ := hname q r hr
      refine ⟨q, r, by omega, hr, m, hm, ?_⟩
      rw [hn]
      by_cases ht : r.src = top
      · exact Or.inl ⟨ht, by rw [if_pos ht]⟩
      · exact Or.inr ⟨ht, by rw [if_neg ht]⟩
    · rintro ⟨q, r, rfl, hr, m, hm, hn⟩
      refine ⟨q, key r, by rw [← k1]; simp [hr], ?_, by omega⟩
      obtain ⟨m', hm', hn'⟩ := hname q r hr
      rw [hm] at hm'
      rw [← Option.some.inj hm'] at hn'
      rw [hn']
      rcases hn with ⟨ht, rfl⟩ | ⟨ht, rfl⟩
      · rw [if_pos ht]
      · rw [if_neg ht]

example : (topDown twice 1 none 2 3).map (fun x => (x.1.routed, x.1.results, x.2)) = some (
    [⟨0, 1, 0, 0, [none], [4]⟩, ⟨0, 0, 1, 0, [none], [4]⟩, ⟨1, 0, 0, 0, [some 2, some 3, none], []⟩,
     ⟨0, 1, 2, 1, [none], [7]⟩, ⟨0, 1, 3, 1, [none], [7]⟩, ⟨1, 1, 1, 1, [some 5, some 6], []⟩],
    [("A_0_0".toList, 2), ("A_1_0".toList, 3), ("T_0".toList, 4), ("A_2_1".toList, 5), ("A_3_1".toList, 6), ("T_1".toList, 7)], [4, 7]) := by
  decide +kernel

example : ∀ (i : Nat) (h : Module) (c : Nat), twice[i]? = some h → "T".toList ≠ Pnr.joinName h.name c := by
  intro i h c _ e
  have : '_' ∈ "T".toList := by rw [e]; simp [Pnr.joinName]
  exact absurd this (by decide)

/-- The top `A_0` uses the module `A`. -/
def clash : List Module := [⟨"A".toList, [[⟨none, 0⟩]]⟩, ⟨"A_0".toList, [[⟨some 0, 0⟩]]⟩]

theorem clash_database : Database clash [0, 1] 1 := by
  have hl : ∀ {i : Nat} {h : Module}, clash[i]? = some h → (i = 0 ∧ h = ⟨"A".toList, [[⟨none, 0⟩]]⟩) ∨ (i = 1 ∧ h = ⟨"A_0".toList, [[⟨some 0, 0⟩]]⟩) := by
    intro i h hh
    have hl := get_lt hh
    have hi : i = 0 ∨ i = 1 := by simp [clash] at hl; omega
    rcases hi with rfl | rfl <;> simp [clash] at hh <;> subst hh <;> simp
  have hu : ∀ i c, Uses clash i c → i = 1 ∧ c = 0 := by
    rintro i c ⟨s, h, bs, b, h1, h2, h3, h4⟩
    rcases hl h1 with ⟨rfl, rfl⟩ | ⟨rfl, rfl⟩
    · have := List.mem_of_getElem? h2
      simp at this
      subst this
      simp at h3
      subst h3
      simp at h4
    · have := List.mem_of_getElem? h2
      simp at this
      subst this
      simp at h3
      subst h3
      simp at h4
      exact ⟨rfl, h4.symm⟩
  refine ⟨?_, ?_, by decide, by decide, ?_, ?_, ?_⟩
  · intro i j h h' h1 h2 e
    rcases hl h1 with ⟨rfl, rfl⟩ | ⟨rfl, rfl⟩ <;> rcases hl h2 with ⟨rfl, rfl⟩ | ⟨rfl, rfl⟩ <;> simp_all
  · intro i s h bs b c h1 h2 h3 h4
    obtain ⟨rfl, rfl⟩ := hu i c ⟨s, h, bs, b, h1, h2, h3, h4⟩
    rcases hl h1 with ⟨e, rfl⟩ | ⟨_, rfl⟩
    · omega
    · have := List.mem_of_getElem? h2
      simp at this
      subst this
      simp at h3
      subst h3
      simp [clash]
  · intro i _ c h
    obtain ⟨rfl, rfl⟩ := hu i c h
    simp
  · simp only [List.pairwise_cons, List.mem_singleton, forall_eq, List.not_mem_nil, false_imp_iff, implies_true, List.Pairwise.nil, and_true]
    intro h
    have := (hu _ _ h).1
    omega
  · intro i h
    have := hu _ _ h
    omega

/-- **C86 is violated**: the layout of a module is lost, because the top has the same name. -/
theorem C86_violated_name : ∃ (T : List Module) (order : List Nat) (top : Nat) (st : TSt) (roots : List Nat), Database T order top ∧
    topDown T top none 1 (order.length + 1) = some (st, roots) ∧ ¬ Named T top st := by
  have hrun : (topDown clash 1 none 1 3).map (fun x => (x.1.routed, x.1.results, x.2)) = some (
    [⟨0, 0, 0, 0, [none], [3]⟩, ⟨1, 0, 0, 0, [some 2], []⟩], [("A_0_0".toList, 3)], [3]) := by decide +kernel
  cases hs : topDown clash 1 none 1 3 with
  | none => rw [hs] at hrun; simp at hrun
  | some x =>
    rw [hs] at hrun
    simp only [Option.map_some, Option.some.injEq, Prod.mk.injEq] at hrun
    obtain ⟨e1, e2, _⟩ := hrun
    refine ⟨clash, [0, 1], 1, x.1, x.2, clash_database, hs, ?_⟩
    intro hn
    have := (hn "A_0_0".toList 2).2 ⟨0, _, rfl, by rw [e1]; rfl, ⟨"A".toList, [[⟨none, 0⟩]]⟩, rfl, Or.inr ⟨by decide, by decide +kernel⟩⟩
    rw [e2] at this
    simp at this

end Verif.Route

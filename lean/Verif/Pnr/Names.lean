import Verif.Util.Sort
import Verif.Schema.Number
import Mathlib.Data.List.Nodup
import Mathlib.Data.List.Count

/-!
# C34: concrete names before routing

Model of `align/pnr/manipulate_hierarchy.py`: `change_concrete_names_for_routing` (138-174).
Names are lists of characters.
-/

namespace Verif.Pnr

open Verif.Schema (isDig digitsVal digitChar isDig_digitChar digitChar_val)

/-! ## Model -/

/-- `str(n)` for a number: decimal digits. -/
def pyStrAux : Nat → Nat → List Char → List Char
  | 0, _, acc => acc
  | f + 1, n, acc =>
    if n < 10 then Char.ofNat (48 + n) :: acc
    else pyStrAux f (n / 10) (Char.ofNat (48 + n % 10) :: acc)

def pyStr (n : Nat) : List Char := pyStrAux (n + 1) n []

/-- `f'{an}_{idx}'`. -/
def joinName (an : List Char) (idx : Nat) : List Char := an ++ '_' :: pyStr idx

/-- Matching `^(.+)_(\d+)$` (141, 146-148): stem and suffix.  The greedy stem reaches to the last
underscore, as the suffix has digits only.  (`\d` is taken to be an ASCII digit, and names to contain
no line breaks.) -/
def matchName (cn : List Char) : Option (List Char × List Char) :=
  let r := cn.reverse
  match r.takeWhile isDig, r.dropWhile isDig with
  | d :: ds, '_' :: s :: stem => some ((s :: stem).reverse, (d :: ds).reverse)
  | _, _ => none

structure CInst where
  /-- `concrete_template_name` -/
  ctn : List Char
  /-- `abstract_template_name` -/
  atn : List Char
deriving DecidableEq

structure CMod where
  an : List Char
  cn : List Char
  insts : List CInst
deriving DecidableEq

/-- The modules, and the leaves as pairs of abstract and concrete name. -/
structure PV where
  mods : List CMod
  leaves : List (List Char × List Char)
deriving DecidableEq

/-- The loop over the modules (143-150): abstract name and number of each, `none` if an assertion
fails. -/
def suffixes (mods : List CMod) : Option (List (List Char × Nat)) :=
  mods.mapM fun m =>
    match matchName m.cn with
    | some (stem, suffix) => if stem = m.an then some (m.an, digitsVal suffix) else none
    | none => none

/-- The table `tr_tbl` (152-155) in the order of insertion: the numbers of each abstract name are
sorted and counted from 0. -/
def trTbl (sfx : List (List Char × Nat)) : List (List Char × List Char) :=
  (sfx.map Prod.fst).eraseDups.flatMap fun an =>
    (pySort (fun a b => decide (a ≤ b)) ((sfx.filter fun p => p.1 = an).map Prod.snd)).zipIdx.map
      fun p => (joinName an p.1, joinName an p.2)

/-- Looking up a key of the table: the last insertion counts. -/
def trGet (tbl : List (List Char × List Char)) (k : List Char) : Option (List Char) :=
  (tbl.reverse.find? fun p => p.1 == k).map Prod.snd

/-- The instances (161-168). -/
def trInst (leafCtns : List (List Char)) (tbl : List (List Char × List Char)) (i : CInst) :
    Option CInst :=
  if leafCtns.contains i.ctn then
    if (trGet tbl i.ctn).isSome then none else some { i with atn := i.ctn }
  else (trGet tbl i.ctn).map fun c => { i with ctn := c }

/-- One module (159-168). -/
def trMod (leafCtns : List (List Char)) (tbl : List (List Char × List Char)) (m : CMod) :
    Option CMod :=
  (trGet tbl m.cn).bind fun c =>
    (m.insts.mapM (trInst leafCtns tbl)).map fun is => { m with cn := c, insts := is }

/-- `change_concrete_names_for_routing` (138-174): the new contents and the returned table. -/
def changeNames (v : PV) : Option (PV × List (List Char × List Char)) :=
  (suffixes v.mods).bind fun sfx =>
    (v.mods.mapM (trMod (v.leaves.map Prod.snd) (trTbl sfx))).map fun ms =>
      (⟨ms, v.leaves.map fun l => (l.2, l.2)⟩, trTbl sfx)

/-! ## Specification -/

/-- A module is variant number `k` of its abstract name. -/
def IsVariant (m : CMod) (k : Nat) : Prop := m.cn = joinName m.an k

/-- The number a module is to get: how many modules of the same abstract name have a smaller number,
where `num` gives the present numbers. -/
def rankOf (mods : List CMod) (num : CMod → Nat) (m : CMod) : Nat :=
  (mods.filter fun x => decide (x.an = m.an ∧ num x < num m)).length

/-! ## Proofs -/

theorem pyStrAux_spec (f : Nat) : ∀ (n : Nat) (acc : List Char), n < f →
    (pyStrAux f n acc).foldl (fun n c => 10 * n + (c.toNat - 48)) 0 =
      acc.foldl (fun n c => 10 * n + (c.toNat - 48)) n ∧
    ((∀ c ∈ acc, isDig c = true) → ∀ c ∈ pyStrAux f n acc, isDig c = true) ∧
    pyStrAux f n acc ≠ [] := by
  induction f with
  | zero => intro n acc h; omega
  | succ f ih =>
    intro n acc h
    have hdig : ∀ k, k < 10 → (Char.ofNat (48 + k)).toNat - 48 = k ∧ isDig (Char.ofNat (48 + k)) = true :=
      fun k hk => ⟨digitChar_val ⟨k, hk⟩, isDig_digitChar ⟨k, hk⟩⟩
    simp only [pyStrAux]
    split
    · rename_i hn
      refine ⟨by simp [(hdig n hn).1], ?_, by simp⟩
      intro hacc c hc
      rcases List.mem_cons.mp hc with rfl | hc
      · exact (hdig n hn).2
      · exact hacc c hc
    · obtain ⟨h1, h2, h3⟩ := ih (n / 10) (Char.ofNat (48 + n % 10) :: acc) (by omega)
      have hm := hdig (n % 10) (Nat.mod_lt _ (by omega))
      refine ⟨?_, ?_, h3⟩
      · rw [h1, List.foldl_cons, hm.1]
        congr 1; omega
      · intro hacc
        refine h2 ?_
        intro c hc
        rcases List.mem_cons.mp hc with rfl | hc
        · exact hm.2
        · exact hacc c hc

theorem digitsVal_pyStr (n : Nat) : digitsVal (pyStr n) = n :=
  (pyStrAux_spec (n + 1) n [] (by omega)).1

theorem isDig_pyStr (n : Nat) : ∀ c ∈ pyStr n, isDig c = true :=
  (pyStrAux_spec (n + 1) n [] (by omega)).2.1 (by simp)

theorem underscore_not_dig : isDig '_' = false := by decide

theorem split_last {a b d e : List Char} (hd : '_' ∉ d) (he : '_' ∉ e)
    (h : a ++ '_' :: d = b ++ '_' :: e) : a = b ∧ d = e := by
  rcases List.append_eq_append_iff.mp h with ⟨t, h1, h2⟩ | ⟨t, h1, h2⟩
  · cases t with
    | nil => simp at h1 h2; exact ⟨h1.symm, h2⟩
    | cons c t =>
      simp only [List.cons_append, List.cons.injEq] at h2
      exact absurd (by rw [h2.2]; simp) hd
  · cases t with
    | nil => simp at h1 h2; exact ⟨h1, h2.symm⟩
    | cons c t =>
      simp only [List.cons_append, List.cons.injEq] at h2
      exact absurd (by rw [h2.2]; simp) he

theorem no_underscore {d : List Char} (h : ∀ c ∈ d, isDig c = true) : '_' ∉ d := fun hm => by
  have := h _ hm
  rw [underscore_not_dig] at this; cases this

theorem joinName_inj {a b : List Char} {i j : Nat} (h : joinName a i = joinName b j) : a = b ∧ i = j := by
  obtain ⟨h1, h2⟩ := split_last (no_underscore (isDig_pyStr i)) (no_underscore (isDig_pyStr j)) h
  refine ⟨h1, ?_⟩
  rw [← digitsVal_pyStr i, h2, digitsVal_pyStr]

theorem matchName_some {cn stem sfx : List Char} (h : matchName cn = some (stem, sfx)) :
    cn = stem ++ '_' :: sfx ∧ ∀ c ∈ sfx, isDig c = true := by
  unfold matchName at h
  simp only at h
  split at h
  · rename_i d ds s st h1 h2
    simp only [Option.some.injEq, Prod.mk.injEq] at h
    obtain ⟨rfl, rfl⟩ := h
    constructor
    · have := List.takeWhile_append_dropWhile (p := isDig) (l := cn.reverse)
      rw [h1, h2] at this
      have h3 := congrArg List.reverse this
      rw [List.reverse_reverse] at h3
      rw [← h3]
      simp
    · intro c hc
      rw [List.mem_reverse, ← h1] at hc
      exact List.mem_takeWhile_imp hc
  · cases h

theorem suffixes_spec {mods : List CMod} {sfx : List (List Char × Nat)} (h : suffixes mods = some sfx) :
    ∃ num : CMod → Nat, sfx = mods.map (fun m => (m.an, num m)) ∧
      ∀ m ∈ mods, ∃ s, m.cn = m.an ++ '_' :: s ∧ (∀ c ∈ s, isDig c = true) ∧ num m = digitsVal s := by
  let num : CMod → Nat := fun m => ((matchName m.cn).map fun p => digitsVal p.2).getD 0
  refine ⟨num, ?_⟩
  unfold suffixes at h
  induction mods generalizing sfx with
  | nil => simp only [List.mapM_nil, Option.pure_def, Option.some.injEq] at h; subst h; simp
  | cons m mods ih =>
    simp only [List.mapM_cons, Option.pure_def, Option.bind_eq_bind, Option.bind_eq_some_iff,
      Option.some.injEq] at h
    obtain ⟨p, hp, ps, hps, rfl⟩ := h
    obtain ⟨h1, h2⟩ := ih hps
    split at hp
    · rename_i stem s hm
      split at hp
      · rename_i hst
        simp only [Option.some.injEq] at hp
        subst hp
        have hnum : num m = digitsVal s := by simp [num, hm]
        refine ⟨by simp [h1, hnum], ?_⟩
        intro x hx
        rcases List.mem_cons.mp hx with rfl | hx
        · obtain ⟨e1, e2⟩ := matchName_some hm
          exact ⟨s, by rw [e1, hst], e2, hnum⟩
        · exact h2 x hx
      · cases hp
    · cases hp

theorem mem_trTbl {sfx : List (List Char × Nat)} {k v : List Char} (h : (k, v) ∈ trTbl sfx) :
    ∃ an idx pos, k = joinName an idx ∧ v = joinName an pos ∧
      (pySort (fun a b => decide (a ≤ b)) ((sfx.filter fun p => p.1 = an).map Prod.snd))[pos]? = some idx := by
  simp only [trTbl, List.mem_flatMap, List.mem_map, Prod.mk.injEq] at h
  obtain ⟨an, _, ⟨idx, pos⟩, hz, rfl, rfl⟩ := h
  refine ⟨an, idx, pos, rfl, rfl, ?_⟩
  rw [List.mk_mem_zipIdx_iff_getElem?] at hz
  exact hz

theorem trGet_some {tbl : List (List Char × List Char)} {k v : List Char} (h : trGet tbl k = some v) :
    (k, v) ∈ tbl := by
  simp only [trGet, Option.map_eq_some_iff] at h
  obtain ⟨p, hp, rfl⟩ := h
  have h1 := List.mem_of_find?_eq_some hp
  have h2 := List.find?_some hp
  simp only [beq_iff_eq] at h2
  subst h2
  simpa using h1

/-- The position of an element in a strictly sorted list is the number of smaller elements. -/
theorem pos_eq {l : List Nat} (hp : l.Pairwise (· < ·)) {x pos : Nat} (h : l[pos]? = some x) :
    pos = (l.filter fun y => decide (y < x)).length := by
  induction l generalizing pos with
  | nil => simp at h
  | cons a l ih =>
    rw [List.pairwise_cons] at hp
    cases pos with
    | zero =>
      simp only [List.getElem?_cons_zero, Option.some.injEq] at h
      subst h
      symm
      rw [List.length_eq_zero_iff, List.filter_eq_nil_iff]
      intro y hy
      simp only [decide_eq_true_eq, not_lt]
      rcases List.mem_cons.mp hy with rfl | hy
      · exact Nat.le_refl _
      · exact (hp.1 y hy).le
    | succ pos =>
      simp only [List.getElem?_cons_succ] at h
      have hx : a < x := hp.1 x (List.mem_of_getElem? h)
      rw [List.filter_cons_of_pos (by simpa using hx), List.length_cons, ← ih hp.2 h]

section
variable {mods : List CMod} {num : CMod → Nat}

theorem nums_nodup (hnd : (mods.map CMod.cn).Nodup) (hv : ∀ m ∈ mods, IsVariant m (num m))
    (an : List Char) : (((mods.map fun m => (m.an, num m)).filter fun p => p.1 = an).map Prod.snd).Nodup := by
  rw [List.filter_map, List.map_map]
  have hsub : (mods.filter ((fun p : List Char × Nat => decide (p.1 = an)) ∘ fun m => (m.an, num m))).Sublist
      mods := List.filter_sublist
  have hnd' := (hsub.map CMod.cn).nodup hnd
  refine List.Nodup.map_on ?_ (List.Nodup.of_map _ hnd')
  intro x hx y hy hxy
  simp only [List.mem_filter, Function.comp_apply, decide_eq_true_eq] at hx hy hxy
  apply List.inj_on_of_nodup_map hnd hx.1 hy.1
  rw [hv x hx.1, hv y hy.1, hx.2, hy.2, hxy]

/-- What the table says about the modules: number `num` becomes the number of smaller ones. -/
theorem trGet_mod (hnd : (mods.map CMod.cn).Nodup) (hv : ∀ m ∈ mods, IsVariant m (num m))
    {m : CMod} (hm : m ∈ mods) {c : List Char}
    (h : trGet (trTbl (mods.map fun m => (m.an, num m))) m.cn = some c) :
    c = joinName m.an (rankOf mods num m) := by
  obtain ⟨an, idx, pos, h1, h2, h3⟩ := mem_trTbl (trGet_some h)
  obtain ⟨rfl, rfl⟩ := joinName_inj ((hv m hm).symm.trans h1)
  rw [h2]
  congr 1
  set nums := ((mods.map fun m => (m.an, num m)).filter fun p => p.1 = m.an).map Prod.snd with hnums
  have hn : nums.Nodup := nums_nodup hnd hv m.an
  have hperm := pySort_perm (le := fun a b => decide (a ≤ b)) nums
  have hsort : (pySort (fun a b => decide (a ≤ b)) nums).Pairwise (fun a b => decide (a ≤ b) = true) :=
    pySort_pairwise (by intro a b c; simp; omega) (by intro a b; simp; omega) nums
  have hstrict : (pySort (fun a b => decide (a ≤ b)) nums).Pairwise (· < ·) := by
    have hn' := hperm.nodup_iff.mpr hn
    refine (hsort.and hn').imp ?_
    intro a b ⟨h1, h2⟩
    simp only [decide_eq_true_eq] at h1
    omega
  rw [pos_eq hstrict h3, (hperm.filter _).length_eq, hnums, List.filter_map, List.length_map,
    List.filter_filter, List.filter_map, List.length_map, rankOf]
  congr 1
  apply List.filter_congr
  intro x _
  simp only [Function.comp_apply]
  by_cases ha : x.an = m.an <;> simp [ha]

theorem rankOf_inj (hnd : (mods.map CMod.cn).Nodup) (hv : ∀ m ∈ mods, IsVariant m (num m))
    {a b : CMod} (ha : a ∈ mods) (hb : b ∈ mods) (han : a.an = b.an)
    (h : rankOf mods num a = rankOf mods num b) : a = b := by
  have key : ∀ x ∈ mods, ∀ y ∈ mods, x.an = y.an → num x < num y → rankOf mods num x < rankOf mods num y := by
    intro x hx y hy hxy hlt
    unfold rankOf
    have hsub : (mods.filter fun z => decide (z.an = x.an ∧ num z < num x)).Sublist
        (mods.filter fun z => decide (z.an = y.an ∧ num z < num y)) := by
      apply List.monotone_filter_right
      intro z hz
      simp only [decide_eq_true_eq] at hz ⊢
      exact ⟨hz.1.trans hxy, by omega⟩
    rcases Nat.lt_or_eq_of_le hsub.length_le with h | h
    · exact h
    · exfalso
      have he := hsub.eq_of_length h
      have hxm : x ∈ mods.filter fun z => decide (z.an = y.an ∧ num z < num y) :=
        List.mem_filter.mpr ⟨hx, by simp [hxy, hlt]⟩
      rw [← he, List.mem_filter] at hxm
      simp at hxm
  have hnum : num a = num b := by
    rcases Nat.lt_trichotomy (num a) (num b) with hlt | he | hlt
    · have := key a ha b hb han hlt; omega
    · exact he
    · have := key b hb a ha han.symm hlt; omega
  apply List.inj_on_of_nodup_map hnd ha hb
  rw [hv a ha, hv b hb, han, hnum]

end

theorem forall₂_of_mapM {α β : Type} {f : α → Option β} : ∀ {l : List α} {r : List β},
    l.mapM f = some r → List.Forall₂ (fun a b => f a = some b) l r
  | [], r, h => by
    simp only [List.mapM_nil, Option.pure_def, Option.some.injEq] at h; subst h; exact .nil
  | a :: l, r, h => by
    simp only [List.mapM_cons, Option.pure_def, Option.bind_eq_bind, Option.bind_eq_some_iff,
      Option.some.injEq] at h
    obtain ⟨b, hb, bs, hbs, rfl⟩ := h
    exact .cons hb (forall₂_of_mapM hbs)

/-- How an instance is to be changed: a reference to a module follows the module's new name, a
reference to a leaf stays. -/
def InstFollows (mods : List CMod) (newName : CMod → List Char) (i i' : CInst) : Prop :=
  (∃ m ∈ mods, i.ctn = m.cn ∧ i'.ctn = newName m ∧ i'.atn = i.atn) ∨
  ((∀ m ∈ mods, i.ctn ≠ m.cn) ∧ i'.ctn = i.ctn ∧ i'.atn = i.ctn)

/-- **C34.**  Suppose the concrete names of the modules are distinct and the renaming returns.  Then
every module was variant `num m` of its abstract name; it becomes the variant whose number is the
count of variants of the same abstract name with a smaller number; its instances refer to what they
referred to before; different modules get different names.  The leaves stay, each with its concrete name as abstract name, as in
the instances. -/
theorem C34_renaming {v v' : PV} {tbl : List (List Char × List Char)}
    (hnd : (v.mods.map CMod.cn).Nodup) (h : changeNames v = some (v', tbl)) :
    ∃ num : CMod → Nat, (∀ m ∈ v.mods, IsVariant m (num m)) ∧
      List.Forall₂ (fun m m' => m'.an = m.an ∧ m'.cn = joinName m.an (rankOf v.mods num m) ∧
        List.Forall₂ (InstFollows v.mods fun x => joinName x.an (rankOf v.mods num x)) m.insts m'.insts)
        v.mods v'.mods ∧
      (v'.mods.map CMod.cn).Nodup ∧
      v'.leaves.map Prod.snd = v.leaves.map Prod.snd ∧ ∀ l ∈ v'.leaves, l.1 = l.2 := by
  simp only [changeNames, Option.bind_eq_some_iff, Option.map_eq_some_iff, Prod.mk.injEq] at h
  obtain ⟨sfx, hs, ms, hms, rfl, rfl⟩ := h
  obtain ⟨num, rfl, hnum⟩ := suffixes_spec hs
  have hf := forall₂_of_mapM hms
  -- every module's name is looked up, so it is written without leading zeros
  have hv : ∀ m ∈ v.mods, IsVariant m (num m) := by
    intro m hm
    obtain ⟨m', _, hmm⟩ : ∃ m', m' ∈ ms ∧ trMod (v.leaves.map Prod.snd)
        (trTbl (v.mods.map fun m => (m.an, num m))) m = some m' := by
      obtain ⟨hl, hz⟩ := List.forall₂_iff_zip.mp hf
      obtain ⟨k, hk, rfl⟩ := List.mem_iff_getElem.mp hm
      refine ⟨ms[k]'(by omega), List.getElem_mem _, hz ?_⟩
      rw [List.mem_iff_getElem]
      exact ⟨k, by simp; omega, by simp⟩
    simp only [trMod, Option.bind_eq_some_iff] at hmm
    obtain ⟨c, hc, _⟩ := hmm
    obtain ⟨an, idx, pos, h1, _, _⟩ := mem_trTbl (trGet_some hc)
    obtain ⟨s, h4, h5, h6⟩ := hnum m hm
    obtain ⟨e1, e2⟩ := split_last (no_underscore h5) (no_underscore (isDig_pyStr idx)) (h4.symm.trans h1)
    unfold IsVariant joinName
    rw [h6, e2, digitsVal_pyStr, ← e2, ← h4]
  have hkey : ∀ k, (trGet (trTbl (v.mods.map fun m => (m.an, num m))) k).isSome = true →
      ∃ m ∈ v.mods, k = m.cn := by
    intro k hk
    obtain ⟨c, hc⟩ := Option.isSome_iff_exists.mp hk
    obtain ⟨an, idx, pos, h1, _, h3⟩ := mem_trTbl (trGet_some hc)
    have := mem_pySort.mp (List.mem_of_getElem? h3)
    simp only [List.mem_map, List.mem_filter, decide_eq_true_eq] at this
    obtain ⟨p, ⟨⟨m, hm, rfl⟩, hp⟩, rfl⟩ := this
    exact ⟨m, hm, by rw [h1, hv m hm, ← hp]⟩
  have hfall : List.Forall₂ (fun m m' => m ∈ v.mods ∧ m'.an = m.an ∧
      m'.cn = joinName m.an (rankOf v.mods num m) ∧
      List.Forall₂ (InstFollows v.mods fun x => joinName x.an (rankOf v.mods num x)) m.insts m'.insts)
      v.mods ms := by
    have hmem : List.Forall₂ (fun m m' => m ∈ v.mods ∧ trMod (v.leaves.map Prod.snd)
        (trTbl (v.mods.map fun m => (m.an, num m))) m = some m') v.mods ms := by
      rw [List.forall₂_iff_zip] at hf ⊢
      exact ⟨hf.1, fun {a b} hab => ⟨(List.of_mem_zip hab).1, hf.2 hab⟩⟩
    refine hmem.imp ?_
    rintro m m' ⟨hm, ht⟩
    simp only [trMod, Option.bind_eq_some_iff, Option.map_eq_some_iff] at ht
    obtain ⟨c, hc, is, his, rfl⟩ := ht
    refine ⟨hm, rfl, trGet_mod hnd hv hm hc, (forall₂_of_mapM his).imp ?_⟩
    intro i i' hi
    simp only [trInst] at hi
    split at hi
    · split at hi
      · cases hi
      · rename_i hno
        simp only [Option.some.injEq] at hi
        subst hi
        right
        refine ⟨?_, rfl, rfl⟩
        intro m2 hm2 he
        apply hno
        have : ∃ m', m' ∈ ms ∧ trMod (v.leaves.map Prod.snd)
            (trTbl (v.mods.map fun m => (m.an, num m))) m2 = some m' := by
          obtain ⟨hl, hz⟩ := List.forall₂_iff_zip.mp hf
          obtain ⟨k, hk, rfl⟩ := List.mem_iff_getElem.mp hm2
          refine ⟨ms[k]'(by omega), List.getElem_mem _, hz ?_⟩
          rw [List.mem_iff_getElem]
          exact ⟨k, by simp; omega, by simp⟩
        obtain ⟨m', _, hm'⟩ := this
        simp only [trMod, Option.bind_eq_some_iff] at hm'
        obtain ⟨c2, hc2, _⟩ := hm'
        rw [he, hc2]; rfl
    · simp only [Option.map_eq_some_iff] at hi
      obtain ⟨c2, hc2, rfl⟩ := hi
      obtain ⟨m2, hm2, he⟩ := hkey i.ctn (by rw [hc2]; rfl)
      left
      rw [he] at hc2
      exact ⟨m2, hm2, he, trGet_mod hnd hv hm2 hc2, rfl⟩
  refine ⟨num, hv, hfall.imp fun _ _ h => h.2, ?_, ?_, ?_⟩
  rotate_left
  · rw [List.map_map]; rfl
  · intro l hl
    obtain ⟨x, _, rfl⟩ := List.mem_map.mp hl
    rfl
  have hcn : ms.map CMod.cn = v.mods.map fun m => joinName m.an (rankOf v.mods num m) := by
    have : ∀ (l : List CMod) (r : List CMod), List.Forall₂ (fun m m' => m ∈ v.mods ∧ m'.an = m.an ∧
        m'.cn = joinName m.an (rankOf v.mods num m) ∧
        List.Forall₂ (InstFollows v.mods fun x => joinName x.an (rankOf v.mods num x)) m.insts m'.insts)
        l r → r.map CMod.cn = l.map fun m => joinName m.an (rankOf v.mods num m) := by
      intro l r hlr
      induction hlr with
      | nil => rfl
      | cons h1 _ ih => simp [ih, h1.2.2.1]
    exact this _ _ hfall
  rw [hcn]
  refine List.Nodup.map_on ?_ (List.Nodup.of_map _ hnd)
  intro x hx y hy hxy
  obtain ⟨h1, h2⟩ := joinName_inj hxy
  exact rankOf_inj hnd hv hx hy h1 h2

/-- **C34, the numbers are dense and in order.**  With distinct concrete names, the numbers given to
the variants of an abstract name are exactly 0, 1, ..., count-1, and a variant with a smaller number
keeps a smaller number. -/
theorem C34_dense {mods : List CMod} {num : CMod → Nat} (hnd : (mods.map CMod.cn).Nodup)
    (hv : ∀ m ∈ mods, IsVariant m (num m)) (an : List Char) :
    (∀ k, (∃ m ∈ mods, m.an = an ∧ rankOf mods num m = k) ↔
      k < (mods.filter fun m => decide (m.an = an)).length) ∧
    ∀ a ∈ mods, ∀ b ∈ mods, a.an = an → b.an = an →
      (num a < num b ↔ rankOf mods num a < rankOf mods num b) := by
  have hinj : ∀ a ∈ mods, ∀ b ∈ mods, a.an = b.an → rankOf mods num a = rankOf mods num b → a = b :=
    fun a ha b hb => rankOf_inj hnd hv ha hb
  have hle : ∀ m ∈ mods, m.an = an → rankOf mods num m < (mods.filter fun m => decide (m.an = an)).length := by
    intro m hm ha
    unfold rankOf
    have hsub : (mods.filter fun z => decide (z.an = m.an ∧ num z < num m)).Sublist
        (mods.filter fun z => decide (z.an = an)) := by
      apply List.monotone_filter_right
      intro z hz
      simp only [decide_eq_true_eq] at hz ⊢
      exact hz.1.trans ha
    rcases Nat.lt_or_eq_of_le hsub.length_le with h | h
    · exact h
    · exfalso
      have he := hsub.eq_of_length h
      have hxm : m ∈ mods.filter fun z => decide (z.an = an) := List.mem_filter.mpr ⟨hm, by simp [ha]⟩
      rw [← he, List.mem_filter] at hxm
      simp at hxm
  constructor
  · intro k
    constructor
    · rintro ⟨m, hm, ha, rfl⟩; exact hle m hm ha
    · intro hk
      -- the ranks are distinct numbers below the count
      set L := mods.filter fun m => decide (m.an = an) with hL
      have hLnd : (L.map (rankOf mods num)).Nodup := by
        refine List.Nodup.map_on ?_ ((List.Nodup.of_map _ hnd).filter _)
        intro x hx y hy hxy
        simp only [hL, List.mem_filter, decide_eq_true_eq] at hx hy
        exact hinj x hx.1 y hy.1 (hx.2.trans hy.2.symm) hxy
      have hsub : (L.map (rankOf mods num)) ⊆ List.range L.length := by
        intro x hx
        obtain ⟨m, hm, rfl⟩ := List.mem_map.mp hx
        simp only [hL, List.mem_filter, decide_eq_true_eq] at hm
        exact List.mem_range.mpr (hle m hm.1 hm.2)
      have hperm : (L.map (rankOf mods num)).Perm (List.range L.length) :=
        (List.subperm_of_subset hLnd hsub).perm_of_length_le (by simp)
      have : k ∈ L.map (rankOf mods num) := hperm.mem_iff.mpr (List.mem_range.mpr hk)
      obtain ⟨m, hm, rfl⟩ := List.mem_map.mp this
      simp only [hL, List.mem_filter, decide_eq_true_eq] at hm
      exact ⟨m, hm.1, hm.2, rfl⟩
  · intro a ha b hb haa hba
    have key : ∀ x ∈ mods, ∀ y ∈ mods, x.an = an → y.an = an → num x < num y →
        rankOf mods num x < rankOf mods num y := by
      intro x hx y hy hxa hya hlt
      have hle' : rankOf mods num x ≤ rankOf mods num y := by
        unfold rankOf
        refine (List.Sublist.length_le ?_)
        apply List.monotone_filter_right
        intro z hz
        simp only [decide_eq_true_eq] at hz ⊢
        exact ⟨hz.1.trans (hxa.trans hya.symm), by omega⟩
      rcases Nat.lt_or_eq_of_le hle' with h | h
      · exact h
      · have := hinj x hx y hy (hxa.trans hya.symm) h
        subst this
        omega
    constructor
    · exact key a ha b hb haa hba
    · intro h
      by_contra hlt
      rcases Nat.lt_or_eq_of_le (Nat.not_lt.mp hlt) with h' | h'
      · have := key b hb a ha hba haa h'; omega
      · have : a = b := by
          apply List.inj_on_of_nodup_map hnd ha hb
          rw [hv a ha, hv b hb, haa, hba, h']
        subst this
        omega

/-- A placement with variants 3 and 1 of `A`, and a leaf. -/
def namesExample : PV :=
  ⟨[⟨"top".toList, "top_5".toList, [⟨"A_3".toList, "A".toList⟩, ⟨"leaf_X1".toList, "leaf".toList⟩]⟩,
    ⟨"A".toList, "A_3".toList, [⟨"leaf_X1".toList, "leaf".toList⟩]⟩, ⟨"A".toList, "A_1".toList, []⟩],
   [("leaf".toList, "leaf_X1".toList)]⟩

example : (namesExample.mods.map CMod.cn).Nodup ∧
    (changeNames namesExample).map (fun r => r.1.mods.map fun m => (String.ofList m.cn, m.insts.map fun i =>
      String.ofList i.ctn)) =
      some [("top_0", ["A_1", "leaf_X1"]), ("A_1", ["leaf_X1"]), ("A_0", [])] := by
  decide +kernel

/-- **A new name can be the name of a leaf.**  Only the old names are compared with the leaves: module
`m_1` becomes `m_0` although there is a leaf `m_0`, and the reference in `top` becomes ambiguous. -/
theorem C34_note_leaf_collision :
    ∃ v v' tbl, changeNames v = some (v', tbl) ∧ (v.mods.map CMod.cn ++ v.leaves.map Prod.snd).Nodup ∧
      ¬ (v'.mods.map CMod.cn ++ v'.leaves.map Prod.snd).Nodup := by
  refine ⟨⟨[⟨"top".toList, "top_0".toList, [⟨"m_1".toList, "m".toList⟩, ⟨"m_0".toList, "l".toList⟩]⟩,
    ⟨"m".toList, "m_1".toList, []⟩], [("l".toList, "m_0".toList)]⟩, _, _, rfl, ?_, ?_⟩
  · decide +kernel
  · decide +kernel

end Verif.Pnr

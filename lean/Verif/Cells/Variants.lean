import Verif.Pnr.Names
import Verif.Hier.HpwlProps
import Mathlib.NumberTheory.Divisors
import Mathlib.Data.Nat.Sqrt
import Mathlib.Data.Finset.Card

/-!
# C49: variants of transistor arrays

Model of `align/pdk/finfet/gen_param.py` (10-108, 149-157) and of `validate_array`
(`align/pdk/finfet/transistor_array.py` 433-446).

Simplifications: `floor(sqrt(m))` is the exact integer root (true of doubles up to 2^52).  The set of
pairs is a list without duplicates; the order in which a set is walked is not fixed, and nothing below
depends on it.  The distances that `limit_pairs` computes from logarithms are a parameter.
-/

namespace Verif.Cells

open Verif.Pnr (pyStr digitsVal_pyStr isDig_pyStr)

abbrev Name := List Char

/-! ## Model -/

/-- The loop of `x_by_y` (gen_param.py 150-155) from `y` downwards. -/
def xByYLoop (m : Nat) : Nat → Option (Nat × Nat)
  | 0 => none
  | y + 1 =>
    if y + 1 = 1 then some (m, 1)
    else if m % (y + 1) = 0 then some (m / (y + 1), y + 1) else xByYLoop m y

/-- `x_by_y` (gen_param.py 149-155); `none`: the loop ends without returning, so that unpacking the
result in line 157 fails. -/
def xByY (m : Nat) : Option (Nat × Nat) := xByYLoop m (Nat.sqrt m)

/-- The loop of `validate_array` (transistor_array.py 441-446). -/
def validateLoop (m : Nat) : Nat → Option (Nat × Nat)
  | 0 => none
  | y + 1 =>
    if y + 1 = 1 then some (1, m)
    else if m % (y + 1) = 0 then some (y + 1, m / (y + 1)) else validateLoop m y

/-- `validate_array` (transistor_array.py 434-446): rows and columns. -/
def validateArray (m nRow nCol : Nat) : Option (Nat × Nat) :=
  if nRow * nCol = m then some (nRow, nCol) else validateLoop m (Nat.sqrt m)

/-- The factor pairs (gen_param.py 61-69), `y` going down from `floor(sqrt(m))`. -/
def pairsLoop (m : Nat) : Nat → List (Nat × Nat) → List (Nat × Nat)
  | 0, s => s
  | y + 1, s =>
    let s' := if m % (y + 1) = 0 then List.insert (m / (y + 1), y + 1) (List.insert (y + 1, m / (y + 1)) s) else s
    if y + 1 = 1 then s' else pairsLoop m y s'

def pairsOf (m : Nat) : List (Nat × Nat) := pairsLoop m (Nat.sqrt m) []

/-- Comparison of tuples `(d, (x, y))`. -/
def ltBy (d : Nat × Nat → Rat) (p q : Nat × Nat) : Bool :=
  decide (d p < d q ∨ (d p = d q ∧ (p.1 < q.1 ∨ (p.1 = q.1 ∧ p.2 < q.2))))

/-- `min(...)[1]` (gen_param.py 16-17) of a non-empty collection. -/
def bestPair (d : Nat × Nat → Rat) : List (Nat × Nat) → Option (Nat × Nat)
  | [] => none
  | p :: ps => some (ps.foldl (fun b q => if ltBy d q b then q else b) p)

/-- `limit_pairs` (gen_param.py 10-21). -/
def limitPairs (d : Nat → Nat × Nat → Rat) (pairs : List (Nat × Nat)) : List (Nat × Nat) :=
  if pairs.length > 12 then [0, 1, 2].filterMap fun i => bestPair (d i) pairs else pairs

/-- `construct_sizes_from_exact_patterns` (gen_param.py 24-35): the keys.  `none`: an empty pattern, a
pattern without devices, or the failed assertion.  (`upper` is that of ASCII letters.) -/
def patternSize (pattern : List (List Char)) : Option (Nat × Nat) :=
  match pattern with
  | [] => none
  | row :: _ =>
    let devices := (pattern.flatten.map Char.toUpper).eraseDups.length
    if devices = 0 then none else some (row.length / devices, pattern.length)

def patternSizes (patterns : List (List (List Char))) : Option (List (Nat × Nat)) :=
  patterns.foldlM (fun acc p => (patternSize p).bind fun k => if k ∈ acc then none else some (acc ++ [k])) []

/-- `check_legal` (gen_param.py 38-47); the dictionaries of legal sizes have optional `x` and `y`. -/
def checkLegal (x y : Nat) (legal : List (Option Nat × Option Nat)) : Bool :=
  legal.any fun d => (d.1.all (· == x)) && (d.2.all (· == y))

/-- The restrictions of the `Generator` constraint (74-81). -/
inductive Restr
  | free
  | sizes (legal : List (Option Nat × Option Nat))
  | patterns (ps : List (List (List Char)))

/-- `block_args`; `cells` are `x_cells` and `y_cells`. -/
structure BlockArgs where
  cells : Option (Nat × Nat)
  rest : List Char
deriving DecidableEq

structure Entry where
  cells : Option (Nat × Nat)
  rest : List Char
  abstractName : Name
  concreteName : Name
deriving DecidableEq

abbrev Prims := List (Name × Entry)

/-- `f'{block_name}_X{newx}_Y{newy}'` -/
def variantName (block : Name) (p : Nat × Nat) : Name :=
  block ++ '_' :: 'X' :: pyStr p.1 ++ '_' :: 'Y' :: pyStr p.2

/-- Lines 98-103. -/
def addVariant (block : Name) (args : BlockArgs) (prims : Prims) (p : Nat × Nat) : Prims :=
  if (prims.lookup (variantName block p)).isSome then prims
  else prims ++ [(variantName block p, ⟨some p, args.rest, block, variantName block p⟩)]

/-- The pairs for which a variant is added (71-97). -/
def chosen (d : Nat → Nat × Nat → Rat) (m : Nat) : Restr → Option (List (Nat × Nat))
  | .free => some (limitPairs d (pairsOf m))
  | .sizes legal => some ((pairsOf m).filter fun p => checkLegal p.1 p.2 legal)
  | .patterns ps => (patternSizes ps).map fun ks => (pairsOf m).filter fun p => ks.contains p

/-- `add_primitive` (gen_param.py 50-108). -/
def addPrimitive (d : Nat → Nat × Nat → Rat) (prims : Prims) (block : Name) (args : BlockArgs) (r : Restr) :
    Option Prims :=
  match prims.lookup block with
  | some e => if e = ⟨args.cells, args.rest, block, block⟩ then some prims else none
  | none =>
    match args.cells with
    | some (x, y) => (chosen d (x * y) r).map fun ps => ps.foldl (addVariant block args) prims
    | none => some (prims ++ [(block, ⟨none, args.rest, block, block⟩)])

/-- `gen_param` for transistors (gen_param.py 146-157, 187-194): `m` units. -/
def genArray (d : Nat → Nat × Nat → Rat) (prims : Prims) (block : Name) (m : Nat) (rest : List Char)
    (r : Restr) : Option Prims :=
  (xByY m).bind fun xy => addPrimitive d prims block ⟨some xy, rest⟩ r

/-! ## Specification -/

/-- The size an array must have to hold a pattern: `n` devices, told apart by their letter without regard to case, take turns
in each row. -/
def SizeOf (pat : List (List Char)) (p : Nat × Nat) : Prop :=
  ∃ (row : List Char) (letters : Finset Char), pat.head? = some row ∧ letters.Nonempty ∧
    (∀ u, u ∈ letters ↔ ∃ row' ∈ pat, ∃ x ∈ row', x.toUpper = u) ∧
    p = (row.length / letters.card, pat.length)

/-- The sizes a restriction admits. -/
def Admits : Restr → Nat × Nat → Prop
  | .free, _ => True
  | .sizes legal, p => ∃ d ∈ legal, (∀ x, d.1 = some x → x = p.1) ∧ (∀ y, d.2 = some y → y = p.2)
  | .patterns ps, p => ∃ pat ∈ ps, SizeOf pat p

/-! ## Proofs -/

theorem xByYLoop_spec {m : Nat} : ∀ {y : Nat}, y ≤ Nat.sqrt m → ∀ {p}, xByYLoop m y = some p →
    p.1 * p.2 = m ∧ p.2 ≤ p.1 ∧ 0 < p.2
  | 0, _, p, h => by cases h
  | y + 1, hy, p, h => by
    have hsq := Nat.le_sqrt.mp hy
    simp only [xByYLoop] at h
    split at h
    · simp only [Option.some.injEq] at h; subst h
      rename_i h1
      rw [h1] at hsq
      exact ⟨by simp, by simpa using hsq, by simp⟩
    · split at h
      · rename_i hm
        simp only [Option.some.injEq] at h; subst h
        refine ⟨Nat.div_mul_cancel (Nat.dvd_of_mod_eq_zero hm), ?_, by simp⟩
        exact (Nat.le_div_iff_mul_le (by omega)).mpr hsq
      · exact xByYLoop_spec (by omega) h

theorem xByYLoop_isSome (m : Nat) : ∀ y, 0 < y → (xByYLoop m y).isSome = true
  | 0, h => by omega
  | y + 1, _ => by
    simp only [xByYLoop]
    split
    · rfl
    · split
      · rfl
      · exact xByYLoop_isSome m y (by omega)

/-- **C49, initial size.**  For a positive number of units the initial size is a factorisation, at
least as wide as high. -/
theorem C49_initial_size (m : Nat) :
    (0 < m → ∃ x y, xByY m = some (x, y)) ∧
    ∀ x y, xByY m = some (x, y) → x * y = m ∧ y ≤ x ∧ 0 < y := by
  constructor
  · intro h
    have := xByYLoop_isSome m (Nat.sqrt m) (Nat.sqrt_pos.mpr h)
    obtain ⟨⟨x, y⟩, hp⟩ := Option.isSome_iff_exists.mp this
    exact ⟨x, y, hp⟩
  · intro x y h
    exact xByYLoop_spec (Nat.le_refl _) h

example : xByY 12 = some (4, 3) ∧ xByY 7 = some (7, 1) := by decide +kernel

theorem validateLoop_spec {m : Nat} : ∀ {y : Nat} {p}, validateLoop m y = some p → p.1 * p.2 = m
  | 0, p, h => by cases h
  | y + 1, p, h => by
    simp only [validateLoop] at h
    split at h
    · simp only [Option.some.injEq] at h; subst h; simp
    · split at h
      · rename_i hm
        simp only [Option.some.injEq] at h; subst h
        exact Nat.mul_div_cancel' (Nat.dvd_of_mod_eq_zero hm)
      · exact validateLoop_spec h

theorem validateLoop_isSome (m : Nat) : ∀ y, 0 < y → (validateLoop m y).isSome = true
  | 0, h => by omega
  | y + 1, _ => by
    simp only [validateLoop]
    split
    · rfl
    · split
      · rfl
      · exact validateLoop_isSome m y (by omega)

/-- **C49, legalisation.**  For a positive number of cells the array gets exactly that many cells, and
a fitting request is left alone. -/
theorem C49_validate (m nRow nCol : Nat) :
    (0 < m → ∃ r c, validateArray m nRow nCol = some (r, c)) ∧
    (∀ r c, validateArray m nRow nCol = some (r, c) → r * c = m) ∧
    (nRow * nCol = m → validateArray m nRow nCol = some (nRow, nCol)) := by
  refine ⟨?_, ?_, ?_⟩
  · intro h
    unfold validateArray
    split
    · exact ⟨_, _, rfl⟩
    · have := validateLoop_isSome m (Nat.sqrt m) (Nat.sqrt_pos.mpr h)
      obtain ⟨⟨x, y⟩, hp⟩ := Option.isSome_iff_exists.mp this
      exact ⟨x, y, hp⟩
  · intro r c h
    unfold validateArray at h
    split at h
    · rename_i he
      simp only [Option.some.injEq, Prod.mk.injEq] at h
      obtain ⟨rfl, rfl⟩ := h
      exact he
    · exact validateLoop_spec h
  · intro h
    simp [validateArray, h]

example : validateArray 12 5 2 = some (3, 4) ∧ validateArray 12 2 6 = some (2, 6) := by decide +kernel

theorem mem_pairsLoop {m : Nat} : ∀ {y : Nat} {s : List (Nat × Nat)} {p : Nat × Nat},
    p ∈ pairsLoop m y s ↔ p ∈ s ∨ ∃ k, 0 < k ∧ k ≤ y ∧ m % k = 0 ∧ (p = (k, m / k) ∨ p = (m / k, k))
  | 0, s, p => by
    simp only [pairsLoop]
    constructor
    · exact Or.inl
    · rintro (h | ⟨k, h1, h2, _⟩)
      · exact h
      · omega
  | y + 1, s, p => by
    simp only [pairsLoop]
    have hins : ∀ q : Nat × Nat, (q ∈ (if m % (y + 1) = 0 then
        List.insert (m / (y + 1), y + 1) (List.insert (y + 1, m / (y + 1)) s) else s) ↔
        q ∈ s ∨ (m % (y + 1) = 0 ∧ (q = (y + 1, m / (y + 1)) ∨ q = (m / (y + 1), y + 1)))) := by
      intro q
      split
      · rename_i h
        simp only [List.mem_insert_iff, h, true_and]
        tauto
      · rename_i h
        simp [h]
    split
    · rename_i hy
      have hy0 : y = 0 := by omega
      subst hy0
      rw [hins]
      constructor
      · rintro (h | ⟨h1, h2⟩)
        · exact Or.inl h
        · exact Or.inr ⟨1, by omega, by omega, h1, h2⟩
      · rintro (h | ⟨k, h1, h2, h3, h4⟩)
        · exact Or.inl h
        · have : k = 1 := by omega
          subst this
          exact Or.inr ⟨h3, h4⟩
    · rw [mem_pairsLoop, hins]
      constructor
      · rintro ((h | ⟨h1, h2⟩) | ⟨k, h1, h2, h3⟩)
        · exact Or.inl h
        · exact Or.inr ⟨y + 1, by omega, by omega, h1, h2⟩
        · exact Or.inr ⟨k, h1, by omega, h3⟩
      · rintro (h | ⟨k, h1, h2, h3, h4⟩)
        · exact Or.inl (Or.inl h)
        · rcases Nat.lt_or_eq_of_le h2 with h | rfl
          · exact Or.inr ⟨k, h1, by omega, h3, h4⟩
          · exact Or.inl (Or.inr ⟨h3, h4⟩)

theorem nodup_pairsLoop {m : Nat} : ∀ {y : Nat} {s : List (Nat × Nat)}, s.Nodup → (pairsLoop m y s).Nodup
  | 0, _, h => h
  | y + 1, s, h => by
    simp only [pairsLoop]
    have h' : (if m % (y + 1) = 0 then
        List.insert (m / (y + 1), y + 1) (List.insert (y + 1, m / (y + 1)) s) else s).Nodup := by
      split
      · exact (h.insert).insert
      · exact h
    split
    · exact h'
    · exact nodup_pairsLoop h'

theorem mem_pairsOf {m : Nat} {p : Nat × Nat} : p ∈ pairsOf m ↔ 0 < m ∧ p.1 * p.2 = m := by
  unfold pairsOf
  rw [mem_pairsLoop]
  simp only [List.not_mem_nil, false_or]
  constructor
  · rintro ⟨k, h1, h2, h3, h4⟩
    have hk := Nat.le_sqrt.mp h2
    have hm : 0 < m := lt_of_lt_of_le (Nat.mul_pos h1 h1) hk
    have hd := Nat.dvd_of_mod_eq_zero h3
    rcases h4 with rfl | rfl
    · exact ⟨hm, Nat.mul_div_cancel' hd⟩
    · exact ⟨hm, Nat.div_mul_cancel hd⟩
  · rintro ⟨hm, hp⟩
    obtain ⟨a, b⟩ := p
    simp only at hp
    have ha : 0 < a := Nat.pos_of_ne_zero (by rintro rfl; simp at hp; omega)
    have hb : 0 < b := Nat.pos_of_ne_zero (by rintro rfl; simp at hp; omega)
    rcases Nat.le_total a b with hab | hab
    · refine ⟨a, ha, Nat.le_sqrt.mpr (by rw [← hp]; exact Nat.mul_le_mul_left a hab), by rw [← hp]; simp, Or.inl ?_⟩
      rw [← hp, Nat.mul_div_cancel_left b ha]
    · refine ⟨b, hb, Nat.le_sqrt.mpr (by rw [← hp]; exact Nat.mul_le_mul_right b hab), by rw [← hp]; simp, Or.inr ?_⟩
      rw [← hp, Nat.mul_div_cancel a hb]

theorem length_pairsOf (m : Nat) : (pairsOf m).length = (Nat.divisorsAntidiagonal m).card := by
  have hnd : (pairsOf m).Nodup := nodup_pairsLoop List.nodup_nil
  rw [← List.toFinset_card_of_nodup hnd]
  congr 1
  ext p
  rw [List.mem_toFinset, mem_pairsOf, Nat.mem_divisorsAntidiagonal]
  constructor
  · rintro ⟨h1, h2⟩; exact ⟨h2, by omega⟩
  · rintro ⟨h1, h2⟩; exact ⟨by omega, h1⟩

theorem bestPair_mem {d : Nat × Nat → Rat} {l : List (Nat × Nat)} {p} (h : bestPair d l = some p) : p ∈ l := by
  cases l with
  | nil => cases h
  | cons q l =>
    simp only [bestPair, Option.some.injEq] at h
    subst h
    have : ∀ (l : List (Nat × Nat)) (b : Nat × Nat),
        l.foldl (fun b q => if ltBy d q b then q else b) b ∈ b :: l := by
      intro l
      induction l with
      | nil => intro b; simp
      | cons a l ih =>
        intro b
        rw [List.foldl_cons]
        have := ih (if ltBy d a b then a else b)
        rw [List.mem_cons] at this ⊢
        rcases this with h | h
        · rw [h]
          split
          · right; exact List.mem_cons_self
          · left; rfl
        · right; exact List.mem_cons_of_mem _ h
    exact this l q

theorem checkLegal_iff {x y : Nat} {legal : List (Option Nat × Option Nat)} :
    checkLegal x y legal = true ↔
      ∃ d ∈ legal, (∀ a, d.1 = some a → a = x) ∧ (∀ b, d.2 = some b → b = y) := by
  simp only [checkLegal, List.any_eq_true, Bool.and_eq_true]
  constructor
  · rintro ⟨d, hd, h1, h2⟩
    refine ⟨d, hd, ?_, ?_⟩
    · intro a ha; rw [ha] at h1; simpa using h1
    · intro a ha; rw [ha] at h2; simpa using h2
  · rintro ⟨d, hd, h1, h2⟩
    refine ⟨d, hd, ?_, ?_⟩
    · cases he : d.1 with
      | none => rfl
      | some a => simpa using h1 a he
    · cases he : d.2 with
      | none => rfl
      | some a => simpa using h2 a he

theorem patternSize_iff {pat : List (List Char)} {p : Nat × Nat} : patternSize pat = some p ↔ SizeOf pat p := by
  unfold patternSize SizeOf
  cases pat with
  | nil => simp
  | cons row rows =>
    have hmem : ∀ u, u ∈ (((row :: rows).flatten.map Char.toUpper).eraseDups).toFinset ↔
        ∃ row' ∈ row :: rows, ∃ x ∈ row', x.toUpper = u := by
      intro u
      rw [List.mem_toFinset, List.mem_eraseDups, List.mem_map]
      constructor
      · rintro ⟨x, hx, rfl⟩
        obtain ⟨r, hr, hxr⟩ := List.mem_flatten.mp hx
        exact ⟨r, hr, x, hxr, rfl⟩
      · rintro ⟨r, hr, x, hxr, rfl⟩
        exact ⟨x, List.mem_flatten.mpr ⟨r, hr, hxr⟩, rfl⟩
    have hcard : (((row :: rows).flatten.map Char.toUpper).eraseDups).toFinset.card =
        (((row :: rows).flatten.map Char.toUpper).eraseDups).length :=
      List.toFinset_card_of_nodup (Hier.nodup_eraseDups _ _ le_rfl)
    dsimp only
    rw [← hcard]
    generalize hL : (((row :: rows).flatten.map Char.toUpper).eraseDups).toFinset = L at hmem
    constructor
    · intro h
      split at h
      · cases h
      · next hne =>
        simp only [Option.some.injEq] at h
        exact ⟨row, L, rfl, Finset.card_ne_zero.mp hne, hmem, h.symm⟩
    · rintro ⟨row', L', h1, h2, h3, rfl⟩
      simp only [List.head?_cons, Option.some.injEq] at h1
      subst h1
      have : L' = L := by
        ext u
        rw [h3, hmem]
      subst this
      rw [if_neg (Finset.card_ne_zero.mpr h2)]

theorem mem_patternSizes {ps : List (List (List Char))} {ks : List (Nat × Nat)}
    (h : patternSizes ps = some ks) (p : Nat × Nat) :
    p ∈ ks ↔ ∃ pat ∈ ps, SizeOf pat p := by
  simp only [← patternSize_iff]
  have gen : ∀ (ps : List (List (List Char))) (acc ks : List (Nat × Nat)),
      ps.foldlM (fun acc p => (patternSize p).bind fun k => if k ∈ acc then none else some (acc ++ [k])) acc
        = some ks → (p ∈ ks ↔ p ∈ acc ∨ ∃ pat ∈ ps, patternSize pat = some p) := by
    intro ps
    induction ps with
    | nil =>
      intro acc ks h
      simp only [List.foldlM_nil, Option.pure_def, Option.some.injEq] at h
      subst h; simp
    | cons q ps ih =>
      intro acc ks h
      simp only [List.foldlM_cons, Option.bind_eq_bind, Option.bind_eq_some_iff] at h
      obtain ⟨acc', ⟨k, hk, hacc⟩, hrest⟩ := h
      split at hacc
      · cases hacc
      · simp only [Option.some.injEq] at hacc
        subst hacc
        rw [ih _ _ hrest, List.mem_append, List.mem_singleton]
        simp only [List.mem_cons, exists_eq_or_imp, hk, Option.some.injEq]
        rw [or_assoc]
        constructor
        · rintro (h | rfl | h)
          · exact Or.inl h
          · exact Or.inr (Or.inl rfl)
          · exact Or.inr (Or.inr h)
        · rintro (h | rfl | h)
          · exact Or.inl h
          · exact Or.inr (Or.inl rfl)
          · exact Or.inr (Or.inr h)
  rw [gen ps [] ks h]; simp

theorem patternSizes_isSome {ps : List (List (List Char))} (h1 : ∀ pat ∈ ps, ∃ p, SizeOf pat p)
    (h2 : ps.Pairwise fun a b => ∀ p, SizeOf a p → ¬ SizeOf b p) : (patternSizes ps).isSome = true := by
  have gen : ∀ (ps : List (List (List Char))) (acc : List (Nat × Nat)), (∀ pat ∈ ps, ∃ p, SizeOf pat p) →
      (ps.Pairwise fun a b => ∀ p, SizeOf a p → ¬ SizeOf b p) → (∀ p ∈ acc, ∀ pat ∈ ps, ¬ SizeOf pat p) →
      (ps.foldlM (fun acc p => (patternSize p).bind fun k => if k ∈ acc then none else some (acc ++ [k])) acc).isSome := by
    intro ps
    induction ps with
    | nil => intro acc _ _ _; rfl
    | cons q ps ih =>
      intro acc h1 h2 h3
      obtain ⟨k, hk⟩ := h1 q List.mem_cons_self
      rw [List.pairwise_cons] at h2
      have hk' : k ∉ acc := fun hka => h3 k hka q List.mem_cons_self hk
      simp only [List.foldlM_cons, patternSize_iff.mpr hk, Option.bind_some, if_neg hk', Option.bind_eq_bind]
      refine ih _ (fun pat hp => h1 pat (List.mem_cons_of_mem _ hp)) h2.2 ?_
      intro p hp pat hpat
      rcases List.mem_append.mp hp with hp | hp
      · exact h3 p hp pat (List.mem_cons_of_mem _ hpat)
      · rw [List.mem_singleton] at hp
        subst hp
        exact h2.1 pat hpat p hk
  exact gen ps [] h1 h2 (by simp)

theorem chosen_sound {d} {m : Nat} {r : Restr} {ps} (h : chosen d m r = some ps) {p} (hp : p ∈ ps) :
    0 < m ∧ p.1 * p.2 = m ∧ Admits r p := by
  cases r with
  | free =>
    simp only [chosen, Option.some.injEq] at h
    subst h
    have : p ∈ pairsOf m := by
      unfold limitPairs at hp
      split at hp
      · simp only [List.mem_filterMap] at hp
        obtain ⟨i, _, hi⟩ := hp
        exact bestPair_mem hi
      · exact hp
    exact ⟨(mem_pairsOf.mp this).1, (mem_pairsOf.mp this).2, trivial⟩
  | sizes legal =>
    simp only [chosen, Option.some.injEq] at h
    subst h
    rw [List.mem_filter, mem_pairsOf, checkLegal_iff] at hp
    exact ⟨hp.1.1, hp.1.2, hp.2⟩
  | patterns pats =>
    simp only [chosen, Option.map_eq_some_iff] at h
    obtain ⟨ks, hks, rfl⟩ := h
    rw [List.mem_filter, mem_pairsOf] at hp
    exact ⟨hp.1.1, hp.1.2, (mem_patternSizes hks p).mp (by simpa using hp.2)⟩

theorem chosen_complete {d} {m : Nat} {r : Restr} {ps} (h : chosen d m r = some ps) (hm : 0 < m)
    (hfew : (∃ l, r = .sizes l) ∨ (∃ l, r = .patterns l) ∨ (Nat.divisorsAntidiagonal m).card ≤ 12)
    {p : Nat × Nat} (hp : p.1 * p.2 = m) (ha : Admits r p) : p ∈ ps := by
  have hmem : p ∈ pairsOf m := mem_pairsOf.mpr ⟨hm, hp⟩
  cases r with
  | free =>
    simp only [chosen, Option.some.injEq] at h
    subst h
    rcases hfew with ⟨l, hl⟩ | ⟨l, hl⟩ | hl
    · cases hl
    · cases hl
    · rw [← length_pairsOf] at hl
      unfold limitPairs
      rw [if_neg (by omega)]
      exact hmem
  | sizes legal =>
    simp only [chosen, Option.some.injEq] at h
    subst h
    rw [List.mem_filter, checkLegal_iff]
    exact ⟨hmem, ha⟩
  | patterns pats =>
    simp only [chosen, Option.map_eq_some_iff] at h
    obtain ⟨ks, hks, rfl⟩ := h
    rw [List.mem_filter]
    exact ⟨hmem, by simpa using (mem_patternSizes hks p).mpr ha⟩

theorem variantName_inj {block : Name} {p q : Nat × Nat} (h : variantName block p = variantName block q) :
    p = q := by
  unfold variantName at h
  rw [List.append_assoc, List.append_assoc] at h
  have h := List.append_cancel_left h
  simp only [List.cons_append, List.cons.injEq, true_and] at h
  -- the part after the last underscore is `Y` and the digits
  have hu : ∀ n, '_' ∉ 'Y' :: pyStr n := by
    intro n hn
    rcases List.mem_cons.mp hn with h | h
    · exact absurd h (by decide)
    · exact Verif.Pnr.no_underscore (isDig_pyStr n) h
  obtain ⟨h1, h2⟩ := Verif.Pnr.split_last (hu p.2) (hu q.2) h
  simp only [List.cons.injEq, true_and] at h2
  refine Prod.ext ?_ ?_
  · rw [← digitsVal_pyStr p.1, h1, digitsVal_pyStr]
  · rw [← digitsVal_pyStr p.2, h2, digitsVal_pyStr]

theorem lookup_isSome_iff {β : Type} {l : List (Name × β)} {k : Name} :
    (l.lookup k).isSome = true ↔ k ∈ l.map Prod.fst := by
  induction l with
  | nil => simp
  | cons a l ih =>
    obtain ⟨a, b⟩ := a
    simp only [List.lookup_cons, List.map_cons, List.mem_cons]
    split
    · rename_i h; simp only [beq_iff_eq] at h; simp [h]
    · rename_i h
      simp only [beq_eq_false_iff_ne] at h
      rw [ih]
      constructor
      · exact Or.inr
      · rintro (h' | h')
        · exact absurd h' h
        · exact h'

theorem addVariants_spec (block : Name) (args : BlockArgs) : ∀ (ps : List (Nat × Nat)) (prims : Prims),
    ∃ new, ps.foldl (addVariant block args) prims = prims ++ new ∧
      (∀ e ∈ new, ∃ p ∈ ps, e = (variantName block p, ⟨some p, args.rest, block, variantName block p⟩)) ∧
      (∀ p ∈ ps, variantName block p ∈ (prims ++ new).map Prod.fst) ∧
      ((prims.map Prod.fst).Nodup → ((prims ++ new).map Prod.fst).Nodup)
  | [], prims => ⟨[], by simp⟩
  | p :: ps, prims => by
    rw [List.foldl_cons]
    by_cases h : (prims.lookup (variantName block p)).isSome
    · have hadd : addVariant block args prims p = prims := by simp [addVariant, h]
      obtain ⟨new, h1, h2, h3, h4⟩ := addVariants_spec block args ps prims
      refine ⟨new, by rw [hadd, h1], ?_, ?_, h4⟩
      · intro e he
        obtain ⟨q, hq, he⟩ := h2 e he
        exact ⟨q, List.mem_cons_of_mem _ hq, he⟩
      · intro q hq
        rcases List.mem_cons.mp hq with rfl | hq
        · rw [List.map_append, List.mem_append]
          exact Or.inl (lookup_isSome_iff.mp h)
        · exact h3 q hq
    · have hadd : addVariant block args prims p =
          prims ++ [(variantName block p, ⟨some p, args.rest, block, variantName block p⟩)] := by
        simp only [addVariant, h]; rfl
      obtain ⟨new, h1, h2, h3, h4⟩ := addVariants_spec block args ps (addVariant block args prims p)
      refine ⟨(variantName block p, ⟨some p, args.rest, block, variantName block p⟩) :: new, ?_, ?_, ?_, ?_⟩
      · rw [h1, hadd]; simp
      · intro e he
        rcases List.mem_cons.mp he with rfl | he
        · exact ⟨p, List.mem_cons_self, rfl⟩
        · obtain ⟨q, hq, he⟩ := h2 e he
          exact ⟨q, List.mem_cons_of_mem _ hq, he⟩
      · intro q hq
        rcases List.mem_cons.mp hq with rfl | hq
        · simp
        · have := h3 q hq
          rw [hadd] at this
          simpa using this
      · intro hnd
        have hnot : variantName block p ∉ prims.map Prod.fst := fun hm => h (lookup_isSome_iff.mpr hm)
        have := h4 (by
          rw [hadd, List.map_append]
          refine List.Nodup.append hnd (by simp) ?_
          intro x hx hx'
          simp only [List.map_cons, List.map_nil, List.mem_singleton] at hx'
          subst hx'
          exact hnot hx)
        rw [hadd] at this
        simpa using this

/-- **C49.**  Generating an array of `m` units leaves what was there alone and adds entries: each is a
variant with `x_cells * y_cells = m`, of a size that the restriction admits, and with a name
that tells its size; no name occurs twice. -/
theorem C49_variants {d : Nat → Nat × Nat → Rat} {prims prims' : Prims} {block : Name} {m : Nat}
    {rest : List Char} {r : Restr} (hfresh : block ∉ prims.map Prod.fst) (hnd : (prims.map Prod.fst).Nodup)
    (h : genArray d prims block m rest r = some prims') :
    ∃ new, prims' = prims ++ new ∧ (prims'.map Prod.fst).Nodup ∧
      ∀ e ∈ new, ∃ x y, x * y = m ∧ 0 < m ∧ Admits r (x, y) ∧
        e = (variantName block (x, y), ⟨some (x, y), rest, block, variantName block (x, y)⟩) := by
  simp only [genArray, Option.bind_eq_some_iff] at h
  obtain ⟨⟨x0, y0⟩, hxy, h⟩ := h
  have hm := ((C49_initial_size m).2 x0 y0 hxy).1
  have hl : prims.lookup block = none := by
    by_contra hne
    exact hfresh (lookup_isSome_iff.mp (by rw [Option.isSome_iff_ne_none]; exact hne))
  simp only [addPrimitive, hl, Option.map_eq_some_iff] at h
  obtain ⟨ps, hps, rfl⟩ := h
  rw [hm] at hps
  obtain ⟨new, h1, h2, _, h4⟩ := addVariants_spec block ⟨some (x0, y0), rest⟩ ps prims
  refine ⟨new, h1, by rw [h1]; exact h4 hnd, ?_⟩
  intro e he
  obtain ⟨p, hp, rfl⟩ := h2 e he
  obtain ⟨h5, h6, h7⟩ := chosen_sound hps hp
  exact ⟨p.1, p.2, h6, h5, h7, rfl⟩

/-- **C49, every factorisation is offered.**  Without restriction and with at most 12 factorisations,
or under a restriction for the sizes it admits, every factorisation of `m` has an entry. -/
theorem C49_complete {d : Nat → Nat × Nat → Rat} {prims prims' : Prims} {block : Name} {m : Nat}
    {rest : List Char} {r : Restr} (hfresh : block ∉ prims.map Prod.fst)
    (hnew : ∀ x y, variantName block (x, y) ∉ prims.map Prod.fst)
    (h : genArray d prims block m rest r = some prims')
    (hfew : (∃ l, r = .sizes l) ∨ (∃ l, r = .patterns l) ∨ (Nat.divisorsAntidiagonal m).card ≤ 12)
    {x y : Nat} (hxy : x * y = m) (ha : Admits r (x, y)) :
    (variantName block (x, y), ⟨some (x, y), rest, block, variantName block (x, y)⟩) ∈ prims' := by
  simp only [genArray, Option.bind_eq_some_iff] at h
  obtain ⟨⟨x0, y0⟩, hxy0, h⟩ := h
  have hm := ((C49_initial_size m).2 x0 y0 hxy0)
  have hpos : 0 < m := by
    rw [← hm.1]
    exact Nat.mul_pos (lt_of_lt_of_le hm.2.2 hm.2.1) hm.2.2
  have hl : prims.lookup block = none := by
    by_contra hne
    exact hfresh (lookup_isSome_iff.mp (by rw [Option.isSome_iff_ne_none]; exact hne))
  simp only [addPrimitive, hl, Option.map_eq_some_iff] at h
  obtain ⟨ps, hps, rfl⟩ := h
  rw [hm.1] at hps
  have hp := chosen_complete hps hpos hfew (p := (x, y)) hxy ha
  obtain ⟨new, h1, h2, h3, _⟩ := addVariants_spec block ⟨some (x0, y0), rest⟩ ps prims
  rw [h1]
  have := h3 _ hp
  rw [List.map_append, List.mem_append] at this
  rcases this with h | h
  · exact absurd h (hnew x y)
  · obtain ⟨e, he, hk⟩ := List.mem_map.mp h
    obtain ⟨q, hq, rfl⟩ := h2 e he
    have hqe := variantName_inj hk
    subst hqe
    exact List.mem_append_right _ he

/-- The generation succeeds for a positive number of units, unless the patterns are malformed. -/
theorem C49_returns (d : Nat → Nat × Nat → Rat) {prims : Prims} {block : Name} {m : Nat}
    (rest : List Char) {r : Restr} (hfresh : block ∉ prims.map Prod.fst) (hm : 0 < m)
    (hr : ∀ ps, r = .patterns ps → (∀ pat ∈ ps, ∃ p, SizeOf pat p) ∧
      ps.Pairwise fun a b => ∀ p, SizeOf a p → ¬ SizeOf b p) :
    ∃ prims', genArray d prims block m rest r = some prims' := by
  obtain ⟨x, y, hxy⟩ := (C49_initial_size m).1 hm
  have hl : prims.lookup block = none := by
    by_contra hne
    exact hfresh (lookup_isSome_iff.mp (by rw [Option.isSome_iff_ne_none]; exact hne))
  have hc : (chosen d (x * y) r).isSome = true := by
    cases r with
    | free => rfl
    | sizes _ => rfl
    | patterns ps => simp only [chosen, Option.isSome_map]; exact patternSizes_isSome (hr ps rfl).1 (hr ps rfl).2
  obtain ⟨ps, hps⟩ := Option.isSome_iff_exists.mp hc
  exact ⟨_, by simp only [genArray, hxy, Option.bind_some, addPrimitive, hl, hps, Option.map_some]; rfl⟩

example : (genArray (fun _ _ => 0) [] "N".toList 6 [] .free).map (fun r => r.map fun e =>
    (String.ofList e.1, e.2.cells)) =
    some [("N_X6_Y1", some (6, 1)), ("N_X1_Y6", some (1, 6)), ("N_X3_Y2", some (3, 2)), ("N_X2_Y3", some (2, 3))] ∧
    (genArray (fun _ _ => 0) [] "N".toList 6 [] (.patterns [["ABAB".toList, "BABA".toList, "ABBA".toList]])).map
      (fun r => r.map fun e => String.ofList e.1) = some ["N_X2_Y3"] := by
  decide +kernel

/-! ## C62: different devices of one name -/

/-- **C62, devices that are no arrays.**  A second device of the same name is rejected unless its
arguments are the same, and then nothing changes. -/
theorem C62_generic_partial {d : Nat → Nat × Nat → Rat} {prims prims' : Prims} {block : Name} {rest rest' : List Char}
    {r r' : Restr} (hfresh : block ∉ prims.map Prod.fst)
    (h : addPrimitive d prims block ⟨none, rest⟩ r = some prims') :
    (rest' = rest → addPrimitive d prims' block ⟨none, rest'⟩ r' = some prims') ∧
    (rest' ≠ rest → addPrimitive d prims' block ⟨none, rest'⟩ r' = none) := by
  have hl : prims.lookup block = none := by
    by_contra hne
    exact hfresh (lookup_isSome_iff.mp (by rw [Option.isSome_iff_ne_none]; exact hne))
  simp only [addPrimitive, hl, Option.some.injEq] at h
  subst h
  have hl' : (prims ++ [(block, (⟨none, rest, block, block⟩ : Entry))]).lookup block =
      some ⟨none, rest, block, block⟩ := by
    clear hfresh
    induction prims with
    | nil => simp [List.lookup_cons]
    | cons a l ih =>
      obtain ⟨a, b⟩ := a
      rw [List.lookup_cons] at hl
      rw [List.cons_append, List.lookup_cons]
      split at hl
      · cases hl
      · exact ih hl
  simp only [addPrimitive, hl']
  constructor
  · rintro rfl; simp
  · intro hne
    rw [if_neg]
    simp only [Entry.mk.injEq, true_and, and_true]
    exact fun h => hne h.symm

example : addPrimitive (fun _ _ => 0) [] "R".toList ⟨none, "a".toList⟩ .free =
    some [("R".toList, ⟨none, "a".toList, "R".toList, "R".toList⟩)] := by decide +kernel

/-- **C62 is violated for arrays.**  Arrays are stored under the names of their variants only, so the
test for the name of the device never finds them: a second array of the same name, with other
parameters, is accepted, and uses the variants of the first. -/
theorem C62_violated_array :
    ∃ prims, genArray (fun _ _ => 0) [] "N".toList 2 "nfin=4".toList .free = some prims ∧
      genArray (fun _ _ => 0) prims "N".toList 2 "nfin=8".toList .free = some prims ∧
      ∀ e ∈ prims, e.2.rest = "nfin=4".toList := by
  refine ⟨[("N_X2_Y1".toList, ⟨some (2, 1), "nfin=4".toList, "N".toList, "N_X2_Y1".toList⟩),
    ("N_X1_Y2".toList, ⟨some (1, 2), "nfin=4".toList, "N".toList, "N_X1_Y2".toList⟩)], ?_, ?_, ?_⟩ <;>
  decide +kernel

/-- **C62 is violated for arrays of different numbers of units.**  Afterwards one abstract name has
variants of two and of three units. -/
theorem C62_violated_units :
    ∃ prims prims', genArray (fun _ _ => 0) [] "N".toList 2 [] .free = some prims ∧
      genArray (fun _ _ => 0) prims "N".toList 3 [] .free = some prims' ∧
      ∃ e ∈ prims', ∃ e' ∈ prims', e.2.abstractName = e'.2.abstractName ∧
        e.2.cells = some (2, 1) ∧ e'.2.cells = some (3, 1) := by
  refine ⟨(genArray (fun _ _ => 0) [] "N".toList 2 [] .free).getD [],
    (genArray (fun _ _ => 0) ((genArray (fun _ _ => 0) [] "N".toList 2 [] .free).getD [])
      "N".toList 3 [] .free).getD [], ?_, ?_, ?_⟩ <;> decide +kernel

end Verif.Cells

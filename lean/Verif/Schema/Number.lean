import Mathlib.Data.Rat.Defs
import Mathlib.Data.List.TakeWhile
import Mathlib.Tactic.NormNum
import Mathlib.Tactic.FieldSimp
import Mathlib.Tactic.Ring

/-!
# C40: SPICE numbers

Model of `align/schema/parser.py`: `unit_multipliers` (15-26), `str2float` (28-31).
Strings are lists of characters.
-/

namespace Verif.Schema

/-! ## Model -/

/-- The digit of a character `0`..`9`.  (Python's `float` also takes the decimal digits of other
scripts; the model has the ASCII digits only.) -/
def isDig (c : Char) : Bool := decide (48 ≤ c.toNat) && decide (c.toNat ≤ 57)

/-- The number written by a list of digits. -/
def digitsVal (ds : List Char) : Nat := ds.foldl (fun n c => 10 * n + (c.toNat - 48)) 0

/-- An optional sign in front of a string: the factor and the rest. -/
def pySign : List Char → ℤ × List Char
  | '-' :: s => (-1, s)
  | '+' :: s => (1, s)
  | s => (1, s)

/-- The exponent part of a float literal, which must reach the end of the string. -/
def pyExp : List Char → Option ℤ
  | [] => some 0
  | c :: s =>
    if c = 'e' ∨ c = 'E' then
      let (sg, ds) := pySign s
      if ds ≠ [] ∧ ds.all isDig then some (sg * digitsVal ds) else none
    else none

/-- The digits after the decimal point, if there is one, and the rest. -/
def pyFrac : List Char → List Char × List Char
  | '.' :: s => (s.takeWhile isDig, s.dropWhile isDig)
  | s => ([], s)

/-- Python's `float(s)` for a string: `none` is `ValueError`, `some none` an infinity or NaN,
`some (some q)` a finite value (rationals stand for floats, without rounding or overflow).
Simplification: surrounding blanks and underscores between digits, which `float` also takes, are not
modelled. -/
def pyFloat (s : List Char) : Option (Option ℚ) :=
  let (sg, r) := pySign s
  if (["inf", "infinity", "nan"].map String.toList).contains (r.map Char.toLower) then some none
  else
    let i := r.takeWhile isDig
    let (f, e) := pyFrac (r.dropWhile isDig)
    if i = [] ∧ f = [] then none
    else (pyExp e).map fun (x : ℤ) =>
      some ((sg * digitsVal (i ++ f) : ℚ) * (10 : ℚ) ^ (x - (f.length : ℤ)))

/-- `unit_multipliers` (parser.py:15-26): the units in upper case, in lower case, and their
multipliers, in the order of the dictionary. -/
def unitMultipliers : List (List Char × List Char × ℚ) :=
  [(['T'], ['t'], 10 ^ 12), (['G'], ['g'], 10 ^ 9), (['X'], ['x'], 10 ^ 6),
   (['M', 'E', 'G'], ['m', 'e', 'g'], 10 ^ 6), (['K'], ['k'], 10 ^ 3), (['M'], ['m'], 1 / 10 ^ 3),
   (['U'], ['u'], 1 / 10 ^ 6), (['N'], ['n'], 1 / 10 ^ 9), (['P'], ['p'], 1 / 10 ^ 12),
   (['F'], ['f'], 1 / 10 ^ 15)]

/-- The first unit the string ends with (parser.py:29). -/
def findUnit (val : List Char) : Option (List Char × List Char × ℚ) :=
  unitMultipliers.find? fun u => u.1.isSuffixOf val || u.2.1.isSuffixOf val

/-- `str2float` (parser.py:28-31). -/
def str2float (val : List Char) : Option (Option ℚ) :=
  match findUnit val with
  | none => pyFloat val
  | some u => (pyFloat (val.take (val.length - u.1.length))).map fun v => v.map (· * u.2.2)

/-! ## Specification: decimal literals and SPICE suffixes -/

/-- A decimal literal: sign, digits before and after the point, exponent. -/
structure Literal where
  /-- `none`: no sign is written, `some true`: minus -/
  sign : Option Bool
  int : List (Fin 10)
  /-- `none`: no decimal point -/
  frac : Option (List (Fin 10))
  /-- the letter, the sign and the digits of the exponent -/
  exp : Option (Char × Option Bool × List (Fin 10))

/-- There is a digit in the mantissa, and one in the exponent if there is an exponent. -/
def Literal.WF (l : Literal) : Prop :=
  (l.int ≠ [] ∨ l.frac.getD [] ≠ []) ∧
  ∀ e ∈ l.exp, (e.1 = 'e' ∨ e.1 = 'E') ∧ e.2.2 ≠ []

def digitChar (d : Fin 10) : Char := Char.ofNat (48 + d.val)

def signChars : Option Bool → List Char
  | none => []
  | some true => ['-']
  | some false => ['+']

def signVal : Option Bool → ℤ
  | some true => -1
  | _ => 1

def pointChars : Option (List (Fin 10)) → List Char
  | none => []
  | some ds => '.' :: ds.map digitChar

def expChars : Option (Char × Option Bool × List (Fin 10)) → List Char
  | none => []
  | some (c, s, ds) => c :: (signChars s ++ ds.map digitChar)

/-- How the literal is written. -/
def Literal.render (l : Literal) : List Char :=
  signChars l.sign ++ (l.int.map digitChar ++ (pointChars l.frac ++ expChars l.exp))

/-- The natural number with the given decimal digits. -/
def natVal (ds : List (Fin 10)) : Nat := ds.foldl (fun n d => 10 * n + d.val) 0

def expVal : Option (Char × Option Bool × List (Fin 10)) → ℤ
  | none => 0
  | some (_, s, ds) => signVal s * natVal ds

/-- The number the literal stands for. -/
def Literal.value (l : Literal) : ℚ :=
  signVal l.sign * natVal (l.int ++ l.frac.getD []) * (10 : ℚ) ^ (expVal l.exp - ((l.frac.getD []).length : ℤ))

/-- The SPICE multipliers of one letter. -/
def spiceLetter : List (Char × Char × ℚ) :=
  [('T', 't', 1000000000000), ('G', 'g', 1000000000), ('X', 'x', 1000000), ('K', 'k', 1000),
   ('M', 'm', 1 / 1000), ('U', 'u', 1 / 1000000), ('N', 'n', 1 / 1000000000),
   ('P', 'p', 1 / 1000000000000), ('F', 'f', 1 / 1000000000000000)]

/-! ## Proofs -/

theorem isDig_digitChar (d : Fin 10) : isDig (digitChar d) = true := by
  revert d; decide

theorem digitChar_val (d : Fin 10) : (digitChar d).toNat - 48 = d.val := by
  revert d; decide

theorem isDig_iff (c : Char) : isDig c = true ↔ ∃ d, c = digitChar d := by
  constructor
  · intro h
    simp only [isDig, Bool.and_eq_true, decide_eq_true_eq] at h
    refine ⟨⟨c.toNat - 48, by omega⟩, ?_⟩
    simp only [digitChar]
    rw [show 48 + (c.toNat - 48) = c.toNat by omega, Char.ofNat_toNat]
  · rintro ⟨d, rfl⟩; exact isDig_digitChar d

theorem digits_of_all {s : List Char} (h : ∀ c ∈ s, isDig c = true) :
    ∃ ds : List (Fin 10), s = ds.map digitChar := by
  induction s with
  | nil => exact ⟨[], rfl⟩
  | cons c s ih =>
    obtain ⟨ds, rfl⟩ := ih fun x hx => h x (List.mem_cons_of_mem _ hx)
    obtain ⟨d, rfl⟩ := (isDig_iff c).mp (h c List.mem_cons_self)
    exact ⟨d :: ds, rfl⟩

theorem digitsVal_map (ds : List (Fin 10)) : digitsVal (ds.map digitChar) = natVal ds := by
  unfold digitsVal natVal
  rw [List.foldl_map]
  simp only [digitChar_val]

/-- The rest of a string does not go on with a digit. -/
def NoDig (s : List Char) : Prop := ∀ c ∈ s.head?, isDig c = false

theorem takeWhile_digits (ds : List (Fin 10)) {r : List Char} (hr : NoDig r) :
    (ds.map digitChar ++ r).takeWhile isDig = ds.map digitChar ∧
    (ds.map digitChar ++ r).dropWhile isDig = r := by
  induction ds with
  | nil =>
    cases r with
    | nil => exact ⟨rfl, rfl⟩
    | cons c r =>
      have : isDig c = false := hr c (by simp)
      simp [this]
  | cons d ds ih => simp [isDig_digitChar, ih.1, ih.2]

theorem pySign_render (sg : Option Bool) {r : List Char} (hr : ∀ c ∈ r.head?, c ≠ '-' ∧ c ≠ '+') :
    pySign (signChars sg ++ r) = (signVal sg, r) := by
  cases sg with
  | none =>
    cases r with
    | nil => rfl
    | cons c r =>
      obtain ⟨h1, h2⟩ := hr c (by simp)
      simp only [signChars, List.nil_append]
      unfold pySign
      split
      · rename_i h; simp at h; exact absurd h.1 h1
      · rename_i h; simp at h; exact absurd h.1 h2
      · rfl
  | some b => cases b <;> rfl

theorem digit_head {ds : List (Fin 10)} {r : List Char} (hr : ∀ c ∈ r.head?, c ≠ '-' ∧ c ≠ '+') :
    ∀ c ∈ (ds.map digitChar ++ r).head?, c ≠ '-' ∧ c ≠ '+' := by
  cases ds with
  | nil => exact hr
  | cons d ds =>
    intro c hc
    simp only [List.map_cons, List.cons_append, List.head?_cons, Option.mem_def, Option.some.injEq] at hc
    subst hc
    revert d; decide

theorem expVal_parse {e : Option (Char × Option Bool × List (Fin 10))}
    (he : ∀ x ∈ e, (x.1 = 'e' ∨ x.1 = 'E') ∧ x.2.2 ≠ []) : pyExp (expChars e) = some (expVal e) := by
  cases e with
  | none => rfl
  | some x =>
    obtain ⟨c, s, ds⟩ := x
    obtain ⟨h1, h2⟩ := he _ rfl
    simp only at h1 h2
    have hs : pySign (signChars s ++ ds.map digitChar) = (signVal s, ds.map digitChar) := by
      have := digit_head (ds := ds) (r := []) (by simp)
      exact pySign_render s (by simpa using this)
    simp only [expChars, pyExp, h1, if_true, hs]
    rw [if_pos]
    · simp [expVal, digitsVal_map]
    · refine ⟨by simpa using h2, ?_⟩
      simp only [List.all_eq_true, List.mem_map]
      rintro _ ⟨d, _, rfl⟩
      exact isDig_digitChar d

theorem noDig_exp {e : Option (Char × Option Bool × List (Fin 10))}
    (he : ∀ x ∈ e, (x.1 = 'e' ∨ x.1 = 'E') ∧ x.2.2 ≠ []) :
    NoDig (expChars e) ∧ (∀ c ∈ (expChars e).head?, c ≠ '-' ∧ c ≠ '+' ∧ c ≠ '.') := by
  cases e with
  | none => exact ⟨by intro c hc; simp [expChars] at hc, by simp [expChars]⟩
  | some x =>
    obtain ⟨c, s, ds⟩ := x
    obtain ⟨h1, -⟩ := he _ rfl
    simp only at h1
    constructor
    · intro x hx
      simp only [expChars, List.head?_cons, Option.mem_def, Option.some.injEq] at hx
      subst hx
      rcases h1 with rfl | rfl <;> decide
    · intro x hx
      simp only [expChars, List.head?_cons, Option.mem_def, Option.some.injEq] at hx
      subst hx
      rcases h1 with rfl | rfl <;> decide

theorem toLower_digitChar (d : Fin 10) : (digitChar d).toLower = digitChar d := by
  revert d; decide

theorem special_ne (r : List Char) {c : Char} (h : isDig c = true ∨ c = '.') (hc : c ∈ r) :
    ((["inf", "infinity", "nan"].map String.toList).contains (r.map Char.toLower)) = false := by
  have hl : c.toLower = c := by
    rcases h with h | rfl
    · obtain ⟨d, rfl⟩ := (isDig_iff c).mp h
      exact toLower_digitChar d
    · decide
  have hm : c ∈ r.map Char.toLower := by
    have := List.mem_map_of_mem (f := Char.toLower) hc
    rwa [hl] at this
  have hall : ∀ x ∈ "inf".toList ++ "infinity".toList ++ "nan".toList, isDig x = false ∧ x ≠ '.' := by
    decide
  by_contra hcon
  simp only [Bool.not_eq_false, List.contains_iff_mem, List.map_cons, List.map_nil, List.mem_cons,
    List.not_mem_nil, or_false] at hcon
  have hc' : c ∈ "inf".toList ++ "infinity".toList ++ "nan".toList := by
    simp only [List.mem_append]
    rcases hcon with e | e | e
    · rw [e] at hm; exact Or.inl (Or.inl hm)
    · rw [e] at hm; exact Or.inl (Or.inr hm)
    · rw [e] at hm; exact Or.inr hm
  have := hall c hc'
  rcases h with h | h
  · rw [this.1] at h; cases h
  · exact this.2 h

theorem pyFloat_render {l : Literal} (h : l.WF) : pyFloat l.render = some (some l.value) := by
  obtain ⟨hd, he⟩ := h
  obtain ⟨hn, hh⟩ := noDig_exp he
  have hp : NoDig (pointChars l.frac ++ expChars l.exp) ∧
      ∀ c ∈ (pointChars l.frac ++ expChars l.exp).head?, c ≠ '-' ∧ c ≠ '+' := by
    cases l.frac with
    | none => exact ⟨by simpa [pointChars] using hn, fun c hc => ⟨(hh c (by simpa [pointChars] using hc)).1,
        (hh c (by simpa [pointChars] using hc)).2.1⟩⟩
    | some ds =>
      constructor
      · intro c hc
        simp only [pointChars, List.cons_append, List.head?_cons, Option.mem_def, Option.some.injEq] at hc
        subst hc; decide
      · intro c hc
        simp only [pointChars, List.cons_append, List.head?_cons, Option.mem_def, Option.some.injEq] at hc
        subst hc; decide
  have hs := pySign_render l.sign (digit_head (ds := l.int) hp.2)
  have hspec : ((["inf", "infinity", "nan"].map String.toList).contains
      ((l.int.map digitChar ++ (pointChars l.frac ++ expChars l.exp)).map Char.toLower)) = false := by
    cases hi : l.int with
    | cons d ds =>
      exact special_ne _ (c := digitChar d) (Or.inl (isDig_digitChar d)) (by simp)
    | nil =>
      cases hf : l.frac with
      | none => simp [hi, hf] at hd
      | some ds => exact special_ne _ (c := '.') (Or.inr rfl) (by simp [pointChars])
  obtain ⟨ht, hdr⟩ := takeWhile_digits l.int hp.1
  have hfr : pyFrac (pointChars l.frac ++ expChars l.exp) =
      ((l.frac.getD []).map digitChar, expChars l.exp) := by
    cases hf : l.frac with
    | none =>
      simp only [pointChars, List.nil_append, Option.getD_none, List.map_nil]
      unfold pyFrac
      split
      · rename_i s hs
        exact absurd rfl (hh '.' (by rw [hs]; rfl)).2.2
      · rfl
    | some ds =>
      obtain ⟨h1, h2⟩ := takeWhile_digits ds hn
      simp only [pointChars, List.cons_append, Option.getD_some, pyFrac, h1, h2]
  unfold pyFloat Literal.render
  simp only [hs, hspec, Bool.false_eq_true, if_false, ht, hdr, hfr, List.map_eq_nil_iff]
  rw [if_neg (by rintro ⟨h1, h2⟩; rcases hd with h | h <;> contradiction), expVal_parse he]
  simp only [Option.map_some, Literal.value, ← List.map_append, digitsVal_map, List.length_map]

theorem isSuffixOf_single (y c : Char) (s : List Char) :
    [y].isSuffixOf (s ++ [c]) = decide (y = c) := by
  rw [Bool.eq_iff_iff]
  simp only [List.isSuffixOf_iff_suffix, decide_eq_true_eq]
  constructor
  · rintro ⟨t, ht⟩
    have := (List.append_inj' ht rfl).2
    simpa using this
  · rintro rfl; exact List.suffix_append _ _

theorem isSuffixOf_last {u : List Char} {y c : Char} {s : List Char}
    (h : (u ++ [y]).isSuffixOf (s ++ [c]) = true) : y = c := by
  simp only [List.isSuffixOf_iff_suffix] at h
  obtain ⟨t, ht⟩ := h
  rw [← List.append_assoc] at ht
  simpa using (List.append_inj' ht rfl).2

/-- The unit is determined by the last character, and is never MEG. -/
theorem findUnit_last (s : List Char) (c : Char) :
    findUnit (s ++ [c]) =
      (spiceLetter.find? fun u => decide (u.1 = c) || decide (u.2.1 = c)).map
        fun u => ([u.1], [u.2.1], u.2.2) := by
  have hmeg : (['M', 'E', 'G'].isSuffixOf (s ++ [c]) || ['m', 'e', 'g'].isSuffixOf (s ++ [c])) = true →
      c = 'G' ∨ c = 'g' := by
    rw [Bool.or_eq_true]
    rintro (h | h)
    · exact Or.inl (isSuffixOf_last (u := ['M', 'E']) h).symm
    · exact Or.inr (isSuffixOf_last (u := ['m', 'e']) h).symm
  by_cases hg : c = 'G' ∨ c = 'g'
  · rcases hg with rfl | rfl
    · simp [findUnit, unitMultipliers, spiceLetter, isSuffixOf_single]
      norm_num
    · simp [findUnit, unitMultipliers, spiceLetter, isSuffixOf_single]
      norm_num
  · have hm' : (['M', 'E', 'G'].isSuffixOf (s ++ [c]) || ['m', 'e', 'g'].isSuffixOf (s ++ [c])) = false := by
      rw [← Bool.not_eq_true]; exact fun h => hg (hmeg h)
    simp only [findUnit, unitMultipliers, spiceLetter, isSuffixOf_single, List.find?_cons, hm',
      List.find?_nil]
    generalize (decide ('T' = c) || decide ('t' = c)) = bT
    generalize (decide ('G' = c) || decide ('g' = c)) = bG
    generalize (decide ('X' = c) || decide ('x' = c)) = bX
    generalize (decide ('K' = c) || decide ('k' = c)) = bK
    generalize (decide ('M' = c) || decide ('m' = c)) = bM
    generalize (decide ('U' = c) || decide ('u' = c)) = bU
    generalize (decide ('N' = c) || decide ('n' = c)) = bN
    generalize (decide ('P' = c) || decide ('p' = c)) = bP
    generalize (decide ('F' = c) || decide ('f' = c)) = bF
    cases bT
    swap
    · simp only [Option.map_some]; norm_num
    cases bG
    swap
    · simp only [Option.map_some]; norm_num
    cases bX
    swap
    · simp only [Option.map_some]; norm_num
    cases bK
    swap
    · simp only [Option.map_some]; norm_num
    cases bM
    swap
    · simp only [Option.map_some]; norm_num
    cases bU
    swap
    · simp only [Option.map_some]; norm_num
    cases bN
    swap
    · simp only [Option.map_some]; norm_num
    cases bP
    swap
    · simp only [Option.map_some]; norm_num
    cases bF
    swap
    · simp only [Option.map_some]; norm_num
    rfl

/-- The last character of a literal is a digit or the decimal point. -/
theorem render_last {l : Literal} (h : l.WF) :
    ∃ s c, l.render = s ++ [c] ∧ (isDig c = true ∨ c = '.') := by
  have key : ∀ (p : List Char) (ds : List (Fin 10)), ds ≠ [] →
      ∃ s c, p ++ ds.map digitChar = s ++ [c] ∧ (isDig c = true ∨ c = '.') := by
    intro p ds hds
    obtain ⟨ds', d, rfl⟩ := List.eq_nil_or_concat ds |>.resolve_left hds
    exact ⟨p ++ ds'.map digitChar, digitChar d, by simp, Or.inl (isDig_digitChar d)⟩
  obtain ⟨hd, he⟩ := h
  obtain ⟨sg, i, f, e⟩ := l
  simp only at hd he
  cases e with
  | some x =>
    obtain ⟨c, s, ds⟩ := x
    obtain ⟨s', c', h1, h2⟩ := key (signChars sg ++ (i.map digitChar ++ (pointChars f ++ (c :: signChars s)))) ds
      (he _ rfl).2
    exact ⟨s', c', by simpa [Literal.render, expChars] using h1, h2⟩
  | none =>
    cases f with
    | none =>
      obtain ⟨s', c', h1, h2⟩ := key (signChars sg) i (by simpa using hd)
      exact ⟨s', c', by simpa [Literal.render, expChars, pointChars] using h1, h2⟩
    | some ds =>
      by_cases hds : ds = []
      · subst hds
        exact ⟨signChars sg ++ i.map digitChar, '.', by simp [Literal.render, expChars, pointChars], Or.inr rfl⟩
      · obtain ⟨s', c', h1, h2⟩ := key (signChars sg ++ (i.map digitChar ++ ['.'])) ds hds
        exact ⟨s', c', by simpa [Literal.render, expChars, pointChars] using h1, h2⟩

theorem letter_not_num {u : Char × Char × ℚ} (hu : u ∈ spiceLetter) {c : Char}
    (h : u.1 = c ∨ u.2.1 = c) : ¬ (isDig c = true ∨ c = '.') := by
  simp only [spiceLetter, List.mem_cons, List.not_mem_nil, or_false] at hu
  rcases hu with rfl | rfl | rfl | rfl | rfl | rfl | rfl | rfl | rfl <;>
    rcases h with rfl | rfl <;> decide

/-- **C40, suffixes of one letter.**  A decimal literal followed by `T`, `G`, `X`, `K`, `M`, `U`, `N`,
`P` or `F`, in either case, is its value times the SPICE multiplier. -/
theorem C40_suffix_partial {l : Literal} (h : l.WF) {u : Char × Char × ℚ} (hu : u ∈ spiceLetter)
    {c : Char} (hc : c = u.1 ∨ c = u.2.1) :
    str2float (l.render ++ [c]) = some (some (l.value * u.2.2)) := by
  have hf : findUnit (l.render ++ [c]) = some ([u.1], [u.2.1], u.2.2) := by
    rw [findUnit_last]
    simp only [spiceLetter, List.mem_cons, List.not_mem_nil, or_false] at hu
    rcases hu with rfl | rfl | rfl | rfl | rfl | rfl | rfl | rfl | rfl <;>
      rcases hc with rfl | rfl <;> simp [spiceLetter]
  simp only [str2float, hf, List.length_append, List.length_cons, List.length_nil, Nat.zero_add,
    Nat.add_sub_cancel, List.take_left, pyFloat_render h, Option.map_some]

/-- **C40, no suffix.**  A decimal literal is its value. -/
theorem C40_plain {l : Literal} (h : l.WF) : str2float l.render = some (some l.value) := by
  obtain ⟨s, c, hr, hc⟩ := render_last h
  have hf : findUnit l.render = none := by
    rw [hr, findUnit_last]
    simp only [Option.map_eq_none_iff, List.find?_eq_none, Bool.or_eq_true, decide_eq_true_eq]
    intro u hu hcu
    exact letter_not_num hu hcu hc
  simp only [str2float, hf, pyFloat_render h]

/-- A literal such as `-12.5e3`. -/
def litA : Literal := ⟨some true, [1, 2], some [5], some ('e', none, [3])⟩

example : litA.WF ∧ litA.render = "-12.5e3".toList ∧ litA.value = -12500 := by
  refine ⟨⟨by simp [litA], ?_⟩, by decide, ?_⟩
  · intro e he
    simp only [litA, Option.mem_def, Option.some.injEq] at he
    subst he; simp
  · have h3 : ((3 : Fin 10) : ℕ) = 3 := rfl
    have h5 : ((5 : Fin 10) : ℕ) = 5 := rfl
    simp [litA, Literal.value, natVal, signVal, expVal, h3, h5]; norm_num

theorem exp_me {s : List Char} {c : Char} (hc : isDig c = false) : pyExp (s ++ [c]) = none := by
  cases s with
  | nil =>
    simp only [List.nil_append, pyExp]
    split
    · simp [pySign]
    · rfl
  | cons x s =>
    simp only [List.cons_append, pyExp]
    split
    · have : ∀ sg ds, pySign (s ++ [c]) = (sg, ds) → ds = [] ∨ c ∈ ds := by
        intro sg ds hp
        unfold pySign at hp
        split at hp
        · rename_i t ht
          simp only [Prod.mk.injEq] at hp
          cases s with
          | nil => simp at ht; left; rw [← hp.2]; exact ht.2
          | cons y s =>
            simp only [List.cons_append, List.cons.injEq] at ht
            right; rw [← hp.2, ← ht.2]; simp
        · rename_i t ht
          simp only [Prod.mk.injEq] at hp
          cases s with
          | nil => simp at ht; left; rw [← hp.2]; exact ht.2
          | cons y s =>
            simp only [List.cons_append, List.cons.injEq] at ht
            right; rw [← hp.2, ← ht.2]; simp
        · simp only [Prod.mk.injEq] at hp
          right; rw [← hp.2]; simp
      rcases hp : pySign (s ++ [c]) with ⟨sg, ds⟩
      simp only
      rw [if_neg]
      rintro ⟨h1, h2⟩
      rcases this sg ds hp with h | h
      · exact h1 h
      · rw [List.all_eq_true] at h2
        rw [h2 c h] at hc; cases hc
    · rfl

/-- A string which ends with "me" is no float. -/
theorem pyFloat_me {s : List Char} {m e : Char} (hm : m = 'M' ∨ m = 'm') (he : e = 'E' ∨ e = 'e') :
    pyFloat (s ++ [m, e]) = none := by
  have hdm : isDig m = false := by rcases hm with rfl | rfl <;> decide
  have hde : isDig e = false := by rcases he with rfl | rfl <;> decide
  have hle : e.toLower = 'e' := by rcases he with rfl | rfl <;> decide
  obtain ⟨s', sg, hs⟩ : ∃ s' sg, pySign (s ++ [m, e]) = (sg, s' ++ [m, e]) := by
    unfold pySign
    split
    · rename_i t ht
      cases s with
      | nil => simp at ht; rcases hm with rfl | rfl <;> simp at ht
      | cons y s => simp at ht; exact ⟨s, -1, by simp [← ht.2]⟩
    · rename_i t ht
      cases s with
      | nil => simp at ht; rcases hm with rfl | rfl <;> simp at ht
      | cons y s => simp at ht; exact ⟨s, 1, by simp [← ht.2]⟩
    · exact ⟨s, 1, rfl⟩
  have hspec : ((["inf", "infinity", "nan"].map String.toList).contains
      ((s' ++ [m, e]).map Char.toLower)) = false := by
    by_contra hcon
    simp only [Bool.not_eq_false, List.contains_iff_mem, List.map_cons, List.map_nil, List.mem_cons,
      List.not_mem_nil, or_false] at hcon
    have : ∀ w ∈ ["inf".toList, "infinity".toList, "nan".toList], 'e' ∉ w := by decide
    have hin : 'e' ∈ (s' ++ [m, e]).map Char.toLower := by simp [hle]
    rcases hcon with h | h | h
    · rw [h] at hin; exact this _ (by simp) hin
    · rw [h] at hin; exact this _ (by simp) hin
    · rw [h] at hin; exact this _ (by simp) hin
  have hdw : ∀ t : List Char, ∃ t', (t ++ [m, e]).dropWhile isDig = t' ++ [m, e] := by
    intro t
    induction t with
    | nil => exact ⟨[], by simp [hdm]⟩
    | cons x t ih =>
      by_cases hx : isDig x = true
      · simpa [hx] using ih
      · exact ⟨x :: t, by simp [hx]⟩
  obtain ⟨t', ht'⟩ := hdw s'
  have hfr : ∃ f t2, pyFrac (t' ++ [m, e]) = (f, t2 ++ [m, e]) := by
    unfold pyFrac
    split
    · rename_i r hr
      cases t' with
      | nil => simp at hr; rcases hm with rfl | rfl <;> simp at hr
      | cons y t' =>
        simp at hr
        obtain ⟨t2, ht2⟩ := hdw t'
        exact ⟨_, t2, by rw [← hr.2, ht2]⟩
    · exact ⟨_, t', rfl⟩
  obtain ⟨f, t2, hf⟩ := hfr
  unfold pyFloat
  simp only [hs, hspec, Bool.false_eq_true, if_false, ht', hf]
  split
  · rfl
  · have := exp_me (s := t2 ++ [m]) hde
    simp only [List.append_assoc, List.cons_append, List.nil_append] at this
    rw [this]; rfl

/-- **C40 is violated for MEG.**  The string is taken to end with `G`, so a number with the suffix
`MEG`, in any case, is rejected, whatever the number. -/
theorem C40_violated_meg (s : List Char) {m e g : Char} (hm : m = 'M' ∨ m = 'm')
    (he : e = 'E' ∨ e = 'e') (hg : g = 'G' ∨ g = 'g') : str2float (s ++ [m, e, g]) = none := by
  have hf : findUnit ((s ++ [m, e]) ++ [g]) = some (['G'], ['g'], 1000000000) := by
    rw [findUnit_last]
    rcases hg with rfl | rfl <;> simp [spiceLetter]
  have e1 : s ++ [m, e, g] = (s ++ [m, e]) ++ [g] := by simp
  rw [e1]
  simp only [str2float, hf, List.length_append, List.length_cons, List.length_nil, Nat.zero_add,
    Nat.add_sub_cancel]
  have : (s ++ [m, e] ++ [g]).take (s.length + (1 + 1)) = s ++ [m, e] := by
    rw [List.take_append_of_le_length (by simp)]
    exact List.take_of_length_le (by simp)
  rw [this, pyFloat_me hm he]; rfl

theorem pySign_spec (s : List Char) :
    ∃ b : Option Bool, s = signChars b ++ (pySign s).2 ∧ (pySign s).1 = signVal b := by
  unfold pySign
  split
  · exact ⟨some true, rfl, rfl⟩
  · exact ⟨some false, rfl, rfl⟩
  · exact ⟨none, rfl, rfl⟩

/-- What `float` accepts with a finite value is a decimal literal. -/
theorem pyFloat_sound {s : List Char} {q : ℚ} (h : pyFloat s = some (some q)) :
    ∃ l : Literal, l.WF ∧ s = l.render ∧ q = l.value := by
  obtain ⟨sg, hsg, hsv⟩ := pySign_spec s
  unfold pyFloat at h
  simp only at h
  generalize (pySign s).2 = r at *
  split at h
  · simp at h
  · obtain ⟨i, hi⟩ := digits_of_all (s := r.takeWhile isDig) fun c hc => List.mem_takeWhile_imp hc
    have hr : r = r.takeWhile isDig ++ r.dropWhile isDig := (List.takeWhile_append_dropWhile).symm
    obtain ⟨f, e, hfe, hfl, hfs⟩ : ∃ (f : Option (List (Fin 10))) (e : List Char),
        r.dropWhile isDig = pointChars f ++ e ∧
        pyFrac (r.dropWhile isDig) = ((f.getD []).map digitChar, e) ∧ True := by
      generalize r.dropWhile isDig = t
      unfold pyFrac
      split
      · rename_i t
        obtain ⟨ds, hds⟩ := digits_of_all (s := t.takeWhile isDig) fun c hc => List.mem_takeWhile_imp hc
        refine ⟨some ds, t.dropWhile isDig, ?_, by simp [hds], trivial⟩
        simp only [pointChars, ← hds, List.cons_append, List.takeWhile_append_dropWhile]
      · exact ⟨none, t, rfl, rfl, trivial⟩
    rw [hfl] at h
    simp only [hi] at h
    split at h
    · cases h
    · rename_i hne
      simp only [Option.map_eq_some_iff, Option.some.injEq] at h
      obtain ⟨x, hx, hq⟩ := h
      obtain ⟨ex, hex, hev, hwf⟩ : ∃ ex : Option (Char × Option Bool × List (Fin 10)),
          e = expChars ex ∧ x = expVal ex ∧
          ∀ y ∈ ex, (y.1 = 'e' ∨ y.1 = 'E') ∧ y.2.2 ≠ [] := by
        cases e with
        | nil =>
          simp only [pyExp, Option.some.injEq] at hx
          exact ⟨none, rfl, hx.symm, by simp⟩
        | cons c e =>
          simp only [pyExp] at hx
          split at hx
          · rename_i hc
            obtain ⟨sg2, h1, h2⟩ := pySign_spec e
            split at hx
            · rename_i hall
              simp only [Option.some.injEq] at hx
              obtain ⟨ds, hds⟩ := digits_of_all (s := (pySign e).2) (by
                have := hall.2; rw [List.all_eq_true] at this; exact this)
              refine ⟨some (c, sg2, ds), ?_, ?_, ?_⟩
              · simp only [expChars, ← hds, ← h1]
              · simp only [expVal, ← hx, h2, hds, digitsVal_map]
              · intro y hy
                simp only [Option.mem_def, Option.some.injEq] at hy
                subst hy
                refine ⟨hc, ?_⟩
                rintro rfl
                exact hall.1 (by simpa using hds)
            · cases hx
          · cases hx
      refine ⟨⟨sg, i, f, ex⟩, ⟨?_, hwf⟩, ?_, ?_⟩
      · simp only [List.map_eq_nil_iff, not_and_or] at hne
        exact hne
      · rw [hsg, hr, hi, hfe, hex]; rfl
      · rw [← hq, hev, hsv]
        simp only [Literal.value, ← List.map_append, digitsVal_map, List.length_map]

/-- **C40, rejection.**  Whatever is accepted with a finite value is a decimal literal, possibly with
one of the suffixes of one letter, and has the value C40 asks for. -/
theorem C40_accepted_partial {s : List Char} {q : ℚ} (h : str2float s = some (some q)) :
    ∃ l : Literal, l.WF ∧ ((s = l.render ∧ q = l.value) ∨
      ∃ u ∈ spiceLetter, ∃ c, (c = u.1 ∨ c = u.2.1) ∧ s = l.render ++ [c] ∧ q = l.value * u.2.2) := by
  rcases List.eq_nil_or_concat s with rfl | ⟨s', c, rfl⟩
  · have : str2float [] = none := by decide +kernel
    rw [this] at h; cases h
  · rw [List.concat_eq_append] at h ⊢
    unfold str2float at h
    rw [findUnit_last] at h
    cases hf : spiceLetter.find? fun u => decide (u.1 = c) || decide (u.2.1 = c) with
    | none =>
      rw [hf] at h
      simp only [Option.map_none] at h
      obtain ⟨l, h1, h2, h3⟩ := pyFloat_sound h
      exact ⟨l, h1, Or.inl ⟨h2, h3⟩⟩
    | some u =>
      rw [hf] at h
      have hu := List.mem_of_find?_eq_some hf
      have hc := List.find?_some hf
      simp only [Bool.or_eq_true, decide_eq_true_eq] at hc
      simp only [Option.map_some, List.length_append, List.length_cons, List.length_nil, Nat.zero_add,
        Nat.add_sub_cancel, List.take_left, Option.map_eq_some_iff] at h
      obtain ⟨v, hv, w, hw, hq⟩ := h
      subst hw
      obtain ⟨l, h1, h2, h3⟩ := pyFloat_sound hv
      refine ⟨l, h1, Or.inr ⟨u, hu, c, hc.imp Eq.symm Eq.symm, by rw [h2], by rw [← hq, h3]⟩⟩

/-- **C40 is violated for words.**  "Infinity" is no SPICE number, but is accepted. -/
theorem C40_violated_infinity : str2float "Infinity".toList = some none := by decide +kernel

end Verif.Schema

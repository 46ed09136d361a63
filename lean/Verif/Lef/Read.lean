import Verif.Lef.Model
import Verif.Schema.Number
import Verif.Pnr.Names
import Mathlib.Data.Rat.Floor
import Mathlib.Tactic.Linarith

/-!
# C69: the LEF file that is written is read back as the same cell

Model of the text written by `lef_from_layout_d` (align/cell_fabric/gen_lef.py 7-83; what is written is the `Macro` of
`Verif.Lef.Model`), of the tokens and the parser of align/cell_fabric/lef_parser.py (5-25, 63-236), and of
`lef_txt_to_layout_d` (align/cell_fabric/lef_to_json.py 8-75).

Simplifications: characters are ASCII (Python's `\s` and `\d` know more); coordinates and the scale factor that are written are
integers, numbers that are read are rationals; an exception is `none`; the warnings of lef_to_json are not modelled, nor are the
attributes that nothing reads (direction, foreign name).
-/

namespace Verif.Lef

open Verif.Schema (isDig digitsVal pySign)
open Verif.Pnr (pyStr digitsVal_pyStr isDig_pyStr)

/-! ## Model: writing -/

/-- `%s` of an integer -/
def showInt (i : Int) : List Char := if i < 0 then '-' :: pyStr i.natAbs else pyStr i.natAbs

/-- Four numbers with blanks between (gen_lef.py 50, 71, 75). -/
def showRect (r : Rect) : List Char :=
  showInt r.x0 ++ (' ' :: (showInt r.y0 ++ (' ' :: (showInt r.x1 ++ (' ' :: showInt r.y1)))))

/-- Lines 49-50. -/
def writePortShape (s : Shape) : List Char :=
  "      LAYER ".toList ++ (s.1.toList ++ (" ;\n".toList ++ ("        RECT ".toList ++ (showRect s.2 ++ " ;\n".toList))))

/-- Lines 43-62. -/
def writePin (p : String × List Shape) : List Char :=
  "  PIN ".toList ++ (p.1.toList ++ ("\n".toList ++ ("    DIRECTION INOUT ;\n".toList ++ ("    USE SIGNAL ;\n".toList ++
  ("    PORT\n".toList ++ (p.2.flatMap writePortShape ++ ("    END\n".toList ++ ("  END ".toList ++ (p.1.toList ++ "\n".toList)))))))))

/-- Lines 70-71, 74-75. -/
def writeObs (s : Shape) : List Char :=
  "    LAYER ".toList ++ (s.1.toList ++ (" ;\n".toList ++ ("      RECT ".toList ++ (showRect s.2 ++ " ;\n".toList))))

/-- The file (14-83). -/
def write (nm : String) (scale : Nat) (m : Macro) : List Char :=
  "MACRO ".toList ++ (nm.toList ++ ("\n".toList ++ ("  UNITS \n".toList ++ ("    DATABASE MICRONS UNITS ".toList ++
  (showInt (1000 * scale) ++ (";\n".toList ++ ("  END UNITS \n".toList ++ ("  ORIGIN 0 0 ;\n".toList ++ ("  FOREIGN ".toList ++
  (nm.toList ++ (" 0 0 ;\n".toList ++ ("  SIZE ".toList ++ (showInt m.size.1 ++ (" BY ".toList ++ (showInt m.size.2 ++ (" ;\n".toList ++
  (m.pins.flatMap writePin ++ ("  OBS\n".toList ++ (m.obs.flatMap writeObs ++ ("  END\n".toList ++ ("END ".toList ++
  (nm.toList ++ "\n".toList))))))))))))))))))))))

/-! ## Model: tokens -/

inductive Tok where
  | semi
  | word (s : List Char)
  | num (q : ℚ)
  | lit
  deriving DecidableEq

def isStart (c : Char) : Bool := c.isAlpha || c == '_'
def isWord (c : Char) : Bool := c.isAlpha || c == '_' || isDig c
def isSpace (c : Char) : Bool := [' ', '\t', '\n', '\r', '\x0b', '\x0c'].contains c

/-- `[-+]?\d*\.\d+|[-+]?\d+\.?` -/
def numTok (s : List Char) : Option (ℚ × List Char) :=
  let (sg, r) := pySign s
  let i := r.takeWhile isDig
  let rest := r.dropWhile isDig
  match rest with
  | '.' :: t =>
    let f := t.takeWhile isDig
    if f ≠ [] then some ((sg * digitsVal (i ++ f) : ℚ) / 10 ^ f.length, t.dropWhile isDig)
    else if i ≠ [] then some ((sg * digitsVal i : ℚ), t) else none
  | _ => if i ≠ [] then some ((sg * digitsVal i : ℚ), rest) else none

/-- `\".*\"` after the first quote: what follows the last quote of the line -/
def litTok (r : List Char) : Option (List Char) :=
  let line := r.takeWhile (· ≠ '\n')
  if line.contains '"' then some ((line.reverse.takeWhile (· ≠ '"')).reverse ++ r.dropWhile (· ≠ '\n')) else none

/-- One match of the pattern (lef_parser.py 5-12); blanks one by one, since they are dropped (22). -/
def step : List Char → Option (Option Tok × List Char)
  | [] => none
  | c :: r =>
    if c = ';' then some (some .semi, r)
    else if isStart c then some (some (.word (c :: r.takeWhile isWord)), r.dropWhile isWord)
    else if isSpace c then some (none, r)
    else if c = '"' then (litTok r).map fun t => (some .lit, t)
    else (numTok (c :: r)).map fun x => (some (.num x.1), x.2)

def lexAux : Nat → List Char → List Tok
  | 0, _ => []
  | n + 1, s => match step s with
    | none => []
    | some (t, r) => t.toList ++ lexAux n r

/-- `generate_tokens` (18-23): it ends where nothing matches. -/
def lex (s : List Char) : List Tok := lexAux s.length s

/-! ## Model: parser -/

abbrev RRect := ℚ × ℚ × ℚ × ℚ
abbrev RShape := List Char × RRect

/-- What the parser knows of a macro; `none` for an attribute that was not set. -/
structure RMacro where
  name : List Char
  scale : ℚ
  origin : Option (ℚ × ℚ)
  size : Option (ℚ × ℚ)
  pins : List (List Char × Option (List RShape))
  obs : Option (List RShape)

def kw (s : String) : Tok := .word s.toList

/-- `ports` (110-126) after the list was made empty. -/
def ports : Option (List Char) → List RShape → List Tok → Option (List RShape × List Tok)
  | layer, acc, .word k :: ts =>
    if k = "END".toList then some (acc, ts)
    else if k = "LAYER".toList then
      match ts with
      | .word l :: .semi :: ts => ports (some l) acc ts
      | _ => none
    else if k = "RECT".toList then
      match ts with
      | .num a :: .num b :: .num c :: .num d :: .semi :: ts => layer.bind fun l => ports (some l) (acc ++ [(l, a, b, c, d)]) ts
      | _ => none
    else none
  | _, _, _ => none

/-- The loop of a pin (154-168): `ports` is set anew by every PORT.  The first argument bounds the number of rounds. -/
def pinLoop (nm : List Char) : Nat → Option (List RShape) → List Tok → Option (Option (List RShape) × List Tok)
  | n + 1, ps, .word k :: ts =>
    if k = "END".toList then
      match ts with
      | .word e :: ts => if e = nm then some (ps, ts) else none
      | _ => none
    else if k = "DIRECTION".toList || k = "USE".toList then
      match ts with
      | .word _ :: .semi :: ts => pinLoop nm n ps ts
      | _ => none
    else if k = "PORT".toList then (ports none [] ts).bind fun r => pinLoop nm n (some r.1) r.2
    else none
  | _, _, _ => none

/-- The loop of a macro (133-192). -/
def macroLoop : Nat → RMacro → List Tok → Option (RMacro × List Tok)
  | n + 1, m, .word k :: ts =>
    if k = "END".toList then
      match ts with
      | .word e :: ts => if e = m.name then some (m, ts) else none
      | _ => none
    else if k = "ORIGIN".toList then
      match ts with
      | .num x :: .num y :: .semi :: ts => macroLoop n { m with origin := some (x, y) } ts
      | _ => none
    else if k = "FOREIGN".toList then
      match ts with
      | .word _ :: .num _ :: .num _ :: .semi :: ts => macroLoop n m ts
      | _ => none
    else if k = "SIZE".toList then
      match ts with
      | .num x :: .word b :: .num y :: .semi :: ts =>
        if b = "BY".toList then macroLoop n { m with size := some (x, y) } ts else none
      | _ => none
    else if k = "PIN".toList then
      match ts with
      | .word nm :: ts => (pinLoop nm (ts.length + 1) none ts).bind fun r => macroLoop n { m with pins := m.pins ++ [(nm, r.1)] } r.2
      | _ => none
    else if k = "UNITS".toList then
      match ts with
      | .word a :: .word b :: .word c :: .num q :: .semi :: .word d :: .word e :: ts =>
        if a = "DATABASE".toList ∧ b = "MICRONS".toList ∧ c = "UNITS".toList ∧ d = "END".toList ∧ e = "UNITS".toList then
          macroLoop n { m with scale := q } ts
        else none
      | _ => none
    else if k = "OBS".toList then (ports none [] ts).bind fun r => macroLoop n { m with obs := some r.1 } r.2
    else if k = "PROPERTY".toList then
      match ts with
      | .word _ :: .lit :: .semi :: ts => macroLoop n m ts
      | .word _ :: .num _ :: .semi :: ts => macroLoop n m ts
      | _ => none
    else macroLoop n m ts
  | _, _, _ => none

/-- The loop of PROPERTYDEFINITIONS (212-221). -/
def propLoop : List Tok → Option (List Tok)
  | .word k :: ts =>
    if k = "END".toList then
      match ts with
      | .word e :: ts => if e = "PROPERTYDEFINITIONS".toList then some ts else some (.word e :: ts)
      | ts => some ts
    else if k = "MACRO".toList then
      match ts with
      | .word _ :: .word _ :: .semi :: ts => propLoop ts
      | _ => none
    else none
  | _ => none

/-- `whole` (197-236). -/
def whole : Nat → List RMacro → List Tok → Option (List RMacro)
  | _ + 1, acc, [] => some acc
  | n + 1, acc, .word k :: ts =>
    if k = "END".toList then some acc
    else if k = "VERSION".toList then
      match ts with
      | .num _ :: .semi :: ts => whole n acc ts
      | _ => none
    else if k = "BUSBITCHARS".toList || k = "DIVIDERCHAR".toList then
      match ts with
      | .lit :: .semi :: ts => whole n acc ts
      | _ => none
    else if k = "PROPERTYDEFINITIONS".toList then (propLoop ts).bind fun ts => whole n acc ts
    else if k = "MACRO".toList then
      match ts with
      | .word nm :: ts =>
        (macroLoop (ts.length + 1) ⟨nm, 10000, none, none, [], none⟩ ts).bind fun r => whole n (acc ++ [r.1]) r.2
      | _ => none
    else none
  | _, _, _ => none

/-- `parse` -/
def parse (txt : List Char) : Option (List RMacro) := whole ((lex txt).length + 1) [] (lex txt)

/-! ## Model: lef_to_json -/

/-- Python's `round`: to the even neighbour from the middle. -/
def pyRound (q : ℚ) : Int :=
  if q - ⌊q⌋ < 1 / 2 then ⌊q⌋ else if 1 / 2 < q - ⌊q⌋ then ⌊q⌋ + 1 else if ⌊q⌋ % 2 = 0 then ⌊q⌋ else ⌊q⌋ + 1

/-- `ss`, `sr` (lef_to_json.py 31-39) -/
def scaled (scale : ℚ) (m : RMacro) (s : ℚ) : Int := pyRound (1000 * scale * s / m.scale)

def scaledRect (scale : ℚ) (m : RMacro) (r : RRect) : Rect :=
  ⟨scaled scale m r.1, scaled scale m r.2.1, scaled scale m r.2.2.1, scaled scale m r.2.2.2⟩

/-- The result: the box, and the terminals with their net names. -/
structure Layout where
  bbox : Rect
  terminals : List (Option String × Shape)
  deriving DecidableEq

def layoutOf (scale : ℚ) (m : RMacro) : Option Layout :=
  m.origin.bind fun o => m.size.bind fun s => if m.scale = 0 then none else
  (m.pins.mapM fun (p : List Char × Option (List RShape)) => p.2.map fun sh => sh.map fun x => (some (String.ofList p.1), String.ofList x.1, scaledRect scale m x.2)).map fun ps =>
    ⟨scaledRect scale m (o.1, o.2, o.1 + s.1, o.2 + s.2),
      ps.flatten ++ (m.obs.getD []).map fun x => (none, String.ofList x.1, scaledRect scale m x.2)⟩

/-- `lef_txt_to_layout_d` (8-75) -/
def read (scale : ℚ) (nm : Option String) (txt : List Char) : Option Layout :=
  (parse txt).bind fun ms =>
    let nm := match nm with
      | some n => some n.toList
      | none => if ms.length = 1 then ms.head?.map RMacro.name else none
    nm.bind fun n => if (ms.map RMacro.name).Nodup then (ms.find? fun m => m.name = n).bind (layoutOf scale) else none

/-! ## Lemmas: tokens -/

theorem numTok_shorter {s : List Char} {q : ℚ} {r : List Char} (h : numTok s = some (q, r)) : r.length < s.length := by
  have hs : (pySign s).2.length ≤ s.length := by
    unfold pySign
    split <;> simp
  have hd : ∀ l : List Char, (l.dropWhile isDig).length ≤ l.length := fun l => List.length_dropWhile_le _ _
  have hl : ∀ l : List Char, (l.takeWhile isDig).length + (l.dropWhile isDig).length = l.length := fun l => by
    rw [← List.length_append, List.takeWhile_append_dropWhile]
  have h0 := hl (pySign s).2
  unfold numTok at h
  dsimp only at h
  split at h
  · rename_i t ht
    rw [ht] at h0
    simp only [List.length_cons] at h0
    have h1 := hd t
    split at h
    · simp only [Option.some.injEq, Prod.mk.injEq] at h
      rw [← h.2]
      omega
    · split at h
      · simp only [Option.some.injEq, Prod.mk.injEq] at h
        rw [← h.2]
        omega
      · simp at h
  · split at h
    · rename_i hi
      simp only [Option.some.injEq, Prod.mk.injEq] at h
      rw [← h.2]
      have := List.length_pos_iff.2 hi
      omega
    · simp at h

theorem step_shorter {s : List Char} {t : Option Tok} {r : List Char} (h : step s = some (t, r)) : r.length < s.length := by
  cases s with
  | nil => simp [step] at h
  | cons c s =>
    simp only [step] at h
    split at h
    · simp only [Option.some.injEq, Prod.mk.injEq] at h
      rw [← h.2]
      simp
    · split at h
      · simp only [Option.some.injEq, Prod.mk.injEq] at h
        rw [← h.2]
        have := List.length_dropWhile_le isWord s
        simp only [List.length_cons]
        omega
      · split at h
        · simp only [Option.some.injEq, Prod.mk.injEq] at h
          rw [← h.2]
          simp
        · split at h
          · simp only [Option.map_eq_some_iff, Prod.mk.injEq] at h
            obtain ⟨x, hx, -, rfl⟩ := h
            unfold litTok at hx
            dsimp only at hx
            split at hx
            · simp only [Option.some.injEq] at hx
              rw [← hx]
              have h1 : (s.takeWhile (· ≠ '\n')).length + (s.dropWhile (· ≠ '\n')).length = s.length := by
                rw [← List.length_append, List.takeWhile_append_dropWhile]
              have h2 := (List.takeWhile_prefix (l := (s.takeWhile (· ≠ '\n')).reverse) (· ≠ '"')).length_le
              simp only [List.length_append, List.length_reverse, List.length_cons] at h2 ⊢
              omega
            · simp at hx
          · simp only [Option.map_eq_some_iff, Prod.mk.injEq] at h
            obtain ⟨⟨q, x⟩, hx, -, rfl⟩ := h
            exact numTok_shorter hx

theorem lexAux_enough : ∀ (n : Nat) (s : List Char), s.length ≤ n → lexAux n s = lexAux s.length s := by
  intro n
  induction n using Nat.strong_induction_on with
  | _ n ih =>
    intro s hs
    cases n with
    | zero =>
      have : s.length = 0 := by omega
      rw [this]
    | succ n =>
      cases hst : step s with
      | none =>
        cases s with
        | nil => simp [lexAux, hst]
        | cons c s => simp [lexAux, hst]
      | some x =>
        obtain ⟨t, r⟩ := x
        have hr := step_shorter hst
        obtain ⟨k, hk⟩ : ∃ k, s.length = k + 1 := ⟨s.length - 1, by omega⟩
        rw [hk]
        simp only [lexAux, hst]
        rw [ih n (by omega) r (by omega)]
        by_cases hkn : k = n
        · subst hkn
          rw [ih k (by omega) r (by omega)]
        · rw [ih k (by omega) r (by omega)]

theorem lex_step {s : List Char} {t : Option Tok} {r : List Char} (h : step s = some (t, r)) : lex s = t.toList ++ lex r := by
  have hr := step_shorter h
  obtain ⟨k, hk⟩ : ∃ k, s.length = k + 1 := ⟨s.length - 1, by omega⟩
  unfold lex
  rw [hk]
  simp only [lexAux, h]
  rw [lexAux_enough k r (by omega)]

theorem lex_nil : lex [] = [] := rfl

/-- A name that the tokenizer keeps in one piece: letters, digits and underscores, the first of them not a digit. -/
def Ident (w : List Char) : Prop :=
  ∃ c cs, w = c :: cs ∧ (c.isAlpha = true ∨ c = '_') ∧ ∀ d ∈ cs, d.isAlpha = true ∨ d = '_' ∨ isDig d = true

/-- The text does not go on with a character of a name. -/
def NoWord (r : List Char) : Prop := ∀ c ∈ r.head?, isWord c = false

theorem start_ne {c : Char} (h : isStart c = true) : c ≠ ';' := by
  rintro rfl
  exact absurd h (by decide)

theorem takeWhile_app {p : Char → Bool} {a r : List Char} (ha : ∀ c ∈ a, p c = true) (hr : ∀ c ∈ r.head?, p c = false) :
    (a ++ r).takeWhile p = a ∧ (a ++ r).dropWhile p = r := by
  induction a with
  | nil =>
    cases r with
    | nil => simp
    | cons c r => simp [hr c (by simp)]
  | cons x a ih =>
    have := ih (fun c hc => ha c (by simp [hc]))
    simp [ha x (by simp), this]

theorem lex_word {w r : List Char} (h : Ident w) (hr : NoWord r) : lex (w ++ r) = .word w :: lex r := by
  obtain ⟨c, cs, rfl, hc, hcs⟩ := h
  have hst : isStart c = true := by
    simp only [isStart, Bool.or_eq_true, beq_iff_eq]
    exact hc
  have h1 := takeWhile_app (p := isWord) (a := cs) (r := r) (fun d hd => by
    simp only [isWord, Bool.or_eq_true, beq_iff_eq]
    rcases hcs d hd with h | h | h <;> tauto) hr
  have : step ((c :: cs) ++ r) = some (some (.word (c :: cs)), r) := by
    simp only [List.cons_append, step, start_ne hst, if_false, hst, if_true, h1.1, h1.2]
  rw [lex_step this]
  rfl

theorem lex_space {c : Char} (r : List Char) (h : isSpace c = true) : lex (c :: r) = lex r := by
  have h1 : c ≠ ';' := by
    rintro rfl
    exact absurd h (by decide)
  have h2 : isStart c = false := by
    simp only [isSpace, List.contains_eq_mem, List.mem_cons, List.not_mem_nil, or_false, decide_eq_true_eq] at h
    rcases h with rfl | rfl | rfl | rfl | rfl | rfl <;> decide
  have : step (c :: r) = some (none, r) := by
    simp only [step, h1, if_false, h2, h, if_true]
    rfl
  rw [lex_step this]
  rfl

theorem lex_semi (r : List Char) : lex (';' :: r) = .semi :: lex r := by
  rw [lex_step (t := some .semi) (r := r) rfl]
  rfl

/-- The text does not go on with a digit or a point. -/
def NoNum (r : List Char) : Prop := ∀ c ∈ r.head?, isDig c = false ∧ c ≠ '.'

theorem numTok_digits {ds r : List Char} (hds : ∀ c ∈ ds, isDig c = true) (hne : ds ≠ []) (hr : NoNum r) :
    numTok (ds ++ r) = some ((digitsVal ds : ℚ), r) ∧ numTok ('-' :: (ds ++ r)) = some (-(digitsVal ds : ℚ), r) := by
  have h1 := takeWhile_app (p := isDig) (a := ds) (r := r) hds (fun c hc => (hr c hc).1)
  have hsg : pySign (ds ++ r) = (1, ds ++ r) := by
    cases ds with
    | nil => exact absurd rfl hne
    | cons c cs =>
      have hc := hds c (by simp)
      simp only [List.cons_append]
      unfold pySign
      split
      · rename_i heq
        simp only [List.cons.injEq] at heq
        rw [heq.1] at hc
        exact absurd hc (by decide)
      · rename_i heq
        simp only [List.cons.injEq] at heq
        rw [heq.1] at hc
        exact absurd hc (by decide)
      · rfl
  have hsg2 : pySign ('-' :: (ds ++ r)) = (-1, ds ++ r) := rfl
  constructor
  · unfold numTok
    simp only [hsg, h1.1, h1.2]
    split
    · rename_i t
      exact absurd rfl (hr '.' (by simp)).2
    · simp [hne]
  · unfold numTok
    simp only [hsg2, h1.1, h1.2]
    split
    · rename_i t
      exact absurd rfl (hr '.' (by simp)).2
    · simp [hne]

theorem pyStrAux_ne : ∀ (f n : Nat) (acc : List Char), f ≠ 0 ∨ acc ≠ [] → Verif.Pnr.pyStrAux f n acc ≠ []
  | 0, n, acc, h => by simpa [Verif.Pnr.pyStrAux] using h
  | f + 1, n, acc, _ => by
    unfold Verif.Pnr.pyStrAux
    split
    · simp
    · exact pyStrAux_ne f _ _ (Or.inr (by simp))

theorem pyStr_ne (n : Nat) : pyStr n ≠ [] := by
  unfold pyStr
  intro h
  exact absurd h (pyStrAux_ne _ _ _ (by simp))

theorem digit_plain {c : Char} (h : isDig c = true) : c ≠ ';' ∧ isStart c = false ∧ isSpace c = false ∧ c ≠ '"' := by
  rw [Verif.Schema.isDig_iff] at h
  obtain ⟨d, rfl⟩ := h
  revert d
  decide

theorem lex_int (z : Int) {r : List Char} (hr : NoNum r) : lex (showInt z ++ r) = .num z :: lex r := by
  have hd : ∀ c ∈ pyStr z.natAbs, isDig c = true := fun c hc => isDig_pyStr _ _ hc
  obtain ⟨h1, h2⟩ := numTok_digits hd (pyStr_ne _) hr
  rw [digitsVal_pyStr] at h1 h2
  unfold showInt
  split
  · rename_i hz
    have : step ('-' :: (pyStr z.natAbs ++ r)) = some (some (.num z), r) := by
      have e1 : ('-' = ';') = False := by decide
      have e2 : isStart '-' = false := by decide
      have e3 : isSpace '-' = false := by decide
      have e4 : ('-' = '"') = False := by decide
      have e5 : (-(z.natAbs : ℚ)) = (z : ℚ) := by
        have : ((z.natAbs : Int) : ℚ) = ((-z : Int) : ℚ) := by
          congr 1
          omega
        rw [show ((z.natAbs : ℚ)) = ((z.natAbs : Int) : ℚ) from by simp, this]
        push_cast
        ring
      simp only [step, e1, e2, e3, e4, if_false, h2, Option.map_some, e5]
      rfl
    rw [List.cons_append, lex_step this]
    rfl
  · rename_i hz
    obtain ⟨c, cs, hcs⟩ : ∃ c cs, pyStr z.natAbs = c :: cs := by
      cases hp : pyStr z.natAbs with
      | nil => exact absurd hp (pyStr_ne _)
      | cons c cs => exact ⟨c, cs, rfl⟩
    have hc := digit_plain (hd c (by simp [hcs]))
    have : step (pyStr z.natAbs ++ r) = some (some (.num z), r) := by
      have e5 : ((z.natAbs : ℚ)) = (z : ℚ) := by
        have : ((z.natAbs : Int) : ℚ) = ((z : Int) : ℚ) := by
          congr 1
          omega
        rw [← this]
        simp
      rw [hcs] at h1 ⊢
      simp only [List.cons_append] at h1 ⊢
      simp only [step, hc.1, hc.2.1, hc.2.2.1, hc.2.2.2, if_false, h1, Option.map_some, e5]
      rfl
    rw [lex_step this]
    rfl

def identB : List Char → Bool
  | [] => false
  | c :: cs => isStart c && cs.all isWord

theorem identB_iff (w : List Char) : identB w = true ↔ Ident w := by
  constructor
  · cases w with
    | nil => simp [identB]
    | cons c cs =>
      intro h
      simp only [identB, isStart, isWord, Bool.and_eq_true, Bool.or_eq_true, beq_iff_eq, List.all_eq_true] at h
      exact ⟨c, cs, rfl, h.1, fun d hd => by rcases h.2 d hd with (h | h) | h <;> tauto⟩
  · rintro ⟨c, cs, rfl, hc, hcs⟩
    simp only [identB, isStart, isWord, Bool.and_eq_true, Bool.or_eq_true, beq_iff_eq, List.all_eq_true]
    exact ⟨hc, fun d hd => by rcases hcs d hd with h | h | h <;> tauto⟩

theorem lex_sp (r : List Char) : lex (' ' :: r) = lex r := lex_space r (by decide)
theorem lex_nl (r : List Char) : lex ('\n' :: r) = lex r := lex_space r (by decide)

theorem lex_word_sp {w : List Char} (r : List Char) (h : identB w = true) : lex (w ++ (' ' :: r)) = .word w :: lex r := by
  rw [lex_word ((identB_iff w).1 h) (by intro c hc; simp at hc; subst hc; decide), lex_sp]

theorem lex_word_nl {w : List Char} (r : List Char) (h : identB w = true) : lex (w ++ ('\n' :: r)) = .word w :: lex r := by
  rw [lex_word ((identB_iff w).1 h) (by intro c hc; simp at hc; subst hc; decide), lex_nl]

theorem lex_int_sp (z : Int) (r : List Char) : lex (showInt z ++ (' ' :: r)) = .num z :: lex r := by
  rw [lex_int z (by intro c hc; simp at hc; subst hc; decide), lex_sp]

theorem lex_int_semi (z : Int) (r : List Char) : lex (showInt z ++ (';' :: r)) = .num z :: .semi :: lex r := by
  rw [lex_int z (by intro c hc; simp at hc; subst hc; decide), lex_semi]

/-! ## Lemmas: the tokens of the file -/

def rectToks (r : Rect) : List Tok := [.num r.x0, .num r.y0, .num r.x1, .num r.y1]

def shapeToks (s : Shape) : List Tok :=
  [kw "LAYER", .word s.1.toList, .semi, kw "RECT", .num s.2.x0, .num s.2.y0, .num s.2.x1, .num s.2.y1, .semi]

def pinToks (p : String × List Shape) : List Tok :=
  kw "PIN" :: .word p.1.toList :: kw "DIRECTION" :: kw "INOUT" :: .semi :: kw "USE" :: kw "SIGNAL" :: .semi :: kw "PORT" ::
    (p.2.flatMap shapeToks ++ (kw "END" :: kw "END" :: .word p.1.toList :: []))

theorem lex_layer6 (r : List Char) : lex ("      LAYER ".toList ++ r) = kw "LAYER" :: lex r := by
  rw [show "      LAYER ".toList ++ r = ' ' :: ' ' :: ' ' :: ' ' :: ' ' :: ' ' :: ("LAYER".toList ++ (' ' :: r)) from rfl]
  simp only [lex_sp]
  rw [lex_word_sp _ (by decide)]
  rfl

theorem lex_layer4 (r : List Char) : lex ("    LAYER ".toList ++ r) = kw "LAYER" :: lex r := by
  rw [show "    LAYER ".toList ++ r = ' ' :: ' ' :: ' ' :: ' ' :: ("LAYER".toList ++ (' ' :: r)) from rfl]
  simp only [lex_sp]
  rw [lex_word_sp _ (by decide)]
  rfl

theorem lex_rect8 (r : List Char) : lex ("        RECT ".toList ++ r) = kw "RECT" :: lex r := by
  rw [show "        RECT ".toList ++ r =
    ' ' :: ' ' :: ' ' :: ' ' :: ' ' :: ' ' :: ' ' :: ' ' :: ("RECT".toList ++ (' ' :: r)) from rfl]
  simp only [lex_sp]
  rw [lex_word_sp _ (by decide)]
  rfl

theorem lex_rect6 (r : List Char) : lex ("      RECT ".toList ++ r) = kw "RECT" :: lex r := by
  rw [show "      RECT ".toList ++ r = ' ' :: ' ' :: ' ' :: ' ' :: ' ' :: ' ' :: ("RECT".toList ++ (' ' :: r)) from rfl]
  simp only [lex_sp]
  rw [lex_word_sp _ (by decide)]
  rfl

theorem lex_word_line {w : List Char} (r : List Char) (h : identB w = true) :
    lex (w ++ (" ;\n".toList ++ r)) = .word w :: .semi :: lex r := by
  rw [show " ;\n".toList ++ r = ' ' :: ';' :: '\n' :: r from rfl, lex_word_sp _ h, lex_semi, lex_nl]

theorem lex_int_line (z : Int) (r : List Char) : lex (showInt z ++ (" ;\n".toList ++ r)) = .num z :: .semi :: lex r := by
  rw [show " ;\n".toList ++ r = ' ' :: ';' :: '\n' :: r from rfl, lex_int_sp, lex_semi, lex_nl]

theorem lex_rect_line (b : Rect) (r : List Char) :
    lex (showRect b ++ (" ;\n".toList ++ r)) = .num b.x0 :: .num b.y0 :: .num b.x1 :: .num b.y1 :: .semi :: lex r := by
  unfold showRect
  simp only [List.append_assoc, List.cons_append]
  rw [lex_int_sp, lex_int_sp, lex_int_sp, lex_int_line]

theorem lex_port {s : Shape} (r : List Char) (h : identB s.1.toList = true) :
    lex (writePortShape s ++ r) = shapeToks s ++ lex r := by
  unfold writePortShape
  simp only [List.append_assoc]
  rw [lex_layer6, lex_word_line _ h, lex_rect8, lex_rect_line]
  rfl

theorem lex_obs {s : Shape} (r : List Char) (h : identB s.1.toList = true) :
    lex (writeObs s ++ r) = shapeToks s ++ lex r := by
  unfold writeObs
  simp only [List.append_assoc]
  rw [lex_layer4, lex_word_line _ h, lex_rect6, lex_rect_line]
  rfl

theorem lex_flat {α : Type} {f : α → List Char} {g : α → List Tok} {l : List α} (r : List Char)
    (h : ∀ x ∈ l, ∀ r, lex (f x ++ r) = g x ++ lex r) : lex (l.flatMap f ++ r) = l.flatMap g ++ lex r := by
  induction l with
  | nil => simp
  | cons x l ih =>
    simp only [List.flatMap_cons, List.append_assoc]
    rw [h x (by simp), ih (fun y hy => h y (by simp [hy]))]

theorem lex_pin {p : String × List Shape} (r : List Char) (h : identB p.1.toList = true)
    (hs : ∀ s ∈ p.2, identB s.1.toList = true) : lex (writePin p ++ r) = pinToks p ++ lex r := by
  unfold writePin
  simp only [List.append_assoc]
  have e1 : ∀ r, lex ("  PIN ".toList ++ r) = kw "PIN" :: lex r := fun r => by
    rw [show "  PIN ".toList ++ r = ' ' :: ' ' :: ("PIN".toList ++ (' ' :: r)) from rfl, lex_sp, lex_sp, lex_word_sp _ (by decide)]
    rfl
  have e2 : ∀ r, "\n".toList ++ r = '\n' :: r := fun r => rfl
  have e3 : ∀ r, lex ("    DIRECTION INOUT ;\n".toList ++ r) = kw "DIRECTION" :: kw "INOUT" :: .semi :: lex r := fun r => by
    rw [show "    DIRECTION INOUT ;\n".toList ++ r =
      ' ' :: ' ' :: ' ' :: ' ' :: ("DIRECTION".toList ++ (' ' :: ("INOUT".toList ++ (' ' :: ';' :: '\n' :: r)))) from rfl]
    rw [lex_sp, lex_sp, lex_sp, lex_sp, lex_word_sp _ (by decide), lex_word_sp _ (by decide), lex_semi, lex_nl]
    rfl
  have e4 : ∀ r, lex ("    USE SIGNAL ;\n".toList ++ r) = kw "USE" :: kw "SIGNAL" :: .semi :: lex r := fun r => by
    rw [show "    USE SIGNAL ;\n".toList ++ r =
      ' ' :: ' ' :: ' ' :: ' ' :: ("USE".toList ++ (' ' :: ("SIGNAL".toList ++ (' ' :: ';' :: '\n' :: r)))) from rfl]
    rw [lex_sp, lex_sp, lex_sp, lex_sp, lex_word_sp _ (by decide), lex_word_sp _ (by decide), lex_semi, lex_nl]
    rfl
  have e5 : ∀ r, lex ("    PORT\n".toList ++ r) = kw "PORT" :: lex r := fun r => by
    rw [show "    PORT\n".toList ++ r = ' ' :: ' ' :: ' ' :: ' ' :: ("PORT".toList ++ ('\n' :: r)) from rfl]
    rw [lex_sp, lex_sp, lex_sp, lex_sp, lex_word_nl _ (by decide)]
    rfl
  have e6 : ∀ r, lex ("    END\n".toList ++ r) = kw "END" :: lex r := fun r => by
    rw [show "    END\n".toList ++ r = ' ' :: ' ' :: ' ' :: ' ' :: ("END".toList ++ ('\n' :: r)) from rfl]
    rw [lex_sp, lex_sp, lex_sp, lex_sp, lex_word_nl _ (by decide)]
    rfl
  have e7 : ∀ r, lex ("  END ".toList ++ r) = kw "END" :: lex r := fun r => by
    rw [show "  END ".toList ++ r = ' ' :: ' ' :: ("END".toList ++ (' ' :: r)) from rfl]
    rw [lex_sp, lex_sp, lex_word_sp _ (by decide)]
    rfl
  rw [e1, e2, lex_word_nl _ h, e3, e4, e5, lex_flat _ (fun s hs' r => lex_port r (hs s hs')), e6, e7, e2, lex_word_nl _ h]
  simp [pinToks]

def fileToks (nm : String) (scale : Nat) (m : Macro) : List Tok :=
  kw "MACRO" :: .word nm.toList :: kw "UNITS" :: kw "DATABASE" :: kw "MICRONS" :: kw "UNITS" :: .num ((1000 * scale : Int) : ℚ) :: .semi ::
  kw "END" :: kw "UNITS" :: kw "ORIGIN" :: .num ((0 : Int) : ℚ) :: .num ((0 : Int) : ℚ) :: .semi :: kw "FOREIGN" :: .word nm.toList ::
  .num ((0 : Int) : ℚ) :: .num ((0 : Int) : ℚ) :: .semi :: kw "SIZE" :: .num m.size.1 :: kw "BY" :: .num m.size.2 :: .semi ::
  (m.pins.flatMap pinToks ++ (kw "OBS" :: (m.obs.flatMap shapeToks ++ (kw "END" :: kw "END" :: .word nm.toList :: []))))

/-- Every name in the file is kept in one piece by the tokenizer. -/
def Clean (m : Macro) : Prop :=
  (∀ p ∈ m.pins, identB p.1.toList = true ∧ ∀ s ∈ p.2, identB s.1.toList = true) ∧ ∀ s ∈ m.obs, identB s.1.toList = true

theorem lex_write {nm : String} {scale : Nat} {m : Macro} (h : identB nm.toList = true) (hm : Clean m) :
    ∀ r, lex (write nm scale m ++ r) = fileToks nm scale m ++ lex r := by
  intro r
  unfold write
  simp only [List.append_assoc]
  have e1 : ∀ r, lex ("MACRO ".toList ++ r) = kw "MACRO" :: lex r := fun r => by
    rw [show "MACRO ".toList ++ r = "MACRO".toList ++ (' ' :: r) from rfl, lex_word_sp _ (by decide)]
    rfl
  have e2 : ∀ r, "\n".toList ++ r = '\n' :: r := fun r => rfl
  have e3 : ∀ r, lex ("  UNITS \n".toList ++ r) = kw "UNITS" :: lex r := fun r => by
    rw [show "  UNITS \n".toList ++ r = ' ' :: ' ' :: ("UNITS".toList ++ (' ' :: '\n' :: r)) from rfl]
    rw [lex_sp, lex_sp, lex_word_sp _ (by decide), lex_nl]
    rfl
  have e4 : ∀ r, lex ("    DATABASE MICRONS UNITS ".toList ++ r) = kw "DATABASE" :: kw "MICRONS" :: kw "UNITS" :: lex r := fun r => by
    rw [show "    DATABASE MICRONS UNITS ".toList ++ r =
      ' ' :: ' ' :: ' ' :: ' ' :: ("DATABASE".toList ++ (' ' :: ("MICRONS".toList ++ (' ' :: ("UNITS".toList ++ (' ' :: r)))))) from rfl]
    rw [lex_sp, lex_sp, lex_sp, lex_sp, lex_word_sp _ (by decide), lex_word_sp _ (by decide), lex_word_sp _ (by decide)]
    rfl
  have e5 : ∀ r, ";\n".toList ++ r = ';' :: '\n' :: r := fun r => rfl
  have e6 : ∀ r, lex ("  END UNITS \n".toList ++ r) = kw "END" :: kw "UNITS" :: lex r := fun r => by
    rw [show "  END UNITS \n".toList ++ r = ' ' :: ' ' :: ("END".toList ++ (' ' :: ("UNITS".toList ++ (' ' :: '\n' :: r)))) from rfl]
    rw [lex_sp, lex_sp, lex_word_sp _ (by decide), lex_word_sp _ (by decide), lex_nl]
    rfl
  have e7 : ∀ r, lex ("  ORIGIN 0 0 ;\n".toList ++ r) = kw "ORIGIN" :: .num ((0 : Int) : ℚ) :: .num ((0 : Int) : ℚ) :: .semi :: lex r := fun r => by
    rw [show "  ORIGIN 0 0 ;\n".toList ++ r =
      ' ' :: ' ' :: ("ORIGIN".toList ++ (' ' :: (showInt 0 ++ (' ' :: (showInt 0 ++ (' ' :: ';' :: '\n' :: r)))))) from rfl]
    rw [lex_sp, lex_sp, lex_word_sp _ (by decide), lex_int_sp, lex_int_sp, lex_semi, lex_nl]
    rfl
  have e8 : ∀ r, lex ("  FOREIGN ".toList ++ r) = kw "FOREIGN" :: lex r := fun r => by
    rw [show "  FOREIGN ".toList ++ r = ' ' :: ' ' :: ("FOREIGN".toList ++ (' ' :: r)) from rfl]
    rw [lex_sp, lex_sp, lex_word_sp _ (by decide)]
    rfl
  have e9 : ∀ r, lex (nm.toList ++ (" 0 0 ;\n".toList ++ r)) =
      .word nm.toList :: .num ((0 : Int) : ℚ) :: .num ((0 : Int) : ℚ) :: .semi :: lex r := fun r => by
    rw [show " 0 0 ;\n".toList ++ r = (' ' :: (showInt 0 ++ (' ' :: (showInt 0 ++ (' ' :: ';' :: '\n' :: r))))) from rfl]
    rw [lex_word_sp _ h, lex_int_sp, lex_int_sp, lex_semi, lex_nl]
  have e10 : ∀ r, lex ("  SIZE ".toList ++ r) = kw "SIZE" :: lex r := fun r => by
    rw [show "  SIZE ".toList ++ r = ' ' :: ' ' :: ("SIZE".toList ++ (' ' :: r)) from rfl]
    rw [lex_sp, lex_sp, lex_word_sp _ (by decide)]
    rfl
  have e11 : ∀ (z : Int) r, lex (showInt z ++ (" BY ".toList ++ r)) = .num z :: kw "BY" :: lex r := fun z r => by
    rw [show " BY ".toList ++ r = ' ' :: ("BY".toList ++ (' ' :: r)) from rfl, lex_int_sp, lex_word_sp _ (by decide)]
    rfl
  have e12 : ∀ r, lex ("  OBS\n".toList ++ r) = kw "OBS" :: lex r := fun r => by
    rw [show "  OBS\n".toList ++ r = ' ' :: ' ' :: ("OBS".toList ++ ('\n' :: r)) from rfl, lex_sp, lex_sp, lex_word_nl _ (by decide)]
    rfl
  have e13 : ∀ r, lex ("  END\n".toList ++ r) = kw "END" :: lex r := fun r => by
    rw [show "  END\n".toList ++ r = ' ' :: ' ' :: ("END".toList ++ ('\n' :: r)) from rfl, lex_sp, lex_sp, lex_word_nl _ (by decide)]
    rfl
  have e14 : ∀ r, lex ("END ".toList ++ r) = kw "END" :: lex r := fun r => by
    rw [show "END ".toList ++ r = "END".toList ++ (' ' :: r) from rfl, lex_word_sp _ (by decide)]
    rfl
  rw [e1, e2, lex_word_nl _ h, e3, e4, e5, lex_int_semi, lex_nl, e6, e7, e8, e9, e10, e11, lex_int_line,
    lex_flat _ (fun p hp r => lex_pin r (hm.1 p hp).1 (hm.1 p hp).2), e12,
    lex_flat _ (fun s hs r => lex_obs r (hm.2 s hs)), e13, e14, e2, lex_word_nl _ h]
  simp [fileToks]

/-! ## Lemmas: the parser on these tokens -/

def rawRect (r : Rect) : RRect := (r.x0, r.y0, r.x1, r.y1)
def raw (s : Shape) : RShape := (s.1.toList, rawRect s.2)

theorem ports_shapes (ss : List Shape) : ∀ (l : Option (List Char)) (acc : List RShape) (rest : List Tok),
    ports l acc (ss.flatMap shapeToks ++ (kw "END" :: rest)) = some (acc ++ ss.map raw, rest) := by
  induction ss with
  | nil =>
    intro l acc rest
    simp only [List.flatMap_nil, List.nil_append, List.map_nil, List.append_nil, kw]
    rw [ports.eq_def]
    dsimp only
    rw [if_pos rfl]
  | cons s ss ih =>
    intro l acc rest
    simp only [List.flatMap_cons, shapeToks, List.cons_append, List.nil_append, kw]
    rw [ports.eq_def]
    dsimp only
    rw [if_neg (by decide), if_pos rfl]
    rw [ports.eq_def]
    dsimp only
    rw [if_neg (by decide), if_neg (by decide), if_pos rfl]
    simp only [Option.bind_some]
    have := ih (some s.1.toList) (acc ++ [(s.1.toList, (s.2.x0 : ℚ), (s.2.y0 : ℚ), (s.2.x1 : ℚ), (s.2.y1 : ℚ))]) rest
    rw [show kw "END" = Tok.word "END".toList from rfl] at this
    rw [this]
    simp [raw, rawRect]

theorem pinLoop_pin (nm : List Char) (ss : List Shape) (n : Nat) (rest : List Tok) :
    pinLoop nm (n + 4) none (kw "DIRECTION" :: kw "INOUT" :: .semi :: kw "USE" :: kw "SIGNAL" :: .semi :: kw "PORT" ::
      (ss.flatMap shapeToks ++ (kw "END" :: kw "END" :: .word nm :: rest))) = some (some (ss.map raw), rest) := by
  simp only [kw]
  rw [pinLoop.eq_def]
  dsimp only
  rw [if_neg (by decide), if_pos (by decide)]
  rw [pinLoop.eq_def]
  dsimp only
  rw [if_neg (by decide), if_pos (by decide)]
  rw [pinLoop.eq_def]
  dsimp only
  rw [if_neg (by decide), if_neg (by decide), if_pos rfl]
  have := ports_shapes ss none [] (kw "END" :: .word nm :: rest)
  simp only [kw] at this
  rw [this]
  simp only [Option.bind_some, List.nil_append]
  rw [pinLoop.eq_def]
  dsimp only
  rw [if_pos rfl]
  simp

theorem pinToks_length (p : String × List Shape) (rest : List Tok) : rest.length + 10 ≤ (pinToks p ++ rest).length := by
  simp only [pinToks, List.length_append, List.length_cons, List.length_nil]
  omega

theorem macroLoop_pin (p : String × List Shape) (n : Nat) (m : RMacro) (rest : List Tok) :
    macroLoop (n + 1) m (pinToks p ++ rest) =
      macroLoop n { m with pins := m.pins ++ [(p.1.toList, some (p.2.map raw))] } rest := by
  simp only [pinToks, List.cons_append, List.append_assoc, List.nil_append]
  rw [show kw "PIN" = Tok.word "PIN".toList from rfl]
  rw [macroLoop.eq_def]
  dsimp only
  rw [if_neg (by decide), if_neg (by decide), if_neg (by decide), if_neg (by decide), if_pos rfl]
  have : ∀ f, 4 ≤ f → pinLoop p.1.toList f none (kw "DIRECTION" :: kw "INOUT" :: .semi :: kw "USE" :: kw "SIGNAL" :: .semi :: kw "PORT" ::
      (p.2.flatMap shapeToks ++ (kw "END" :: kw "END" :: .word p.1.toList :: rest))) = some (some (p.2.map raw), rest) := by
    intro f hf
    obtain ⟨k, rfl⟩ : ∃ k, f = k + 4 := ⟨f - 4, by omega⟩
    exact pinLoop_pin _ _ _ _
  rw [this _ (by simp only [List.length_cons]; omega)]
  simp only [Option.bind_some]

theorem macroLoop_pins (ps : List (String × List Shape)) : ∀ (n : Nat) (m : RMacro) (rest : List Tok),
    macroLoop (ps.length + n) m (ps.flatMap pinToks ++ rest) =
      macroLoop n { m with pins := m.pins ++ ps.map fun p => (p.1.toList, some (p.2.map raw)) } rest := by
  induction ps with
  | nil => intro n m rest; simp
  | cons p ps ih =>
    intro n m rest
    simp only [List.flatMap_cons, List.append_assoc, List.length_cons]
    rw [show ps.length + 1 + n = (ps.length + n) + 1 from by omega, macroLoop_pin, ih]
    simp [List.append_assoc]

/-- What the parser makes of a written cell. -/
def rawMacro (nm : String) (scale : Nat) (m : Macro) : RMacro :=
  ⟨nm.toList, ((1000 * scale : Int) : ℚ), some (0, 0), some (m.size.1, m.size.2),
    m.pins.map fun p => (p.1.toList, some (p.2.map raw)), some (m.obs.map raw)⟩

theorem pins_length (ps : List (String × List Shape)) : ps.length ≤ (ps.flatMap pinToks).length := by
  induction ps with
  | nil => simp
  | cons p ps ih =>
    simp only [List.flatMap_cons, List.length_append, List.length_cons]
    have : 1 ≤ (pinToks p).length := by simp [pinToks]
    omega

theorem whole_file {nm : String} {scale : Nat} {m : Macro} (n : Nat) (acc : List RMacro) (rest : List Tok) :
    whole (n + 1) acc (fileToks nm scale m ++ rest) = whole n (acc ++ [rawMacro nm scale m]) rest := by
  simp only [fileToks, List.cons_append, List.append_assoc, List.nil_append]
  rw [show kw "MACRO" = Tok.word "MACRO".toList from rfl]
  rw [whole.eq_def]
  dsimp only
  rw [if_neg (by decide), if_neg (by decide), if_neg (by decide), if_neg (by decide), if_pos rfl]
  have hl := pins_length m.pins
  have key : ∀ f, m.pins.length + 6 ≤ f →
      macroLoop f ⟨nm.toList, 10000, none, none, [], none⟩
        (kw "UNITS" :: kw "DATABASE" :: kw "MICRONS" :: kw "UNITS" :: .num ((1000 * scale : Int) : ℚ) :: .semi ::
        kw "END" :: kw "UNITS" :: kw "ORIGIN" :: .num ((0 : Int) : ℚ) :: .num ((0 : Int) : ℚ) :: .semi :: kw "FOREIGN" :: .word nm.toList ::
        .num ((0 : Int) : ℚ) :: .num ((0 : Int) : ℚ) :: .semi :: kw "SIZE" :: .num m.size.1 :: kw "BY" :: .num m.size.2 :: .semi ::
        (m.pins.flatMap pinToks ++ (kw "OBS" :: (m.obs.flatMap shapeToks ++ (kw "END" :: kw "END" :: .word nm.toList :: rest))))) =
      some (rawMacro nm scale m, rest) := by
    intro f hf
    obtain ⟨k, rfl⟩ : ∃ k, f = (m.pins.length + (k + 2)) + 1 + 1 + 1 + 1 := ⟨f - (m.pins.length + 6), by omega⟩
    simp only [show ∀ s, kw s = Tok.word s.toList from fun s => rfl]
    rw [macroLoop.eq_def]
    dsimp only
    rw [if_neg (by decide), if_neg (by decide), if_neg (by decide), if_neg (by decide), if_neg (by decide), if_pos rfl]
    rw [if_pos ⟨rfl, rfl, rfl, rfl, rfl⟩]
    rw [macroLoop.eq_def]
    dsimp only
    rw [if_neg (by decide), if_pos rfl]
    rw [macroLoop.eq_def]
    dsimp only
    rw [if_neg (by decide), if_neg (by decide), if_pos rfl]
    rw [macroLoop.eq_def]
    dsimp only
    rw [if_neg (by decide), if_neg (by decide), if_neg (by decide), if_pos rfl]
    rw [if_pos rfl, macroLoop_pins]
    rw [macroLoop.eq_def]
    dsimp only
    rw [if_neg (by decide), if_neg (by decide), if_neg (by decide), if_neg (by decide), if_neg (by decide),
      if_neg (by decide), if_pos rfl]
    have := ports_shapes m.obs none [] (kw "END" :: .word nm.toList :: rest)
    simp only [kw] at this
    rw [this]
    simp only [Option.bind_some, List.nil_append]
    rw [macroLoop.eq_def]
    dsimp only
    rw [if_pos rfl]
    simp [rawMacro]
  rw [key _ (by simp only [List.length_cons, List.length_append]; omega)]
  simp only [Option.bind_some]

theorem whole_files (cs : List (String × Nat × Macro)) : ∀ (n : Nat) (acc : List RMacro),
    whole (cs.length + (n + 1)) acc (cs.flatMap fun c => fileToks c.1 c.2.1 c.2.2) =
      some (acc ++ cs.map fun c => rawMacro c.1 c.2.1 c.2.2) := by
  induction cs with
  | nil => intro n acc; simp [whole]
  | cons c cs ih =>
    intro n acc
    simp only [List.flatMap_cons, List.length_cons]
    rw [show cs.length + 1 + (n + 1) = (cs.length + (n + 1)) + 1 from by omega, whole_file, ih]
    simp

theorem pyRound_int (z : Int) : pyRound (z : ℚ) = z := by
  unfold pyRound
  simp

theorem scaled_same {nm : String} {scale : Nat} (hs : 0 < scale) (m : Macro) (z : Int) :
    scaled scale (rawMacro nm scale m) (z : ℚ) = z := by
  unfold scaled
  have h0 : (scale : ℚ) ≠ 0 := by
    have : (0 : ℚ) < scale := by exact_mod_cast hs
    exact ne_of_gt this
  have : 1000 * (scale : ℚ) * (z : ℚ) / (rawMacro nm scale m).scale = (z : ℚ) := by
    simp only [rawMacro]
    push_cast
    field_simp
  rw [this, pyRound_int]

theorem layoutOf_raw {nm : String} {scale : Nat} (hs : 0 < scale) (m : Macro) :
    layoutOf scale (rawMacro nm scale m) = some ⟨⟨0, 0, m.size.1, m.size.2⟩,
      (m.pins.flatMap fun p => p.2.map fun s => (some p.1, s)) ++ m.obs.map fun s => (none, s)⟩ := by
  have hr : ∀ r : Rect, scaledRect scale (rawMacro nm scale m) (rawRect r) = r := fun r => by
    simp only [scaledRect, rawRect, scaled_same hs]
  have hb : scaledRect scale (rawMacro nm scale m) (0, 0, 0 + (m.size.1 : ℚ), 0 + (m.size.2 : ℚ)) = ⟨0, 0, m.size.1, m.size.2⟩ := by
    have := hr ⟨0, 0, m.size.1, m.size.2⟩
    simpa [rawRect] using this
  have hne : (rawMacro nm scale m).scale ≠ 0 := by
    simp only [rawMacro]
    have : (0 : ℚ) < scale := by exact_mod_cast hs
    push_cast
    positivity
  have hp : ∀ ps : List (String × List Shape),
      ((ps.map fun p => (p.1.toList, some (p.2.map raw))).mapM fun (p : List Char × Option (List RShape)) => p.2.map fun sh => sh.map fun x =>
        (some (String.ofList p.1), String.ofList x.1, scaledRect scale (rawMacro nm scale m) x.2)) =
      some (ps.map fun p => p.2.map fun s => (some p.1, s)) := by
    intro ps
    induction ps with
    | nil => rfl
    | cons p ps ih =>
      rw [List.map_cons, List.mapM_cons, ih]
      simp only [Option.map_some, List.map_map, List.map_cons]
      have : ∀ s : Shape, (some (String.ofList p.1.toList), String.ofList (raw s).1,
          scaledRect scale (rawMacro nm scale m) (raw s).2) = (some p.1, s) := fun s => by
        simp [raw, hr]
      simp only [Function.comp_def, this]
      rfl
  unfold layoutOf
  simp only [if_neg hne, show (rawMacro nm scale m).origin = some (0, 0) from rfl, show (rawMacro nm scale m).size = some (↑m.size.1, ↑m.size.2) from rfl,
    show (rawMacro nm scale m).obs = some (m.obs.map raw) from rfl, Option.bind_some,
    show (rawMacro nm scale m).pins = m.pins.map fun p => (p.1.toList, some (p.2.map raw)) from rfl, hp, Option.map_some, hb, Option.getD_some]
  congr 2
  congr 1
  rw [List.map_map]
  apply List.map_congr_left
  intro s _
  simp [raw, hr]

/-! ## Theorems -/

/-- The names of a cell are such that they are kept in one piece: pins, and layers of pins and obstructions. -/
def GoodNames (m : Macro) : Prop :=
  (∀ p ∈ m.pins, Ident p.1.toList ∧ ∀ s ∈ p.2, Ident s.1.toList) ∧ ∀ s ∈ m.obs, Ident s.1.toList

theorem clean_of {m : Macro} (h : GoodNames m) : Clean m :=
  ⟨fun p hp => ⟨(identB_iff _).2 (h.1 p hp).1, fun s hs => (identB_iff _).2 ((h.1 p hp).2 s hs)⟩, fun s hs => (identB_iff _).2 (h.2 s hs)⟩

theorem parse_library {cs : List (String × Nat × Macro)} (h : ∀ c ∈ cs, Ident c.1.toList ∧ GoodNames c.2.2) :
    parse (cs.flatMap fun c => write c.1 c.2.1 c.2.2) = some (cs.map fun c => rawMacro c.1 c.2.1 c.2.2) := by
  have hlex : lex (cs.flatMap fun c => write c.1 c.2.1 c.2.2) = cs.flatMap fun c => fileToks c.1 c.2.1 c.2.2 := by
    have := lex_flat (f := fun c : String × Nat × Macro => write c.1 c.2.1 c.2.2) (g := fun c => fileToks c.1 c.2.1 c.2.2) (l := cs) []
      (fun c hc r => lex_write ((identB_iff _).2 (h c hc).1) (clean_of (h c hc).2) r)
    simpa [lex_nil] using this
  have hlen : cs.length ≤ (cs.flatMap fun c => fileToks c.1 c.2.1 c.2.2).length := by
    clear h hlex
    induction cs with
    | nil => simp
    | cons c cs ih =>
      simp only [List.flatMap_cons, List.length_append, List.length_cons]
      have : 1 ≤ (fileToks c.1 c.2.1 c.2.2).length := by simp [fileToks]
      omega
  unfold parse
  rw [hlex]
  obtain ⟨k, hk⟩ : ∃ k, (cs.flatMap fun c => fileToks c.1 c.2.1 c.2.2).length + 1 = cs.length + (k + 1) :=
    ⟨(cs.flatMap fun c => fileToks c.1 c.2.1 c.2.2).length - cs.length, by omega⟩
  rw [hk, whole_files]
  simp

/-- **C69** Files written one after the other form a library; reading a cell of it by its name, with the scale factor it was
written with, gives back that cell: its size, the shapes of every pin under the name of the pin, and the obstructions. -/
theorem C69_library_partial {cs : List (String × Nat × Macro)} (h : ∀ c ∈ cs, Ident c.1.toList ∧ GoodNames c.2.2)
    (hn : (cs.map Prod.fst).Nodup) {nm : String} {scale : Nat} {m : Macro} (hc : (nm, scale, m) ∈ cs) (hs : 0 < scale) :
    read scale (some nm) (cs.flatMap fun c => write c.1 c.2.1 c.2.2) = some
      { bbox := ⟨0, 0, m.size.1, m.size.2⟩
        terminals := (m.pins.flatMap fun p => p.2.map fun s => (some p.1, s)) ++ m.obs.map fun s => (none, s) } := by
  have hnames : (cs.map fun c => rawMacro c.1 c.2.1 c.2.2).map RMacro.name = (cs.map Prod.fst).map String.toList := by
    simp [List.map_map, Function.comp_def, rawMacro]
  have hnd : ((cs.map fun c => rawMacro c.1 c.2.1 c.2.2).map RMacro.name).Nodup := by
    rw [hnames]
    exact hn.map (fun a b hab => String.toList_inj.1 hab)
  have hfind : (cs.map fun c => rawMacro c.1 c.2.1 c.2.2).find? (fun x => x.name = nm.toList) = some (rawMacro nm scale m) := by
    clear h hnames hnd
    induction cs with
    | nil => simp at hc
    | cons c cs ih =>
      rw [List.map_cons, List.nodup_cons] at hn
      rw [List.map_cons, List.find?_cons]
      rcases List.mem_cons.1 hc with rfl | hc'
      · simp [rawMacro]
      · have hne : c.1 ≠ nm := by
          rintro rfl
          exact hn.1 (List.mem_map.2 ⟨_, hc', rfl⟩)
        have : ((rawMacro c.1 c.2.1 c.2.2).name = nm.toList) = False := by
          simp only [rawMacro, eq_iff_iff, iff_false]
          exact fun e => hne (String.toList_inj.1 e)
        simp only [this, decide_false]
        exact ih hn.2 hc'
  unfold read
  rw [parse_library h]
  simp only [Option.bind_some]
  rw [if_pos hnd, hfind]
  exact layoutOf_raw hs m

/-- **C69** One file is read back without giving the name. -/
theorem C69_single_partial {nm : String} {scale : Nat} {m : Macro} (hnm : Ident nm.toList) (h : GoodNames m) (hs : 0 < scale) :
    read scale none (write nm scale m) = some
      { bbox := ⟨0, 0, m.size.1, m.size.2⟩
        terminals := (m.pins.flatMap fun p => p.2.map fun s => (some p.1, s)) ++ m.obs.map fun s => (none, s) } := by
  have := parse_library (cs := [(nm, scale, m)]) (by simpa using ⟨hnm, h⟩)
  simp only [List.flatMap_cons, List.flatMap_nil, List.append_nil, List.map_cons, List.map_nil] at this
  unfold read
  rw [this]
  simp only [Option.bind_some, List.length_singleton, if_true, List.head?_cons, Option.map_some, List.map_cons, List.map_nil,
    List.nodup_singleton, List.find?_cons, decide_true]
  exact layoutOf_raw hs m

/-- **C69, from the layout to the layout** (routing mode, body shown, cell not blocked as a whole, box at the origin).  Writing
the LEF file of a layout and reading it gives the same box and, up to the order, the same terminals on the layers that are not
excluded, where shapes that are not pins have no net name.  Missing: names that are not identifiers, see below. -/
theorem C69_layout_partial {o : Opts} {bbox : Rect} {ts : List Term} {m : Macro} (h : lef o bbox ts = some m)
    (hr : o.placement = false) (hb : o.blockM = 0) (hbody : ∀ t ∈ ts, ¬HiddenBody o t) (h0 : bbox.x0 = 0 ∧ bbox.y0 = 0)
    {nm : String} (hnm : Ident nm.toList) (hl : ∀ t ∈ ts, Ident t.layer.toList)
    (hn : ∀ t ∈ ts, t.isPin = true → ∀ n, t.net = some n → Ident n.toList) {scale : Nat} (hs : 0 < scale) :
    ∃ L, read scale none (write nm scale m) = some L ∧ L.bbox = bbox ∧
      L.terminals.Perm ((ts.filter fun t => decide (t.layer ∉ o.exclude)).map fun t =>
        (if t.isPin = true then t.net else none, t.layer, t.rect)) := by
  have hobs := C64_obstructions h hb
  have hsize := C64_size_partial h h0
  obtain ⟨-, -, hpn, hps⟩ := C64_pins h
  have hgood : GoodNames m := by
    constructor
    · intro p hp
      obtain ⟨sel, hsub, hsh, hsel, -⟩ := hps p.1 p.2 hp
      constructor
      · obtain ⟨⟨t, ht, hpin, n, hnet, he⟩, -⟩ := (hpn p.1).1 (List.mem_map_of_mem (f := Prod.fst) hp)
        rw [hr] at he
        simp only [Bool.false_eq_true, if_false] at he
        rw [← he]
        exact hn t ht hpin n hnet
      · intro s hs'
        rw [hsh] at hs'
        obtain ⟨t, ht, rfl⟩ := List.mem_map.1 hs'
        exact hl t ((hsel t).1 ht).1
    · intro s hs'
      rw [hobs] at hs'
      obtain ⟨t, ht, rfl⟩ := List.mem_map.1 hs'
      exact hl t (List.mem_filter.1 ht).1
  refine ⟨_, C69_single_partial hnm hgood hs, ?_, ?_⟩
  · rw [hsize]
    simp [h0.1, h0.2]
    cases bbox
    simp_all
  dsimp only
  rw [hobs]
  unfold lef at h
  split at h
  · rw [Option.bind_eq_some_iff] at h
    obtain ⟨pins, hp, h⟩ := h
    obtain ⟨h1, h2, h3, h4⟩ := pinNames_spec hp
    simp only at h
    split at h
    · simp only [Option.some.injEq] at h
      subst h
      have hshow : (pins.filter fun p => !(p == "B" && o.bodyswitch == 0)) = pins := by
        rw [List.filter_eq_self]
        intro p hpin
        obtain ⟨t, ht, hpo⟩ := (h3 p).mp hpin
        have := hbody t ht
        unfold HiddenBody at this
        by_cases hB : p = "B"
        · subst hB
          have : o.bodyswitch ≠ 0 := fun e => this ⟨e, hpo⟩
          simp [this]
        · simp [hB]
      simp only [hshow, List.flatMap_map]
      have e0 : (pins.flatMap fun p => ((onNet o ts p).map shape).map fun s => (some p, s)) =
          (pins.flatMap fun p => onNet o ts p).map fun t => (if t.isPin = true then t.net else none, t.layer, t.rect) := by
        rw [List.map_flatMap]
        apply List.flatMap_congr
        intro p _
        rw [List.map_map]
        apply List.map_congr_left
        intro t ht
        obtain ⟨-, ⟨hpin, n, hnet, he⟩, -⟩ := mem_onNet.1 ht
        rw [hr] at he
        simp only [Bool.false_eq_true, if_false] at he
        simp [shape, hpin, hnet, he]
      have e1 : ((ts.filter fun t => decide (t.isPin = false ∧ t.layer ∉ o.exclude)).map shape).map (fun s => ((none : Option String), s)) =
          (ts.filter fun t => (!t.isPin && decide (t.layer ∉ o.exclude))).map
            fun t => (if t.isPin = true then t.net else none, t.layer, t.rect) := by
        rw [List.map_map]
        have : (ts.filter fun t => decide (t.isPin = false ∧ t.layer ∉ o.exclude)) =
            ts.filter fun t => (!t.isPin && decide (t.layer ∉ o.exclude)) := by
          apply List.filter_congr
          intro t _
          cases t.isPin <;> simp
        rw [this]
        apply List.map_congr_left
        intro t ht
        have := (List.mem_filter.1 ht).2
        have hf : t.isPin = false := by
          cases hh : t.isPin <;> simp [hh] at this ⊢
        simp [shape, hf]
      rw [e0, e1, ← List.map_append]
      apply List.Perm.map
      have hpins : (pins.flatMap fun p => onNet o ts p).Perm
          (ts.filter fun t => t.isPin && decide (t.layer ∉ o.exclude)) := by
        have e : (pins.flatMap fun p => onNet o ts p) =
            pins.flatMap fun p => (ts.filter fun t => t.isPin && decide (t.layer ∉ o.exclude)).filter
              fun t => t.net.map o.map == some p := by
          apply List.flatMap_congr
          intro p _
          rw [List.filter_filter]
          unfold onNet
          apply List.filter_congr
          intro t _
          rw [hr]
          cases t.isPin <;> simp [Bool.and_comm]
        rw [e]
        apply flatMap_filter_perm (fun t : Term => t.net.map o.map) h1
        intro t ht
        obtain ⟨ht, hc⟩ := List.mem_filter.mp ht
        rw [Bool.and_eq_true] at hc
        obtain ⟨n, hn⟩ := h4 t ht hc.1
        exact ⟨o.map n, (h3 _).mpr ⟨t, ht, hc.1, n, hn, rfl⟩, by rw [hn]; rfl⟩
      refine (List.Perm.append_right _ hpins).trans ?_
      have hsplit := List.filter_append_perm (fun t : Term => t.isPin)
        (ts.filter fun t => decide (t.layer ∉ o.exclude))
      rw [List.filter_filter, List.filter_filter] at hsplit
      exact hsplit
    · cases h
  · cases h

/-! ### A non-trivial case, and the violations -/

/-- The cell of `Verif.Lef.Model` meets the hypotheses. -/
example : ∃ L m, lef (opts 1) cellBox cell = some m ∧ read 10 none (write "nmos_4x" 10 m) = some L ∧ L.bbox = cellBox ∧
    (some "D", "M3", (⟨60, 0, 100, 168⟩ : Rect)) ∈ L.terminals := by
  obtain ⟨m, hm⟩ : ∃ m, lef (opts 1) cellBox cell = some m := Option.isSome_iff_exists.1 (by decide +kernel)
  obtain ⟨L, h1, h2, h3⟩ := C69_layout_partial hm rfl rfl (fun t _ h => absurd h.1 (by decide)) ⟨rfl, rfl⟩ (nm := "nmos_4x")
    ((identB_iff _).1 (by decide)) (fun t ht => (identB_iff _).1 (by revert t; decide))
    (fun t ht _ n hn => (identB_iff _).1 (by
      have : ∀ t ∈ cell, ∀ x ∈ t.net, identB x.toList = true := by decide
      exact this t ht n hn)) (scale := 10) (by decide)
  refine ⟨L, m, hm, by simpa using h1, h2, h3.mem_iff.2 ?_⟩
  decide

/-- **C69 is violated by a name with an index.**  The file of a cell with a pin `A[0]` is written, and cannot be read. -/
theorem C69_violated_index :
    (lef (opts 1) cellBox [⟨"M3", some "A[0]", true, ⟨60, 0, 100, 168⟩⟩]).isSome = true ∧
    ∀ m, lef (opts 1) cellBox [⟨"M3", some "A[0]", true, ⟨60, 0, 100, 168⟩⟩] = some m →
      ∀ scale, read scale none (write "cell" 10 m) = none := by
  refine ⟨by decide +kernel, fun m hm scale => ?_⟩
  have : m = ⟨(160, 168), [("A[0]", [("M3", ⟨60, 0, 100, 168⟩)])], []⟩ := by
    have h : lef (opts 1) cellBox [⟨"M3", some "A[0]", true, ⟨60, 0, 100, 168⟩⟩] =
      some ⟨(160, 168), [("A[0]", [("M3", ⟨60, 0, 100, 168⟩)])], []⟩ := by decide +kernel
    rw [hm] at h
    exact Option.some.inj h
  subst this
  have hp : (parse (write "cell" 10 ⟨(160, 168), [("A[0]", [("M3", ⟨60, 0, 100, 168⟩)])], []⟩)).isNone = true := by decide +kernel
  unfold read
  rw [Option.isNone_iff_eq_none.1 hp]
  rfl

/-- **C69 is violated by a pin with two ports**, as other tools write them: only the shapes of the last are kept. -/
theorem C69_violated_ports :
    (read 10 none ("MACRO c ORIGIN 0 0 ; SIZE 80 BY 84 ; PIN A PORT LAYER M1 ; RECT 0 0 8 84 ; END PORT LAYER M1 ; RECT 72 0 80 84 ; " ++
      "END END A END c").toList).map Layout.terminals = some [(some "A", "M1", ⟨72, 0, 80, 84⟩)] := by decide +kernel

/-- **C69 is violated by a character outside of the grammar**, such as that of a comment: reading ends there without
complaint, and the cells that follow are lost. -/
theorem C69_violated_silent (tail : List Char) (scale : ℚ) :
    read scale none ("MACRO c ORIGIN 0 0 ; SIZE 80 BY 84 ; END c\n".toList ++ '#' :: tail) =
      read scale none "MACRO c ORIGIN 0 0 ; SIZE 80 BY 84 ; END c\n".toList := by
  have hash : lex ('#' :: tail) = [] := by
    have : step ('#' :: tail) = none := by
      have e : numTok ('#' :: tail) = none := by
        have e1 : pySign ('#' :: tail) = (1, '#' :: tail) := by
          unfold pySign
          split <;> simp_all
        have e2 : isDig '#' = false := by decide
        unfold numTok
        simp [e1, e2]
      have e1 : ('#' = ';') = False := by decide
      have e2 : isStart '#' = false := by decide
      have e3 : isSpace '#' = false := by decide
      have e4 : ('#' = '"') = False := by decide
      simp only [step, e1, e2, e3, e4, if_false, e]
      rfl
    unfold lex
    simp [lexAux, this]
  have key : ∀ r, lex r = [] → lex ("MACRO c ORIGIN 0 0 ; SIZE 80 BY 84 ; END c\n".toList ++ r) =
      [kw "MACRO", kw "c", kw "ORIGIN", .num ((0 : Int) : ℚ), .num ((0 : Int) : ℚ), .semi, kw "SIZE", .num ((80 : Int) : ℚ), kw "BY",
        .num ((84 : Int) : ℚ), .semi, kw "END", kw "c"] := by
    intro r hr
    rw [show "MACRO c ORIGIN 0 0 ; SIZE 80 BY 84 ; END c\n".toList ++ r = "MACRO".toList ++ (' ' :: ("c".toList ++ (' ' :: ("ORIGIN".toList ++
      (' ' :: (showInt 0 ++ (' ' :: (showInt 0 ++ (' ' :: ';' :: ' ' :: ("SIZE".toList ++ (' ' :: (showInt 80 ++ (' ' :: ("BY".toList ++
      (' ' :: (showInt 84 ++ (' ' :: ';' :: ' ' :: ("END".toList ++ (' ' :: ("c".toList ++ ('\n' :: r))))))))))))))))))))) from rfl]
    rw [lex_word_sp _ (by decide), lex_word_sp _ (by decide), lex_word_sp _ (by decide), lex_int_sp, lex_int_sp, lex_semi, lex_sp,
      lex_word_sp _ (by decide), lex_int_sp, lex_word_sp _ (by decide), lex_int_sp, lex_semi, lex_sp, lex_word_sp _ (by decide),
      lex_word_nl _ (by decide), hr]
    rfl
  have h1 := key _ hash
  have h2 := key [] lex_nil
  rw [List.append_nil] at h2
  unfold read parse
  rw [h1, h2]

example : (read 10 none "MACRO c ORIGIN 0 0 ; SIZE 80 BY 84 ; END c\n".toList) = some ⟨⟨0, 0, 80, 84⟩, []⟩ := by decide +kernel

end Verif.Lef

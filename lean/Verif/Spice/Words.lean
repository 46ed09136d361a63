import Verif.Spice.Lex

/-!
# C70: the words of a netlist

What may be written as a name, a number or an expression, and the text kept for it.
-/

namespace Verif.Spice

open Verif.Schema

/-! ## Specification -/

/-- A space or a tab. -/
def Blanks (s : List Char) : Prop := ∀ c ∈ s, c = ' ' ∨ c = '\t'

/-- Letters, digits and signs without blanks and special characters; the first one is no digit, point, sign, quote, ... -/
structure NameOK (s : List Char) : Prop where
  ne : s ≠ []
  chars : ∀ c ∈ s, c ∉ [' ', '\t', '\n', '\r', '\x0b', '\x0c', '{', '}', '(', ')', '=', ';', '*']
  first : ∀ c ∈ s.head?, c ∉ ['.', '+', '-', '$', '/', '\\', '@', '\'', '"'] ∧ c ∉ ['0', '1', '2', '3', '4', '5', '6', '7', '8', '9']

/-- A number has digits before the point, without leading zeros, and digits after the point if there is one. -/
structure NumOK (l : Literal) : Prop where
  wf : l.WF
  int : l.int = [0] ∨ ∃ d ds, l.int = d :: ds ∧ d ≠ 0
  frac : ∀ ds ∈ l.frac, ds ≠ []

inductive Word where
  | name (s : List Char)
  /-- a number and the letter and value of its unit -/
  | num (l : Literal) (u : Option (Char × ℚ))
  /-- an expression between quotes or braces -/
  | expr (o : Char) (t : List Char) (c : Char)

def Word.text : Word → List Char
  | .name s => s
  | .num l u => l.render ++ (u.map Prod.fst).toList
  | .expr o t c => o :: (t ++ [c])

/-- `expr` recognises the expression whatever follows it on the line. -/
def Word.WF (expr : List Char → Option (List Char)) : Word → Prop
  | .name s => NameOK s
  | .num l u => NumOK l ∧ ∀ x ∈ u, ∃ y ∈ spiceLetter, (x.1 = y.1 ∨ x.1 = y.2.1) ∧ x.2 = y.2.2
  | .expr o t c => (o = '\'' ∨ o = '"' ∨ o = '{') ∧
      ∀ r, (∀ x ∈ r.head?, x = ' ' ∨ x = '\t' ∨ x = '\n') → expr (o :: (t ++ c :: r)) = some r

def Word.isName : Word → Prop
  | .name _ => True
  | _ => False

/-- The value: names and expressions in upper case, without the quotes; numbers with their unit. -/
def Word.val : Word → Val
  | .name s => .text (s.map Char.toUpper)
  | .num l u => .num (l.value * (u.map Prod.snd).getD 1)
  | .expr _ t _ => .text (t.map Char.toUpper)

/-- The text of a comment: it stays on its line and holds no `@`. -/
def Quiet (t : List Char) : Prop := ∀ c ∈ t, c ≠ '\n' ∧ c ≠ '\r' ∧ c ≠ '@'

/-- Blanks, or a line break, `+` and blanks, with a comment before the line break. -/
inductive Sep : List Char → Prop where
  | blanks (s : List Char) : s ≠ [] → Blanks s → Sep s
  | cont (s : List Char) : Blanks s → Sep ('\n' :: '+' :: s)
  | note (b o t s : List Char) : b ≠ [] → Blanks b → (o = [';'] ∨ o = ['$'] ∨ o = ['/', '/']) → Quiet t → Blanks s →
      Sep (b ++ (o ++ (t ++ '\n' :: '+' :: s)))

/-- Words, each after a separator. -/
inductive WordsText : List Word → List Char → Prop where
  | nil : WordsText [] []
  | cons (sep : List Char) (w : Word) (ws : List Word) (s : List Char) :
      Sep sep → WordsText ws s → WordsText (w :: ws) (sep ++ (w.text ++ s))

/-- Assignments `key = value`, each after a separator. -/
inductive ParamsText : List (List Char × Word) → List Char → Prop where
  | nil : ParamsText [] []
  | cons (sep k b1 b2 : List Char) (w : Word) (ps : List (List Char × Word)) (s : List Char) :
      Sep sep → Blanks b1 → Blanks b2 → ParamsText ps s → ParamsText ((k, w) :: ps) (sep ++ (k ++ (b1 ++ '=' :: (b2 ++ (w.text ++ s)))))

/-! ## Proofs -/

/-- The text ends or goes on with a blank or a line break. -/
def AtBlank (r : List Char) : Prop := ∀ c ∈ r.head?, c = ' ' ∨ c = '\t' ∨ c = '\n'

theorem AtBlank.ws {r : List Char} (h : AtBlank r) : ∀ c ∈ r.head?, isWs c = true := by
  intro c hc
  rcases h c hc with rfl | rfl | rfl <;> decide

theorem AtBlank.noDig {r : List Char} (h : AtBlank r) : NoDig r := by
  intro c hc
  rcases h c hc with rfl | rfl | rfl <;> decide

theorem AtBlank.noId {r : List Char} (h : AtBlank r) : ∀ c ∈ r.head?, isId c = false := by
  intro c hc
  rcases h c hc with rfl | rfl | rfl <;> decide

theorem NameOK.id {s : List Char} (h : NameOK s) : ∀ c ∈ s, isId c = true := by
  intro c hc
  have := h.chars c hc
  simp only [List.mem_cons, List.not_mem_nil, or_false, not_or] at this
  simp [isId, isWs, this]

theorem NameOK.cons {s : List Char} (h : NameOK s) : ∃ c t, s = c :: t ∧ isDig c = false ∧
    c ≠ '.' ∧ c ≠ '+' ∧ c ≠ '-' ∧ c ≠ '$' ∧ c ≠ '/' ∧ c ≠ '\\' ∧ c ≠ '@' ∧ c ≠ '\'' ∧ c ≠ '"' ∧ c ≠ '{' ∧ c ≠ ';' ∧ c ≠ '*' ∧ c ≠ '=' ∧
    isWs c = false := by
  cases s with
  | nil => exact absurd rfl h.ne
  | cons c t =>
    have h1 := h.first c (by simp)
    have h2 := h.chars c (by simp)
    have hd : isDig c = false := by
      cases hd : isDig c with
      | false => rfl
      | true =>
        obtain ⟨d, rfl⟩ := (isDig_iff c).1 hd
        exfalso
        have key : ∀ d : Fin 10, digitChar d ∈ ['0', '1', '2', '3', '4', '5', '6', '7', '8', '9'] := by decide
        exact h1.2 (key d)
    have hi := h.id c (by simp)
    simp only [isId, Bool.and_eq_true, Bool.not_eq_true'] at hi
    have := h1.1
    simp only [List.mem_cons, List.not_mem_nil, or_false, not_or] at this h2
    exact ⟨c, t, rfl, hd, by tauto, by tauto, by tauto, by tauto, by tauto, by tauto, by tauto, by tauto, by tauto, by tauto, by tauto,
      by tauto, by tauto, hi.1⟩

/-- A text that begins with a character that is no blank and starts no comment. -/
theorem fresh_cons {c : Char} {s : List Char} (h1 : isWs c = false) (h2 : c ≠ ';') (h3 : c ≠ '$') (h4 : c ≠ '/') (h5 : c ≠ '*')
    (h6 : c ≠ '=') : Fresh (c :: s) := by
  refine ⟨by simpa using h1, ?_, by simpa using h5, by simpa using h6⟩
  unfold comments
  split
  · rename_i heq; simp only [List.cons.injEq] at heq; exact absurd heq.1 h2
  · rename_i heq; simp only [List.cons.injEq] at heq; exact absurd heq.1 h3
  · rename_i heq; simp only [List.cons.injEq] at heq; exact absurd heq.1 h4
  · rfl

theorem upto_app (a r : List Char) : upto (a ++ r) r = a := by
  unfold upto
  simp

theorem dropSign_of {c : Char} {s : List Char} (h1 : c ≠ '+') (h2 : c ≠ '-') : dropSign (c :: s) = c :: s := by
  unfold dropSign
  split
  · rename_i heq; simp only [List.cons.injEq] at heq; exact absurd heq.1 h1
  · rename_i heq; simp only [List.cons.injEq] at heq; exact absurd heq.1 h2
  · rfl

theorem expr_none {expr : List Char → Option (List Char)} (hE : ExprOK expr) {c : Char} {s : List Char} (h1 : c ≠ '\'') (h2 : c ≠ '"')
    (h3 : c ≠ '{') : expr (c :: s) = none := by
  cases hx : expr (c :: s) with
  | none => rfl
  | some r =>
    obtain ⟨⟨d, hd, hd'⟩, -⟩ := hE _ _ hx
    simp only [List.head?_cons, Option.mem_def, Option.some.injEq] at hd
    subst hd
    tauto

theorem lex_name {expr : List Char → Option (List Char)} (hE : ExprOK expr) {b : Bool} {s r : List Char} (h : NameOK s)
    (hr : ∀ c ∈ r.head?, isId c = false) : lex expr b (s ++ r) = ⟨.name, s⟩ :: lex expr false r := by
  obtain ⟨c, t, rfl, hd, e1, e2, e3, e4, e5, e6, e7, e8, e9, e10, e11, e12, e13, hw⟩ := h.cons
  have htw := takeWhile_app h.id hr
  have hf : Fresh (c :: (t ++ r)) := fresh_cons hw e11 e4 e5 e12 e13
  have hn : number (c :: (t ++ r)) = none := by
    have : c ≠ '0' := by
      rintro rfl
      exact absurd hd (by decide)
    simp [number, dropSign_of e2 e3, intPart, this, hd]
  have hx := expr_none hE (s := t ++ r) e8 e9 e10
  have hid := h.id c (by simp)
  rw [List.cons_append] at htw ⊢
  rw [lex_step hE (t := some ⟨.name, c :: t⟩) (r := r)]
  · rfl
  · rw [step_word expr hf (Or.inr e2) e6]
    unfold wordStep
    simp only [hx, hn]
    rw [if_neg (by simp [e1]), if_pos (by rw [htw.1]; simp), htw.1, htw.2]

theorem lex_decl {expr : List Char → Option (List Char)} (hE : ExprOK expr) {b : Bool} {s r : List Char} (hs : s ≠ [])
    (h : ∀ c ∈ s, isId c = true) (hr : ∀ c ∈ r.head?, isId c = false) : lex expr b ('.' :: (s ++ r)) = ⟨.decl, '.' :: s⟩ :: lex expr false r := by
  have hf : Fresh ('.' :: (s ++ r)) := fresh_cons (by decide) (by decide) (by decide) (by decide) (by decide) (by decide)
  have htw := takeWhile_app h hr
  have hn : number ('.' :: (s ++ r)) = none := by
    have : isDig '.' = false := by decide
    simp [number, dropSign, intPart, this]
  have hx := expr_none hE (s := s ++ r) (c := '.') (by decide) (by decide) (by decide)
  rw [lex_step hE (t := some ⟨.decl, '.' :: s⟩) (r := r)]
  · rfl
  · rw [step_word expr hf (Or.inr (by decide)) (by decide)]
    unfold wordStep
    simp only [hx, hn]
    rw [if_pos (by simp [htw.1, hs])]
    simp [htw]

theorem digit_facts (d : Fin 10) : isDig (digitChar d) = true ∧ digitChar d ≠ '+' ∧ digitChar d ≠ '-' ∧ digitChar d ≠ '.' ∧
    isWs (digitChar d) = false ∧ digitChar d ≠ ';' ∧ digitChar d ≠ '$' ∧ digitChar d ≠ '/' ∧ digitChar d ≠ '*' ∧ digitChar d ≠ '=' ∧
    digitChar d ≠ '\\' ∧ digitChar d ≠ '\'' ∧ digitChar d ≠ '"' ∧ digitChar d ≠ '{' ∧ (digitChar d).toUpper = digitChar d ∧
    (digitChar d = '0' ↔ d = 0) := by
  revert d
  decide

/-- What follows the digits of a number: no digit, no point, no `E`. -/
structure AfterNum (r : List Char) : Prop where
  dig : NoDig r
  dot : r.head? ≠ some '.'
  e : r.head? ≠ some 'e' ∧ r.head? ≠ some 'E'

theorem expPart_none {r : List Char} (h : AfterNum r) : expPart r = r := by
  unfold expPart
  split
  · rename_i c q
    rw [if_neg]
    rintro ⟨rfl | rfl, -⟩
    · exact h.e.2 rfl
    · exact h.e.1 rfl
  · rfl

theorem takeWhile_nodig {r : List Char} (h : NoDig r) : r.takeWhile isDig = [] ∧ r.dropWhile isDig = r := by
  have := takeWhile_app (p := isDig) (a := []) (r := r) (by simp) h
  simpa using this

theorem dropSign_app (sg : Option Bool) {r : List Char} (hr : ∀ c ∈ r.head?, c ≠ '+' ∧ c ≠ '-') : dropSign (signChars sg ++ r) = r := by
  rcases sg with _ | _ | _
  · cases r with
    | nil => rfl
    | cons c r => exact dropSign_of (hr c (by simp)).1 (hr c (by simp)).2
  · rfl
  · rfl

theorem digits_head (ds : List (Fin 10)) {r : List Char} (hds : ds ≠ []) : ∀ c ∈ (ds.map digitChar ++ r).head?, c ≠ '+' ∧ c ≠ '-' := by
  cases ds with
  | nil => exact absurd rfl hds
  | cons d ds =>
    intro c hc
    simp only [List.map_cons, List.cons_append, List.head?_cons, Option.mem_def, Option.some.injEq] at hc
    rw [← hc]
    exact ⟨(digit_facts d).2.1, (digit_facts d).2.2.1⟩

theorem expPart_app {e : Option (Char × Option Bool × List (Fin 10))} (he : ∀ x ∈ e, (x.1 = 'e' ∨ x.1 = 'E') ∧ x.2.2 ≠ []) {r : List Char}
    (h : AfterNum r) : expPart (expChars e ++ r) = r := by
  rcases e with _ | ⟨c, s, ds⟩
  · exact expPart_none h
  · have h1 := (he _ rfl).1
    have h2 := (he _ rfl).2
    dsimp only at h1 h2
    have h3 := takeWhile_digits ds h.dig
    simp only [expChars, List.cons_append, List.append_assoc, expPart]
    rw [dropSign_app s (digits_head ds h2)]
    rw [if_pos]
    · exact h3.2
    · refine ⟨by tauto, ?_⟩
      rw [h3.1]
      simpa using h2

theorem exp_after {e : Option (Char × Option Bool × List (Fin 10))} (he : ∀ x ∈ e, (x.1 = 'e' ∨ x.1 = 'E') ∧ x.2.2 ≠ []) {r : List Char}
    (h : AfterNum r) : NoDig (expChars e ++ r) ∧ (expChars e ++ r).head? ≠ some '.' := by
  rcases e with _ | ⟨c, s, ds⟩
  · exact ⟨h.dig, h.dot⟩
  · have h1 := (he _ rfl).1
    dsimp only at h1
    constructor
    · intro x hx
      simp only [expChars, List.cons_append, List.head?_cons, Option.mem_def, Option.some.injEq] at hx
      rw [← hx]
      rcases h1 with rfl | rfl <;> decide
    · simp only [expChars, List.cons_append, List.head?_cons, ne_eq, Option.some.injEq]
      rcases h1 with rfl | rfl <;> decide

theorem fracPart_app {f : Option (List (Fin 10))} (hf : ∀ ds ∈ f, ds ≠ []) {r : List Char} (h : NoDig r) (hd : r.head? ≠ some '.') :
    fracPart (pointChars f ++ r) = r := by
  rcases f with _ | ds
  · unfold fracPart pointChars
    rw [List.nil_append]
    split
    · exact absurd rfl hd
    · rfl
  · have h3 := takeWhile_digits ds h
    simp only [pointChars, List.cons_append, fracPart]
    rw [if_pos, h3.2]
    rw [h3.1]
    simpa using hf _ rfl

theorem point_noDig {f : Option (List (Fin 10))} {r : List Char} (h : NoDig r) : NoDig (pointChars f ++ r) := by
  rcases f with _ | ds
  · exact h
  · intro x hx
    simp only [pointChars, List.cons_append, List.head?_cons, Option.mem_def, Option.some.injEq] at hx
    rw [← hx]
    decide

theorem intPart_app {i : List (Fin 10)} (hi : i = [0] ∨ ∃ d ds, i = d :: ds ∧ d ≠ 0) {r : List Char} (h : NoDig r) :
    intPart (i.map digitChar ++ r) = some r := by
  rcases hi with rfl | ⟨d, ds, rfl, hd⟩
  · simp [intPart, digitChar]
  · have h0 : digitChar d ≠ '0' := fun e => hd ((digit_facts d).2.2.2.2.2.2.2.2.2.2.2.2.2.2.2.1 e)
    simp [intPart, h0, (digit_facts d).1, (takeWhile_digits ds h).2]

/-- The part of a number before its unit. -/
theorem mantissa_app {l : Literal} (h : NumOK l) {r : List Char} (hr : AfterNum r) :
    (intPart (dropSign (l.render ++ r))).map (fun q => expPart (fracPart q)) = some r := by
  have hx := exp_after h.wf.2 hr
  have hne : l.int ≠ [] := by
    rcases h.int with h | ⟨d, ds, h, -⟩ <;> rw [h] <;> simp
  unfold Literal.render
  rw [List.append_assoc, List.append_assoc, List.append_assoc, dropSign_app _ (digits_head _ hne), intPart_app h.int (point_noDig hx.1)]
  simp only [Option.map_some, Option.some.injEq]
  rw [fracPart_app h.frac hx.1 hx.2, expPart_app h.wf.2 hr]

theorem ends_of {r : List Char} (h : AtBlank r) : ends r = true := by
  unfold ends
  cases r with
  | nil => rfl
  | cons c r => simp [h.ws c (by simp)]

theorem AtBlank.after {r : List Char} (h : AtBlank r) : AfterNum r := by
  refine ⟨h.noDig, ?_, ?_, ?_⟩ <;>
  · intro hc
    rcases h _ hc with h | h | h <;> exact absurd h (by decide)

theorem unitPart_none {r : List Char} (h : AtBlank r) : unitPart r = some r := by
  have he := ends_of h
  unfold unitPart
  cases r with
  | nil => simp [modifiers, up, he]
  | cons c r =>
    rcases h c (by simp) with rfl | rfl | rfl <;> simp [modifiers, up, he]

theorem unitPart_letter {y : Char × Char × ℚ} (hy : y ∈ spiceLetter) {c : Char} (hc : c = y.1 ∨ c = y.2.1) {r : List Char}
    (hr : AtBlank r) : unitPart (c :: r) = some r := by
  have hne := ends_of hr
  have hmeg : ∀ k, List.take k (r.map Char.toUpper) ≠ ['E', 'G'] := by
    intro k hk
    cases r with
    | nil => simp at hk
    | cons x r =>
      cases k with
      | zero => simp at hk
      | succ k =>
        simp only [List.map_cons, List.take_succ_cons, List.cons.injEq] at hk
        rcases hr x (by simp) with rfl | rfl | rfl <;> exact absurd hk.1 (by decide)
  unfold unitPart
  simp only [spiceLetter, List.mem_cons, List.not_mem_nil, or_false] at hy
  rcases hy with rfl | rfl | rfl | rfl | rfl | rfl | rfl | rfl | rfl <;> rcases hc with rfl | rfl <;>
    simp [modifiers, up, hne, hmeg]

theorem number_app {l : Literal} {u : Option (Char × ℚ)} (h : NumOK l)
    (hu : ∀ x ∈ u, ∃ y ∈ spiceLetter, (x.1 = y.1 ∨ x.1 = y.2.1) ∧ x.2 = y.2.2) {r : List Char} (hr : AtBlank r) :
    number (l.render ++ ((u.map Prod.fst).toList ++ r)) = some r := by
  have haf : AfterNum ((u.map Prod.fst).toList ++ r) := by
    rcases u with _ | ⟨c, q⟩
    · exact hr.after
    · obtain ⟨y, hy, hc, -⟩ := hu _ rfl
      dsimp only at hc
      simp only [spiceLetter, List.mem_cons, List.not_mem_nil, or_false] at hy
      constructor
      · intro x hx
        simp only [Option.map_some, Option.toList_some, List.cons_append, List.head?_cons, Option.mem_def, Option.some.injEq] at hx
        rw [← hx]
        rcases hy with rfl | rfl | rfl | rfl | rfl | rfl | rfl | rfl | rfl <;> rcases hc with rfl | rfl <;> decide
      · simp only [Option.map_some, Option.toList_some, List.cons_append, List.head?_cons, ne_eq, Option.some.injEq]
        rcases hy with rfl | rfl | rfl | rfl | rfl | rfl | rfl | rfl | rfl <;> rcases hc with rfl | rfl <;> decide
      · simp only [Option.map_some, Option.toList_some, List.cons_append, List.head?_cons, ne_eq, Option.some.injEq]
        rcases hy with rfl | rfl | rfl | rfl | rfl | rfl | rfl | rfl | rfl <;> rcases hc with rfl | rfl <;> decide
  have hm := mantissa_app h haf
  rw [Option.map_eq_some_iff] at hm
  obtain ⟨q, hq, hq'⟩ := hm
  unfold number
  rw [hq, Option.bind_some, hq']
  rcases u with _ | ⟨c, q⟩
  · exact unitPart_none hr
  · obtain ⟨y, hy, hc, -⟩ := hu _ rfl
    exact unitPart_letter hy hc hr

theorem lex_word {expr : List Char → Option (List Char)} (hE : ExprOK expr) {w : Word} (h : w.WF expr) {r : List Char} (hr : AtBlank r) :
    ∃ t : Tok, lex expr false (w.text ++ r) = t :: lex expr false r ∧ cast t = w.val ∧ (t.ty = .name ∨ t.ty = .number ∨ t.ty = .expr) ∧
      (w.isName → t.ty = .name) := by
  cases w with
  | name s => exact ⟨_, lex_name hE h hr.noId, rfl, Or.inl rfl, fun _ => rfl⟩
  | num l u =>
    refine ⟨⟨.number, l.render ++ (u.map Prod.fst).toList⟩, ?_, ?_, Or.inr (Or.inl rfl), fun hn => absurd hn (by simp [Word.isName])⟩
    · have hn := number_app h.1 h.2 hr
      have hhead : ∃ c q, l.render ++ ((u.map Prod.fst).toList ++ r) = c :: q ∧ isWs c = false ∧ c ≠ ';' ∧ c ≠ '$' ∧ c ≠ '/' ∧ c ≠ '*' ∧
          c ≠ '=' ∧ c ≠ '\\' ∧ c ≠ '\'' ∧ c ≠ '"' ∧ c ≠ '{' := by
        unfold Literal.render
        rcases hsg : l.sign with _ | _ | _
        · have : ∃ d ds, l.int = d :: ds := by
            rcases h.1.int with h | ⟨d, ds, h, -⟩
            · exact ⟨_, _, h⟩
            · exact ⟨_, _, h⟩
          obtain ⟨d, ds, hd⟩ := this
          obtain ⟨-, -, -, -, f1, f2, f3, f4, f5, f6, f7, f8, f9, f10, -, -⟩ := digit_facts d
          exact ⟨digitChar d, _, by rw [hd]; rfl, f1, f2, f3, f4, f5, f6, f7, f8, f9, f10⟩
        · exact ⟨'+', _, rfl, by decide⟩
        · exact ⟨'-', _, rfl, by decide⟩
      obtain ⟨c, q, hc, f1, f2, f3, f4, f5, f6, f7, f8, f9, f10⟩ := hhead
      have heq : (Word.num l u).text ++ r = c :: q := by
        rw [← hc]
        simp [Word.text]
      rw [lex_step hE (t := some ⟨.number, l.render ++ (u.map Prod.fst).toList⟩) (r := r)]
      · rfl
      · have hx := expr_none hE (s := q) f8 f9 f10
        have hup := upto_app (l.render ++ (u.map Prod.fst).toList) r
        rw [List.append_assoc] at hup
        rw [hc] at hup hn
        rw [heq, step_word expr (fresh_cons f1 f2 f3 f4 f5 f6) (Or.inl rfl) f7]
        unfold wordStep
        simp only [hx, hn, hup]
    · have hup : up l.render = ({ l with exp := l.exp.map fun e => ('E', e.2.1, e.2.2) } : Literal).render := by
        have hd : ∀ ds : List (Fin 10), (ds.map digitChar).map Char.toUpper = ds.map digitChar := by
          intro ds
          rw [List.map_map]
          exact List.map_congr_left fun d _ => (digit_facts d).2.2.2.2.2.2.2.2.2.2.2.2.2.2.1
        have hs : ∀ s, (signChars s).map Char.toUpper = signChars s := by
          intro s
          rcases s with _ | _ | _ <;> decide
        have hp : ∀ f, (pointChars f).map Char.toUpper = pointChars f := by
          intro f
          rcases f with _ | ds
          · rfl
          · simp only [pointChars, List.map_cons, hd]
            congr 1
        unfold up Literal.render
        simp only [List.map_append, hd, hs, hp]
        congr 3
        rcases hx : l.exp with _ | ⟨c, s, ds⟩
        · rfl
        · have := (h.1.wf.2 _ hx).1
          dsimp only at this
          simp only [expChars, List.map_cons, List.map_append, hd, hs, Option.map_some]
          congr 1
          rcases this with rfl | rfl <;> decide
      have hwf : ({ l with exp := l.exp.map fun e => ('E', e.2.1, e.2.2) } : Literal).WF := by
        refine ⟨h.1.wf.1, ?_⟩
        intro e he
        simp only [Option.mem_def, Option.map_eq_some_iff] at he
        obtain ⟨x, hx, rfl⟩ := he
        exact ⟨Or.inr rfl, (h.1.wf.2 x hx).2⟩
      have hv : ({ l with exp := l.exp.map fun e => ('E', e.2.1, e.2.2) } : Literal).value = l.value := by
        unfold Literal.value
        simp only
        congr 3
        rcases l.exp with _ | ⟨c, s, ds⟩ <;> rfl
      rcases u with _ | ⟨c, q⟩
      · have := C40_plain hwf
        rw [← hup, hv] at this
        simp [cast, Word.val, this]
      · obtain ⟨y, hy, hc, hq⟩ := h.2 _ rfl
        dsimp only at hc hq
        have hcu : c.toUpper = y.1 := by
          simp only [spiceLetter, List.mem_cons, List.not_mem_nil, or_false] at hy
          rcases hy with rfl | rfl | rfl | rfl | rfl | rfl | rfl | rfl | rfl <;> rcases hc with rfl | rfl <;> decide
        have := C40_suffix_partial hwf hy (c := c.toUpper) (Or.inl hcu)
        rw [← hup, hv, ← hq] at this
        have he : up (l.render ++ (Option.map Prod.fst (some (c, q))).toList) = up l.render ++ [c.toUpper] := by
          simp [up]
        simp only [cast, he, this]
        rfl
  | expr o t c =>
    refine ⟨⟨.expr, o :: (t ++ [c])⟩, ?_, ?_, Or.inr (Or.inr rfl), fun hn => absurd hn (by simp [Word.isName])⟩
    · have hx := h.2 r hr
      have heq : (Word.expr o t c).text ++ r = o :: (t ++ c :: r) := by simp [Word.text]
      have ho : isWs o = false ∧ o ≠ ';' ∧ o ≠ '$' ∧ o ≠ '/' ∧ o ≠ '*' ∧ o ≠ '=' ∧ o ≠ '\\' := by
        rcases h.1 with rfl | rfl | rfl <;> decide
      obtain ⟨f1, f2, f3, f4, f5, f6, f7⟩ := ho
      have hup := upto_app (o :: (t ++ [c])) r
      simp only [List.cons_append, List.append_assoc, List.nil_append] at hup
      rw [lex_step hE (t := some ⟨.expr, o :: (t ++ [c])⟩) (r := r)]
      · rfl
      · rw [heq, step_word expr (fresh_cons f1 f2 f3 f4 f5 f6) (Or.inl rfl) f7]
        unfold wordStep
        simp only [hx, hup]
    · simp [cast, Word.val, up]

end Verif.Spice

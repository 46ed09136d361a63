import Verif.Spice.Words
import Mathlib.Data.List.Forall2

/-!
# C70: the lines of a netlist
-/

namespace Verif.Spice

open Verif.Schema

/-! ## Specification -/

/-- The text of a constraint: on one line, not empty, without blanks at its ends and without `@:`. -/
structure ConstOK (c : List Char) : Prop where
  ne : c ≠ []
  line : ∀ x ∈ c, x ≠ '\n' ∧ x ≠ '\r'
  first : ∀ x ∈ c.head?, x ∉ [' ', '\t', '\n', '\r', '\x0b', '\x0c']
  last : ∀ x ∈ c.getLast?, x ∉ [' ', '\t', '\n', '\r', '\x0b', '\x0c']
  mark : ¬ ['@', ':'] <:+: c

/-- What ends a line, before the text `rest`: lines with comments and constraints, line breaks, and the indentation of the next
line. -/
inductive Eol (rest : List Char) : List (List Char) → List Char → Prop where
  | eof : rest = [] → Eol rest [] []
  | newline (n i : List Char) : (∀ c ∈ n, c = '\n') → Blanks i → Eol rest [] ('\n' :: (n ++ i))
  | note (n t : List Char) (cs : List (List Char)) (s : List Char) : (∀ c ∈ n, c = '\n') → Quiet t → Eol rest cs s →
      Eol rest cs ('\n' :: (n ++ '*' :: (t ++ s)))
  | constraint (n b1 b2 c : List Char) (cs : List (List Char)) (s : List Char) : (∀ c ∈ n, c = '\n') → Blanks b1 → Blanks b2 → ConstOK c →
      Eol rest cs s → Eol rest (c :: cs) ('\n' :: (n ++ '*' :: (b1 ++ '@' :: ':' :: (b2 ++ (c ++ s)))))

/-- ... with a comment on the line itself. -/
inductive LineEnd (rest : List Char) : List (List Char) → List Char → Prop where
  | plain (cs : List (List Char)) (s : List Char) : Eol rest cs s → LineEnd rest cs s
  | inline (b o t : List Char) (cs : List (List Char)) (s : List Char) : b ≠ [] → Blanks b → (o = [';'] ∨ o = ['$'] ∨ o = ['/', '/']) →
      Quiet t → Eol rest cs s → LineEnd rest cs (b ++ (o ++ (t ++ s)))

/-! ## Proofs -/

/-- The text of the next line. -/
structure Good (s : List Char) : Prop where
  fresh : Fresh s
  plus : s.head? ≠ some '+'
  at_ : s.head? ≠ some '@'

theorem Blanks.ws {s : List Char} (h : Blanks s) : ∀ c ∈ s, isWs c = true := by
  intro c hc
  rcases h c hc with rfl | rfl <;> decide

theorem Blanks.nl {s : List Char} (h : Blanks s) : ∀ c ∈ s, isNl c = false := by
  intro c hc
  rcases h c hc with rfl | rfl <;> decide

theorem lex_blanks {expr : List Char → Option (List Char)} (hE : ExprOK expr) {a s : List Char} (ha : Blanks a) (h : Fresh s) :
    lex expr false (a ++ s) = lex expr false s := by
  cases a with
  | nil => rfl
  | cons c a =>
    rw [List.cons_append, lex_step hE (step_blank hE (ha.ws c (by simp)) (ha.nl c (by simp)) (fun x hx => ha.ws x (by simp [hx])) h)]
    rfl

/-! ### The end of a line -/

theorem Quiet.at_ {t : List Char} (h : Quiet t) : '@' ∉ t := fun hc => (h _ hc).2.2 rfl

theorem Quiet.nl {t : List Char} (h : Quiet t) : ∀ c ∈ t, (!isNl c) = true := by
  intro c hc
  have := h c hc
  simp [isNl, this]

/-- The text ends or goes on with a line break, and the next line does not begin with `@`. -/
structure Ended (r : List Char) : Prop where
  nl : r = [] ∨ ∃ q, r = '\n' :: q
  at_ : (r.dropWhile isWs).head? ≠ some '@'

theorem Ended.leaders {r : List Char} (h : Ended r) : dropLeaders r = r := by
  rcases h.nl with rfl | ⟨q, rfl⟩ <;> rfl

theorem Ended.atBlank {r : List Char} (h : Ended r) : AtBlank r := by
  intro c hc
  rcases h.nl with rfl | ⟨q, rfl⟩
  · simp at hc
  · simp only [List.head?_cons, Option.mem_def, Option.some.injEq] at hc
    simp [← hc]

theorem quiet' {t r : List Char} (ht : Quiet t) (hr : Ended r) : ((dropLeaders (t ++ r)).dropWhile isWs).head? ≠ some '@' := by
  apply quiet ht.at_ (by rw [hr.leaders]; exact hr.at_) hr.at_
  intro q
  rcases hr.nl with rfl | ⟨q', rfl⟩ <;> simp

theorem Ended.skip {t r : List Char} (ht : Quiet t) (hr : Ended r) : (t ++ r).dropWhile (!isNl ·) = r := by
  apply (takeWhile_app ht.nl _).2
  intro c hc
  rcases hr.nl with rfl | ⟨q, rfl⟩
  · simp at hc
  · simp only [List.head?_cons, Option.mem_def, Option.some.injEq] at hc
    rw [← hc]
    decide

theorem nls {n : List Char} (h : ∀ c ∈ n, c = '\n') : (∀ c ∈ '\n' :: n, isNl c = true) ∧ (∀ c ∈ '\n' :: n, isWs c = true) := by
  have : ∀ c ∈ '\n' :: n, c = '\n' := by
    intro c hc
    rcases List.mem_cons.1 hc with rfl | hc
    · rfl
    · exact h c hc
  exact ⟨fun c hc => by rw [this c hc]; decide, fun c hc => by rw [this c hc]; decide⟩

/-- A line with a comment. -/
theorem step_note {expr : List Char → Option (List Char)} {b : Bool} {n t r : List Char} (hn : ∀ c ∈ n, c = '\n') (ht : Quiet t)
    (hr : Ended r) : step expr b ('\n' :: (n ++ '*' :: (t ++ r))) = some (none, r) := by
  have hw := takeWhile_app (p := isWs) (r := '*' :: (t ++ r)) (nls hn).2 (by simp; decide)
  have hl := takeWhile_app (p := isNl) (r := '*' :: (t ++ r)) (nls hn).1 (by simp; decide)
  simp only [List.cons_append] at hw hl
  have h1 : annotation ('\n' :: (n ++ '*' :: (t ++ r))) = none := by
    apply not_annotation
    rw [hw.2]
    exact quiet' ht hr
  have h2 : atLine b '*' ('\n' :: (n ++ '*' :: (t ++ r))) = some (t ++ r) := by
    unfold atLine
    rw [hl.2]
    have : isNl '\n' = true := by decide
    simp [this]
  unfold step
  simp [h1, h2, hr.skip ht]

/-- A title: a comment at the beginning of the text. -/
theorem step_title {expr : List Char → Option (List Char)} {t r : List Char} (ht : Quiet t) (hr : Ended r) :
    step expr true ('*' :: (t ++ r)) = some (none, r) := by
  have e1 : isWs '*' = false := by decide
  have e2 : isNl '*' = false := by decide
  have h1 : annotation ('*' :: (t ++ r)) = none := by
    apply not_annotation
    rw [List.dropWhile_cons, e1]
    exact quiet' ht hr
  have h2 : atLine true '*' ('*' :: (t ++ r)) = some (t ++ r) := by
    unfold atLine
    simp [e2]
  unfold step
  simp [h1, h2, hr.skip ht]

/-- A comment on the line. -/
theorem step_inline {expr : List Char → Option (List Char)} {a o t r : List Char} (hne : a ≠ []) (ha : Blanks a)
    (ho : o = [';'] ∨ o = ['$'] ∨ o = ['/', '/']) (ht : Quiet t) (hr : Ended r) : step expr false (a ++ (o ++ (t ++ r))) = some (none, r) := by
  obtain ⟨c, a', rfl⟩ : ∃ c a', a = c :: a' := by
    cases a with
    | nil => exact absurd rfl hne
    | cons c a => exact ⟨_, _, rfl⟩
  have hc := ha.nl c (by simp)
  have how : ∀ x ∈ (o ++ (t ++ r)).head?, isWs x = false := by
    rcases ho with rfl | rfl | rfl <;> simp <;> decide
  have hw := takeWhile_app (p := isWs) ha.ws how
  have h1 : annotation (c :: a' ++ (o ++ (t ++ r))) = none := by
    apply not_annotation
    rw [hw.2]
    have := quiet' ht hr
    rcases ho with rfl | rfl | rfl <;> simpa [dropLeaders] using this
  have h2 : comment (c :: a' ++ (o ++ (t ++ r))) = some r := by
    unfold comment
    rw [hw.2]
    have := hr.skip ht
    have e1 : isNl ';' = false := by decide
    have e2 : isNl '$' = false := by decide
    have e3 : isNl '/' = false := by decide
    rcases ho with rfl | rfl | rfl
    · simpa [comments, e1] using this
    · simpa [comments, e2] using this
    · simpa [comments, e3] using this
  have h3 : atLine false '*' (c :: a' ++ (o ++ (t ++ r))) = none := atLine_none hc (Or.inl rfl)
  unfold step
  simp only [List.cons_append] at h1 h2 h3 ⊢
  simp [h1, h2, h3]

theorem lex_sep {expr : List Char → Option (List Char)} (hE : ExprOK expr) {a s : List Char} (ha : Sep a) (h : Fresh s) :
    lex expr false (a ++ s) = lex expr false s := by
  cases ha with
  | blanks _ _ hb => exact lex_blanks hE hb h
  | cont b hb =>
    rw [List.cons_append, List.cons_append, lex_step hE step_continue]
    exact lex_blanks hE hb h
  | note b o t c hne hb ho ht hc =>
    have hend : Ended ('\n' :: '+' :: (c ++ s)) := by
      refine ⟨Or.inr ⟨_, rfl⟩, ?_⟩
      have e1 : isWs '\n' = true := by decide
      have e2 : isWs '+' = false := by decide
      simp [e1, e2]
    rw [show b ++ (o ++ (t ++ '\n' :: '+' :: c)) ++ s = b ++ (o ++ (t ++ '\n' :: '+' :: (c ++ s))) by simp,
      lex_step hE (step_inline hne hb ho ht hend), lex_step hE step_continue]
    exact lex_blanks hE hc h

theorem Sep.atBlank {a r : List Char} (h : Sep a) : AtBlank (a ++ r) := by
  cases h with
  | blanks _ hne hb =>
    cases a with
    | nil => exact absurd rfl hne
    | cons c a =>
      intro x hx
      simp only [List.cons_append, List.head?_cons, Option.mem_def, Option.some.injEq] at hx
      rw [← hx]
      rcases hb c (by simp) with h | h <;> simp [h]
  | cont b hb =>
    intro x hx
    simp only [List.cons_append, List.head?_cons, Option.mem_def, Option.some.injEq] at hx
    simp [← hx]
  | note b o t s hne hb ho ht hs =>
    cases b with
    | nil => exact absurd rfl hne
    | cons c a =>
      intro x hx
      simp only [List.cons_append, List.head?_cons, Option.mem_def, Option.some.injEq] at hx
      rw [← hx]
      rcases hb c (by simp) with h | h <;> simp [h]

theorem NameOK.fresh {s r : List Char} (h : NameOK s) : Good (s ++ r) := by
  obtain ⟨c, t, rfl, hd, e1, e2, e3, e4, e5, e6, e7, e8, e9, e10, e11, e12, e13, hw⟩ := h.cons
  exact ⟨fresh_cons hw e11 e4 e5 e12 e13, by simpa using e2, by simpa using e7⟩

theorem good_decl (s : List Char) : Good ('.' :: s) :=
  ⟨fresh_cons (by decide) (by decide) (by decide) (by decide) (by decide) (by decide), by simp, by simp⟩

theorem good_nil : Good [] := ⟨⟨by simp, rfl, by simp, by simp⟩, by simp, by simp⟩

theorem Word.fresh {expr : List Char → Option (List Char)} {w : Word} (h : w.WF expr) (r : List Char) : Fresh (w.text ++ r) := by
  cases w with
  | name s => exact (NameOK.fresh h).fresh
  | num l u =>
    simp only [Word.text, Literal.render, List.append_assoc]
    rcases l.sign with _ | _ | _
    · have : ∃ d ds, l.int = d :: ds := by
        rcases h.1.int with h | ⟨d, ds, h, -⟩
        · exact ⟨_, _, h⟩
        · exact ⟨_, _, h⟩
      obtain ⟨d, ds, hd⟩ := this
      obtain ⟨-, -, -, -, f1, f2, f3, f4, f5, f6, -⟩ := digit_facts d
      rw [hd]
      exact fresh_cons f1 f2 f3 f4 f5 f6
    · exact fresh_cons (by decide) (by decide) (by decide) (by decide) (by decide) (by decide)
    · exact fresh_cons (by decide) (by decide) (by decide) (by decide) (by decide) (by decide)
  | expr o t c =>
    rcases h.1 with rfl | rfl | rfl <;>
      exact fresh_cons (by decide) (by decide) (by decide) (by decide) (by decide) (by decide)

/-- A token of a word. -/
structure Of (t : Tok) (w : Word) : Prop where
  val : cast t = w.val
  ty : t.ty = .name ∨ t.ty = .number ∨ t.ty = .expr
  name : w.isName → t.ty = .name

theorem words_atBlank {ws : List Word} {s r : List Char} (h : WordsText ws s) (hr : AtBlank r) : AtBlank (s ++ r) := by
  cases h with
  | nil => exact hr
  | cons sep w ws s hsep h => rw [List.append_assoc]; exact hsep.atBlank

theorem params_atBlank {ps : List (List Char × Word)} {s r : List Char} (h : ParamsText ps s) (hr : AtBlank r) : AtBlank (s ++ r) := by
  cases h with
  | nil => exact hr
  | cons sep k b1 b2 w ps s hsep h => rw [List.append_assoc]; exact hsep.atBlank

theorem lex_words {expr : List Char → Option (List Char)} (hE : ExprOK expr) {ws : List Word} {s : List Char} (h : WordsText ws s)
    (hw : ∀ w ∈ ws, w.WF expr) {r : List Char} (hr : AtBlank r) :
    ∃ ts : List Tok, lex expr false (s ++ r) = ts ++ lex expr false r ∧ List.Forall₂ Of ts ws := by
  induction h with
  | nil => exact ⟨[], rfl, .nil⟩
  | cons sep w ws s hsep h ih =>
    obtain ⟨ts, h1, h2⟩ := ih fun w hw' => hw w (by simp [hw'])
    obtain ⟨t, ht, hv, hty, hn⟩ := lex_word hE (hw w (by simp)) (words_atBlank h hr)
    refine ⟨t :: ts, ?_, .cons ⟨hv, hty, hn⟩ h2⟩
    rw [List.append_assoc, List.append_assoc, lex_sep hE hsep (Word.fresh (hw w (by simp)) _), ht, h1]
    rfl

theorem step_equals {expr : List Char → Option (List Char)} {b : Bool} {a c s : List Char} (ha : Blanks a) (hc : Blanks c) (h : Fresh s) :
    step expr b (a ++ '=' :: (c ++ s)) = some (some ⟨.equals, a ++ '=' :: c⟩, s) := by
  have hd := takeWhile_app (p := isWs) (r := '=' :: (c ++ s)) ha.ws (by simp; decide)
  have hd2 := takeWhile_app hc.ws h.ws
  have h1 : annotation (a ++ '=' :: (c ++ s)) = none := by
    unfold annotation
    rw [hd.2]
    simp [leads, comments]
  have h2 : comment (a ++ '=' :: (c ++ s)) = none := by
    unfold comment
    rw [hd.2]
    simp [comments]
  have h3 : equals (a ++ '=' :: (c ++ s)) = some s := by
    unfold equals
    rw [hd.2]
    simp [hd2.2]
  have hhead : ∃ x q, a ++ '=' :: (c ++ s) = x :: q ∧ isNl x = false ∧ x ≠ '*' ∧ x ≠ '+' ∧ x ≠ '\\' := by
    cases a with
    | nil => exact ⟨_, _, rfl, by decide, by decide, by decide, by decide⟩
    | cons x a =>
      refine ⟨_, _, rfl, ?_⟩
      rcases ha x (by simp) with rfl | rfl <;> decide
  obtain ⟨x, q, hx, e1, e2, e3, e4⟩ := hhead
  have hu := upto_app (a ++ '=' :: c) s
  simp only [List.append_assoc, List.cons_append] at hu
  rw [hx] at h1 h2 h3 hu ⊢
  have h4 : backslash (x :: q) = none := by
    unfold backslash
    split
    · rename_i heq
      simp only [List.cons.injEq] at heq
      exact absurd heq.1 e4
    · rfl
  have h5 : atLine b '*' (x :: q) = none := atLine_none e1 (Or.inr e2)
  have h6 : atLine b '+' (x :: q) = none := atLine_none e1 (Or.inr e3)
  unfold step
  simp [h1, h2, h3, h4, h5, h6, e1, hu]

/-- The three tokens of an assignment. -/
structure OfP (t : Tok × Tok × Tok) (p : List Char × Word) : Prop where
  key : t.1 = ⟨.name, p.1⟩
  eq : t.2.1.ty = .equals
  val : Of t.2.2 p.2

def flat3 (l : List (Tok × Tok × Tok)) : List Tok := l.flatMap fun t => [t.1, t.2.1, t.2.2]

theorem lex_params {expr : List Char → Option (List Char)} (hE : ExprOK expr) {ps : List (List Char × Word)} {s : List Char}
    (h : ParamsText ps s) (hw : ∀ p ∈ ps, NameOK p.1 ∧ p.2.WF expr) {r : List Char} (hr : AtBlank r) :
    ∃ ts, lex expr false (s ++ r) = flat3 ts ++ lex expr false r ∧ List.Forall₂ OfP ts ps := by
  induction h with
  | nil => exact ⟨[], rfl, .nil⟩
  | cons sep k b1 b2 w ps s hsep hb1 hb2 h ih =>
    obtain ⟨ts, h1, h2⟩ := ih fun w hw' => hw w (by simp [hw'])
    have hk := hw (k, w) (by simp)
    obtain ⟨t, ht, hv, hty, hn⟩ := lex_word hE hk.2 (params_atBlank h hr)
    refine ⟨(⟨.name, k⟩, ⟨.equals, b1 ++ '=' :: b2⟩, t) :: ts, ?_, .cons ⟨rfl, rfl, hv, hty, hn⟩ h2⟩
    have hid : ∀ c ∈ (b1 ++ '=' :: (b2 ++ (w.text ++ (s ++ r)))).head?, isId c = false := by
      intro c hc
      cases b1 with
      | nil =>
        simp only [List.nil_append, List.head?_cons, Option.mem_def, Option.some.injEq] at hc
        rw [← hc]
        decide
      | cons x b1 =>
        simp only [List.cons_append, List.head?_cons, Option.mem_def, Option.some.injEq] at hc
        rw [← hc]
        rcases hb1 x (by simp) with rfl | rfl <;> decide
    have hreorder : sep ++ (k ++ (b1 ++ '=' :: (b2 ++ (w.text ++ s)))) ++ r =
        sep ++ (k ++ (b1 ++ '=' :: (b2 ++ (w.text ++ (s ++ r))))) := by simp
    rw [hreorder, lex_sep hE hsep (NameOK.fresh hk.1).fresh, lex_name hE hk.1 hid,
      lex_step hE (step_equals hb1 hb2 (Word.fresh hk.2 _)), ht, h1]
    rfl

theorem ConstOK.edge {c : List Char} (h : ConstOK c) : (∀ x ∈ c.head?, isWs x = false) ∧ (∀ x ∈ c.getLast?, isWs x = false) := by
  constructor
  · intro x hx
    have := h.first x hx
    simpa [isWs] using this
  · intro x hx
    have := h.last x hx
    simpa [isWs] using this

theorem beforeAt_of {c : List Char} (h : ¬ ['@', ':'] <:+: c) : beforeAt c = c := by
  fun_induction beforeAt c with
  | case1 r => exact absurd (List.IsPrefix.isInfix ⟨r, rfl⟩) h
  | case2 c r hc ih =>
    rw [ih fun h' => h (h'.trans (List.suffix_cons _ _).isInfix)]
  | case3 => rfl

theorem beforeAt_blanks {b c : List Char} (hb : Blanks b) : beforeAt (b ++ c) = b ++ beforeAt c := by
  induction b with
  | nil => rfl
  | cons x b ih =>
    have hx := hb x (by simp)
    rw [List.cons_append, beforeAt, ih fun y hy => hb y (by simp [hy])]
    · rfl
    · intro y h
      rcases hx with rfl | rfl <;> exact absurd h (by decide)

theorem strip_blanks {b c : List Char} (hb : Blanks b) (hc : ConstOK c) : strip (b ++ c) = c := by
  have he := hc.edge
  unfold strip
  rw [(takeWhile_app hb.ws he.1).2]
  have : (c.reverse).dropWhile isWs = c.reverse := by
    cases hr : c.reverse with
    | nil => rfl
    | cons x r =>
      have : x ∈ c.getLast? := by
        rw [← List.head?_reverse, hr]
        rfl
      simp [he.2 x this]
  rw [this, List.reverse_reverse]

/-- A token of a constraint. -/
structure OfC (t : Tok) (c : List Char) : Prop where
  ty : t.ty = .annotation
  val : strip (beforeAt t.val) = c

theorem step_constraint {expr : List Char → Option (List Char)} {b : Bool} {n b1 b2 c r : List Char} (hn : ∀ c ∈ n, c = '\n')
    (hb1 : Blanks b1) (hb2 : Blanks b2) (hc : ConstOK c) (hr : Ended r) :
    step expr b ('\n' :: (n ++ '*' :: (b1 ++ '@' :: ':' :: (b2 ++ (c ++ r))))) = some (some ⟨.annotation, b2 ++ c⟩, r) := by
  have hw := takeWhile_app (p := isWs) (r := '*' :: (b1 ++ '@' :: ':' :: (b2 ++ (c ++ r)))) (nls hn).2 (by simp; decide)
  simp only [List.cons_append] at hw
  have h1 : ∀ q, dropLeaders (b1 ++ '@' :: q) = b1 ++ '@' :: q := by
    intro q
    cases b1 with
    | nil => rfl
    | cons x b1 => rcases hb1 x (by simp) with rfl | rfl <;> rfl
  have h2 := takeWhile_app (p := isWs) (r := '@' :: ':' :: (b2 ++ (c ++ r))) hb1.ws (by simp; decide)
  have hcr : ∀ x ∈ (c ++ r).head?, isWs x = false := by
    intro x hx
    cases c with
    | nil => exact absurd rfl hc.ne
    | cons y c =>
      simp only [List.cons_append, List.head?_cons] at hx
      exact hc.edge.1 x (by simpa using hx)
  have h3 := takeWhile_app (p := isWs) (r := c ++ r) hb2.ws hcr
  have h4 := takeWhile_app (p := (!isNl ·)) (a := c) (r := r) (fun x hx => by
    have := hc.line x hx
    simp [isNl, this]) (by
    intro x hx
    rcases hr.nl with rfl | ⟨q, rfl⟩
    · simp at hx
    · simp only [List.head?_cons, Option.mem_def, Option.some.injEq] at hx
      rw [← hx]
      decide)
  have h5 : annotation ('\n' :: (n ++ '*' :: (b1 ++ '@' :: ':' :: (b2 ++ (c ++ r))))) = some (b2 ++ c, r) := by
    unfold annotation
    dsimp only
    rw [hw.2, if_pos (show leads ('*' :: _) = true from rfl), show ∀ q, dropLeaders ('*' :: q) = dropLeaders q from fun _ => rfl, h1, h2.2]
    show some ((b2 ++ (c ++ r)).takeWhile isWs ++ ((b2 ++ (c ++ r)).dropWhile isWs).takeWhile (!isNl ·),
      ((b2 ++ (c ++ r)).dropWhile isWs).dropWhile (!isNl ·)) = _
    rw [h3.1, h3.2, h4.1, h4.2]
  unfold step
  simp [h5]

theorem Good.nows {s : List Char} (h : Good s) : s.dropWhile isWs = s := h.fresh.drop

theorem eol_ended {rest : List Char} (h : Good rest) {cs : List (List Char)} {s : List Char} (hs : Eol rest cs s) : Ended (s ++ rest) := by
  cases hs with
  | eof he => exact ⟨Or.inl (by simp [he]), by rw [List.nil_append, h.nows]; exact h.at_⟩
  | newline n i hn hi =>
    refine ⟨Or.inr ⟨_, rfl⟩, ?_⟩
    have := takeWhile_app (p := isWs) (a := ('\n' :: n) ++ i) (r := rest) (by
      intro c hc
      rcases List.mem_append.1 hc with hc | hc
      · exact (nls hn).2 c hc
      · exact hi.ws c hc) h.fresh.ws
    simp only [List.cons_append] at this ⊢
    rw [this.2]
    exact h.at_
  | note n t cs s hn ht h' =>
    refine ⟨Or.inr ⟨_, rfl⟩, ?_⟩
    have := takeWhile_app (p := isWs) (a := '\n' :: n) (r := '*' :: (t ++ (s ++ rest))) (nls hn).2 (by simp; decide)
    simp only [List.cons_append, List.append_assoc] at this ⊢
    rw [this.2]
    simp
  | constraint n b1 b2 c cs s hn hb1 hb2 hc h' =>
    refine ⟨Or.inr ⟨_, rfl⟩, ?_⟩
    have := takeWhile_app (p := isWs) (a := '\n' :: n) (r := '*' :: (b1 ++ '@' :: ':' :: (b2 ++ (c ++ (s ++ rest))))) (nls hn).2
      (by simp; decide)
    simp only [List.cons_append, List.append_assoc] at this ⊢
    rw [this.2]
    simp

theorem lex_eol {expr : List Char → Option (List Char)} (hE : ExprOK expr) {rest : List Char} (h : Good rest) {cs : List (List Char)}
    {s : List Char} (hs : Eol rest cs s) (b : Bool) (hb : b = false ∨ s ≠ []) :
    ∃ as nl : List Tok, lex expr b (s ++ rest) = as ++ (nl ++ lex expr false rest) ∧ List.Forall₂ OfC as cs ∧
      ((nl = [] ∧ rest = []) ∨ ∃ v, nl = [⟨.newl, v⟩]) := by
  induction hs generalizing b with
  | eof he =>
    rcases hb with rfl | hb
    · exact ⟨[], [], rfl, .nil, Or.inl ⟨rfl, he⟩⟩
    · exact absurd rfl hb
  | newline n i hn hi =>
    refine ⟨[], [⟨.newl, '\n' :: n⟩], ?_, .nil, Or.inr ⟨_, rfl⟩⟩
    have := step_newl (expr := expr) (b := b) (c := '\n') (a := n) (i := i) (s := rest) (by decide) (fun x hx => (nls hn).1 x (by simp [hx]))
      (fun x hx => ⟨hi.ws x hx, hi.nl x hx⟩) h.fresh (Or.inr h.plus)
    rw [List.cons_append, List.append_assoc, lex_step hE this, lex_blanks hE hi h.fresh]
    rfl
  | note n t cs s hn ht hs ih =>
    obtain ⟨as, nl, h1, h2, h3⟩ := ih false (Or.inl rfl)
    refine ⟨as, nl, ?_, h2, h3⟩
    have := step_note (expr := expr) (b := b) hn ht (eol_ended h hs)
    rw [show '\n' :: (n ++ '*' :: (t ++ s)) ++ rest = '\n' :: (n ++ '*' :: (t ++ (s ++ rest))) by simp, lex_step hE this, h1]
    rfl
  | constraint n b1 b2 c cs s hn hb1 hb2 hc hs ih =>
    obtain ⟨as, nl, h1, h2, h3⟩ := ih false (Or.inl rfl)
    refine ⟨⟨.annotation, b2 ++ c⟩ :: as, nl, ?_, .cons ⟨rfl, ?_⟩ h2, h3⟩
    · have := step_constraint (expr := expr) (b := b) hn hb1 hb2 hc (eol_ended h hs)
      rw [show '\n' :: (n ++ '*' :: (b1 ++ '@' :: ':' :: (b2 ++ (c ++ s)))) ++ rest =
        '\n' :: (n ++ '*' :: (b1 ++ '@' :: ':' :: (b2 ++ (c ++ (s ++ rest))))) by simp, lex_step hE this, h1]
      rfl
    · rw [beforeAt_blanks hb2, beforeAt_of hc.mark, strip_blanks hb2 hc]

theorem lex_lineEnd {expr : List Char → Option (List Char)} (hE : ExprOK expr) {rest : List Char} (h : Good rest) {cs : List (List Char)}
    {s : List Char} (hs : LineEnd rest cs s) :
    AtBlank (s ++ rest) ∧ ∃ as nl : List Tok, lex expr false (s ++ rest) = as ++ (nl ++ lex expr false rest) ∧ List.Forall₂ OfC as cs ∧
      ((nl = [] ∧ rest = []) ∨ ∃ v, nl = [⟨.newl, v⟩]) := by
  cases hs with
  | plain _ _ hs => exact ⟨(eol_ended h hs).atBlank, lex_eol hE h hs false (Or.inl rfl)⟩
  | inline b o t cs s hne hb ho ht hs =>
    constructor
    · intro x hx
      cases b with
      | nil => exact absurd rfl hne
      | cons c b =>
        simp only [List.cons_append, List.head?_cons, Option.mem_def, Option.some.injEq] at hx
        rw [← hx]
        rcases hb c (by simp) with h | h <;> simp [h]
    · obtain ⟨as, nl, h1, h2, h3⟩ := lex_eol hE h hs false (Or.inl rfl)
      refine ⟨as, nl, ?_, h2, h3⟩
      rw [show b ++ (o ++ (t ++ s)) ++ rest = b ++ (o ++ (t ++ (s ++ rest))) by simp,
        lex_step hE (step_inline hne hb ho ht (eol_ended h hs)), h1]
      rfl

/-! ### The arguments of a line -/

theorem ofs_noeq {ts : List Tok} {ws : List Word} (h : List.Forall₂ Of ts ws) : ∀ t ∈ ts, t.ty = .name ∨ t.ty = .number ∨ t.ty = .expr := by
  intro t ht
  induction h with
  | nil => simp at ht
  | cons h1 _ ih =>
    rcases List.mem_cons.1 ht with rfl | ht
    · exact h1.ty
    · exact ih ht

theorem isEq_some (t : Tok) : isEq (some t) = decide (t.ty = .equals) := by simp [isEq]

theorem Of.noeq {t : Tok} {w : Word} (h : Of t w) : t.ty ≠ .equals := by
  rcases h.ty with h | h | h <;> simp [h]

theorem positional_params {ts : List (Tok × Tok × Tok)} {ps : List (List Char × Word)} (h : List.Forall₂ OfP ts ps) (prev : Option Tok) :
    positional prev (flat3 ts) = [] := by
  induction h generalizing prev with
  | nil => rfl
  | @cons t p ts ps h1 _ ih =>
    have ih' := ih (some t.2.2)
    unfold flat3 at ih' ⊢
    simp only [List.flatMap_cons, List.cons_append, List.nil_append, positional, List.head?_cons, isEq_some, h1.eq, decide_true,
      Bool.or_true, Bool.true_or, if_true, ih']

theorem flat3_head {ts : List (Tok × Tok × Tok)} {ps : List (List Char × Word)} (h : List.Forall₂ OfP ts ps) :
    isEq (flat3 ts).head? = false := by
  cases h with
  | nil => rfl
  | cons h1 _ => simp [flat3, isEq_some, h1.key]

theorem positional_line {ts : List Tok} {ws : List Word} (h : List.Forall₂ Of ts ws) {qs : List (Tok × Tok × Tok)}
    {ps : List (List Char × Word)} (hp : List.Forall₂ OfP qs ps) (prev : Option Tok) (hprev : isEq prev = false) :
    positional prev (ts ++ flat3 qs) = ts := by
  induction h generalizing prev with
  | nil => exact positional_params hp prev
  | @cons t w ts ws h1 h2 ih =>
    have ht : isEq (some t) = false := by simp [isEq_some, h1.noeq]
    have hn : isEq (ts ++ flat3 qs).head? = false := by
      cases h2 with
      | nil => exact flat3_head hp
      | cons h3 _ => simp [isEq_some, h3.noeq]
    simp only [List.cons_append, positional, hprev, ht, hn, ih (some t) ht]
    simp

theorem assignments_params {ts : List (Tok × Tok × Tok)} {ps : List (List Char × Word)} (h : List.Forall₂ OfP ts ps)
    (last prev : Option Tok) : assignments last prev (flat3 ts) = some (ps.map fun p => (up p.1, p.2.val)) := by
  induction h generalizing prev with
  | nil => rfl
  | @cons t p ts ps h1 _ ih =>
    have ih' := ih (some t.2.2)
    have e1 : t.1.ty ≠ .equals := by rw [h1.key]; simp
    unfold flat3 at ih' ⊢
    simp only [List.flatMap_cons, List.cons_append, List.nil_append, assignments, h1.eq, e1, h1.val.noeq, if_false, if_true, ih',
      Option.some_or, Option.bind_some, List.head?_cons, Option.map_some, h1.val.val, List.map_cons]
    rw [h1.key]
    simp

theorem assignments_line {ts : List Tok} {ws : List Word} (h : List.Forall₂ Of ts ws) {qs : List (Tok × Tok × Tok)}
    {ps : List (List Char × Word)} (hp : List.Forall₂ OfP qs ps) (last prev : Option Tok) :
    assignments last prev (ts ++ flat3 qs) = some (ps.map fun p => (up p.1, p.2.val)) := by
  induction h generalizing prev with
  | nil => exact assignments_params hp last prev
  | @cons t w ts ws h1 h2 ih =>
    simp only [List.cons_append, assignments, h1.noeq, if_false, ih]

theorem put_new {α : Type} {d : List (List Char × α)} {k : List Char} {v : α} (h : k ∉ d.map Prod.fst) : put d k v = d ++ [(k, v)] := by
  unfold put
  rw [if_neg (by simpa using h)]

theorem foldl_put {α : Type} (l d : List (List Char × α)) (h : ((d ++ l).map Prod.fst).Nodup) :
    l.foldl (fun d e => put d e.1 e.2) d = d ++ l := by
  induction l generalizing d with
  | nil => simp
  | cons x l ih =>
    rw [List.foldl_cons, put_new, ih]
    · simp
    · simpa using h
    · intro hx
      rw [List.map_append, List.nodup_append] at h
      exact h.2.2 _ hx x.1 (by simp) rfl

theorem cast_map {ts : List Tok} {ws : List Word} (h : List.Forall₂ Of ts ws) : ts.map cast = ws.map Word.val := by
  induction h with
  | nil => rfl
  | cons h1 _ ih => simp [h1.val, ih]

theorem decompose_line {ts : List Tok} {ws : List Word} (h : List.Forall₂ Of ts ws) {qs : List (Tok × Tok × Tok)}
    {ps : List (List Char × Word)} (hp : List.Forall₂ OfP qs ps) (hnd : (ps.map fun p => up p.1).Nodup) :
    decompose (ts ++ flat3 qs) = some (ws.map Word.val, ps.map fun p => (up p.1, p.2.val)) := by
  have hall : (ts ++ flat3 qs).all (fun t => t.ty = .name || t.ty = .number || t.ty = .expr || t.ty = .equals) = true := by
    rw [List.all_eq_true]
    intro t ht
    rcases List.mem_append.1 ht with ht' | ht'
    · rcases ofs_noeq h t ht' with h | h | h <;> simp [h]
    · clear hnd ht
      clear h
      induction hp with
      | nil => simp [flat3] at ht'
      | @cons q p qs ps h1 _ ih =>
        simp only [flat3, List.flatMap_cons, List.mem_append, List.mem_cons, List.not_mem_nil, or_false] at ht'
        rcases ht' with (rfl | rfl | rfl) | ht
        · simp [h1.key]
        · simp [h1.eq]
        · rcases h1.val.ty with h | h | h <;> simp [h]
        · exact ih ht
  unfold decompose
  rw [if_pos hall, assignments_line h hp, positional_line h hp none rfl, cast_map h]
  simp only [Option.map_some]
  rw [foldl_put]
  · rfl
  · rw [List.nil_append, List.map_map]
    exact hnd

/-! ### Running over a line -/

/-- More constraints wait for the end of the subcircuit. -/
def addQ (st : St) (cs : List (List Char)) : St := { st with queue := st.queue.map (· ++ cs) }

theorem run_cache (E : Env) (st : St) (cache ts l : List Tok) (h : ∀ t ∈ ts, t.ty ≠ .newl ∧ t.ty ≠ .annotation) :
    run E st cache (ts ++ l) = run E st (cache ++ ts) l := by
  induction ts generalizing cache with
  | nil => simp
  | cons t ts ih =>
    have ht := h t (by simp)
    rw [List.cons_append, run, if_neg ht.1, if_neg ht.2, ih _ fun t h' => h t (by simp [h'])]
    simp

theorem addQ_nil (st : St) : addQ st [] = st := by
  rcases st with ⟨a, b, c, d, q⟩
  cases q with
  | none => rfl
  | some q => simp only [addQ, Option.map_some, List.append_nil]

theorem run_nil (E : Env) (st : St) : run E st [] [] = some st := rfl

theorem run_end (E : Env) {st st' : St} {cache : List Tok} (hd : dispatch E st cache = some st') {as nl l : List Tok}
    {cs : List (List Char)} (ha : List.Forall₂ OfC as cs) (hq : cs = [] ∨ st'.queue.isSome = true)
    (hnl : (nl = [] ∧ l = []) ∨ ∃ v, nl = [⟨.newl, v⟩]) : run E st cache (as ++ (nl ++ l)) = run E (addQ st' cs) [] l := by
  induction ha generalizing st st' cache with
  | nil =>
    rw [addQ_nil]
    rcases hnl with ⟨h1, h2⟩ | ⟨v, h1⟩
    · rw [h1, h2, run_nil]
      exact hd
    · rw [h1]
      rw [List.nil_append, List.singleton_append, run, if_pos rfl, hd, Option.bind_some]
  | @cons t c as cs h1 h2 ih =>
    have hq' : st'.queue.isSome = true := by
      rcases hq with h | h
      · exact absurd h (by simp)
      · exact h
    obtain ⟨q, hq'⟩ := Option.isSome_iff_exists.1 hq'
    have hqc : queueConst st' t.val = some { st' with queue := some (q ++ [c]) } := by
      unfold queueConst
      rw [hq', Option.map_some, h1.val]
    rw [List.cons_append, run, if_neg (by simp [h1.ty]), if_pos h1.ty, hd, Option.bind_some, hqc, Option.bind_some]
    have : dispatch E { st' with queue := some (q ++ [c]) } [] = some { st' with queue := some (q ++ [c]) } := rfl
    rw [ih this (Or.inr rfl)]
    congr 1
    unfold addQ
    simp only [hq', Option.map_some, List.append_assoc, List.singleton_append]

end Verif.Spice

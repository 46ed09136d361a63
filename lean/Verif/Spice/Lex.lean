import Verif.Spice.Model
import Mathlib.Tactic.Tauto

/-! # C70: lemmas about the tokens -/

namespace Verif.Spice

open Verif.Schema (isDig str2float)

/-- What is assumed of the pattern of expressions: they begin with a quote or a brace, and are not empty. -/
def ExprOK (expr : List Char → Option (List Char)) : Prop :=
  ∀ s r, expr s = some r → (∃ c ∈ s.head?, c = '\'' ∨ c = '"' ∨ c = '{') ∧ r.length < s.length

theorem dropWhile_le (p : Char → Bool) (s : List Char) : (s.dropWhile p).length ≤ s.length := List.length_dropWhile_le _ _

theorem dropWhile_lt {p : Char → Bool} {s : List Char} (h : s.takeWhile p ≠ []) : (s.dropWhile p).length < s.length := by
  have : (s.takeWhile p).length + (s.dropWhile p).length = s.length := by
    rw [← List.length_append, List.takeWhile_append_dropWhile]
  have := List.length_pos_iff.2 h
  omega

theorem dropLeaders_le (s : List Char) : (dropLeaders s).length ≤ s.length := by
  fun_induction dropLeaders s <;> simp_all <;> omega

theorem annotation_lt {s t r : List Char} (h : annotation s = some (t, r)) : r.length < s.length := by
  unfold annotation at h
  dsimp only at h
  split at h
  · split at h
    · rename_i q hq
      simp only [Option.some.injEq, Prod.mk.injEq] at h
      rw [← h.2]
      have h1 := dropWhile_le isWs s
      have h2 := dropLeaders_le (s.dropWhile isWs)
      have h3 := dropWhile_le isWs (dropLeaders (s.dropWhile isWs))
      rw [hq] at h3
      have h4 := dropWhile_le isWs q
      have h5 := dropWhile_le (!isNl ·) (q.dropWhile isWs)
      simp only [List.length_cons] at h3
      omega
    · simp at h
  · simp at h

theorem atLine_lt {b : Bool} {c : Char} {s r : List Char} (h : atLine b c s = some r) : r.length < s.length := by
  unfold atLine at h
  split at h
  · rename_i d q hq
    split at h
    · simp only [Option.some.injEq] at h
      rw [← h]
      have := dropWhile_le isNl s
      rw [hq] at this
      simp only [List.length_cons] at this
      omega
    · simp at h
  · simp at h

theorem comments_head {s : List Char} (h : comments s = true) : ∃ c r, s = c :: r ∧ isNl c = false := by
  unfold comments at h
  split at h
  · exact ⟨_, _, rfl, by decide⟩
  · exact ⟨_, _, rfl, by decide⟩
  · exact ⟨_, _, rfl, by decide⟩
  · simp at h

theorem comment_lt {s r : List Char} (h : comment s = some r) : r.length < s.length := by
  unfold comment at h
  dsimp only at h
  split at h
  · rename_i hc
    simp only [Option.some.injEq] at h
    rw [← h]
    obtain ⟨c, q, hq, hn⟩ := comments_head hc
    have h1 := dropWhile_le isWs s
    rw [hq] at h1 ⊢
    simp only [List.dropWhile_cons, hn, Bool.not_false, if_true, List.length_cons] at h1 ⊢
    have := dropWhile_le (!isNl ·) q
    omega
  · simp at h

theorem backslash_lt {s r : List Char} (h : backslash s = some r) : r.length < s.length := by
  unfold backslash at h
  split at h
  · rename_i q
    dsimp only at h
    split at h
    · simp only [Option.some.injEq] at h
      rw [← h]
      have h1 : (q.takeWhile isWs).length + (q.dropWhile isWs).length = q.length := by
        rw [← List.length_append, List.takeWhile_append_dropWhile]
      have h2 := (List.takeWhile_prefix (l := (q.takeWhile isWs).reverse) (!isNl ·)).length_le
      simp only [List.length_append, List.length_reverse, List.length_cons] at h2 ⊢
      omega
    · simp at h
  · simp at h

theorem equals_lt {s r : List Char} (h : equals s = some r) : r.length < s.length := by
  unfold equals at h
  split at h
  · rename_i q hq
    simp only [Option.some.injEq] at h
    rw [← h]
    have h1 := dropWhile_le isWs s
    rw [hq] at h1
    have h2 := dropWhile_le isWs q
    simp only [List.length_cons] at h1
    omega
  · simp at h

theorem dropSign_le (s : List Char) : (dropSign s).length ≤ s.length := by
  unfold dropSign
  split <;> simp

theorem intPart_lt {s r : List Char} (h : intPart s = some r) : r.length < s.length := by
  unfold intPart at h
  split at h
  · simp at h
  · rename_i c q
    split at h
    · simp only [Option.some.injEq] at h
      rw [← h]
      simp
    · split at h
      · simp only [Option.some.injEq] at h
        rw [← h]
        have := dropWhile_le isDig q
        simp only [List.length_cons]
        omega
      · simp at h

theorem fracPart_le (s : List Char) : (fracPart s).length ≤ s.length := by
  unfold fracPart
  split
  · rename_i r
    split
    · have := dropWhile_le isDig r
      simp only [List.length_cons]
      omega
    · simp
  · simp

theorem expPart_le (s : List Char) : (expPart s).length ≤ s.length := by
  unfold expPart
  split
  · rename_i c r
    split
    · have := dropWhile_le isDig (dropSign r)
      have := dropSign_le r
      simp only [List.length_cons]
      omega
    · simp
  · simp

theorem number_lt {s r : List Char} (h : number s = some r) : r.length < s.length := by
  unfold number at h
  rw [Option.bind_eq_some_iff] at h
  obtain ⟨q, hq, h⟩ := h
  have h1 := intPart_lt hq
  have h2 := dropSign_le s
  have h3 := fracPart_le q
  have h4 := expPart_le (fracPart q)
  unfold unitPart at h
  split at h
  · simp only [Option.some.injEq] at h
    rw [← h]
    simp only [List.length_drop]
    omega
  · split at h
    · simp only [Option.some.injEq] at h
      rw [← h]
      omega
    · simp at h

theorem wordStep_lt {expr : List Char → Option (List Char)} (hE : ExprOK expr) {s : List Char} {t : Option Tok} {r : List Char}
    (h : wordStep expr s = some (t, r)) : r.length < s.length := by
  unfold wordStep at h
  split at h
  · rename_i q hq
    simp only [Option.some.injEq, Prod.mk.injEq] at h
    rw [← h.2]
    exact (hE _ _ hq).2
  · split at h
    · rename_i q hq
      simp only [Option.some.injEq, Prod.mk.injEq] at h
      rw [← h.2]
      exact number_lt hq
    · split at h
      · rename_i hc
        simp only [Option.some.injEq, Prod.mk.injEq] at h
        rw [← h.2]
        have h1 := dropWhile_lt hc.2
        cases s with
        | nil => simp at hc
        | cons c s =>
          simp only [List.tail_cons, List.length_cons] at h1 ⊢
          omega
      · split at h
        · rename_i hc
          simp only [Option.some.injEq, Prod.mk.injEq] at h
          rw [← h.2]
          exact dropWhile_lt hc
        · split at h
          · rename_i hc
            simp only [Option.some.injEq, Prod.mk.injEq] at h
            rw [← h.2]
            exact dropWhile_lt hc
          · simp at h

theorem step_lt {expr : List Char → Option (List Char)} (hE : ExprOK expr) {b : Bool} {s : List Char} {t : Option Tok} {r : List Char}
    (h : step expr b s = some (t, r)) : r.length < s.length := by
  unfold step at h
  split at h
  · simp at h
  · split at h
    · rename_i hq
      simp only [Option.some.injEq, Prod.mk.injEq] at h
      rw [← h.2]
      exact annotation_lt hq
    · split at h
      · rename_i q hq
        simp only [Option.some.injEq, Prod.mk.injEq] at h
        rw [← h.2]
        have := atLine_lt hq
        have := dropWhile_le (!isNl ·) q
        omega
      · split at h
        · rename_i hq
          simp only [Option.some.injEq, Prod.mk.injEq] at h
          rw [← h.2]
          exact comment_lt hq
        · split at h
          · rename_i hq
            simp only [Option.some.injEq, Prod.mk.injEq] at h
            rw [← h.2]
            exact atLine_lt hq
          · split at h
            · rename_i hq
              simp only [Option.some.injEq, Prod.mk.injEq] at h
              rw [← h.2]
              exact backslash_lt hq
            · split at h
              · rename_i hc
                simp only [Option.some.injEq, Prod.mk.injEq] at h
                rw [← h.2]
                apply dropWhile_lt
                cases s with
                | nil => simp at hc
                | cons c s =>
                  simp only [List.head?_cons, Option.any_some] at hc
                  simp [hc]
              · split at h
                · rename_i hq
                  simp only [Option.some.injEq, Prod.mk.injEq] at h
                  rw [← h.2]
                  exact equals_lt hq
                · exact wordStep_lt hE h

theorem lexAux_enough {expr : List Char → Option (List Char)} (hE : ExprOK expr) : ∀ (n : Nat) (b : Bool) (s : List Char), s.length ≤ n →
    lexAux expr n b s = lexAux expr s.length b s := by
  intro n
  induction n using Nat.strong_induction_on with
  | _ n ih =>
    intro b s hs
    cases n with
    | zero =>
      have : s.length = 0 := by omega
      rw [this]
    | succ n =>
      cases hst : step expr b s with
      | none =>
        cases s with
        | nil => simp [lexAux, hst]
        | cons c s => simp [lexAux, hst]
      | some x =>
        obtain ⟨t, r⟩ := x
        have hr := step_lt hE hst
        obtain ⟨k, hk⟩ : ∃ k, s.length = k + 1 := ⟨s.length - 1, by omega⟩
        rw [hk]
        simp only [lexAux, hst]
        rw [ih n (by omega) false r (by omega), ih k (by omega) false r (by omega)]

theorem lex_step {expr : List Char → Option (List Char)} (hE : ExprOK expr) {b : Bool} {s : List Char} {t : Option Tok} {r : List Char}
    (h : step expr b s = some (t, r)) : lex expr b s = t.toList ++ lex expr false r := by
  have hr := step_lt hE h
  obtain ⟨k, hk⟩ : ∃ k, s.length = k + 1 := ⟨s.length - 1, by omega⟩
  unfold lex
  rw [hk]
  simp only [lexAux, h]
  rw [lexAux_enough hE k false r (by omega)]

theorem lex_stop {expr : List Char → Option (List Char)} {b : Bool} {s : List Char} (h : step expr b s = none) : lex expr b s = [] := by
  unfold lex
  cases s with
  | nil => rfl
  | cons c s => simp [lexAux, h]

/-! ### Alternatives that do not match -/

theorem takeWhile_app {p : Char → Bool} {a r : List Char} (ha : ∀ c ∈ a, p c = true) (hr : ∀ c ∈ r.head?, p c = false) :
    (a ++ r).takeWhile p = a ∧ (a ++ r).dropWhile p = r := by
  induction a with
  | nil =>
    cases r with
    | nil => simp
    | cons c r => simp [hr c (by simp)]
  | cons x a ih =>
    have := ih (fun c hc => ha c (by simp [hc]))
    simp [ha x (by simp), this]

/-- A text that begins neither with a blank nor as a comment, an assignment or a break of the line. -/
structure Fresh (s : List Char) : Prop where
  ws : ∀ c ∈ s.head?, isWs c = false
  com : comments s = false
  star : s.head? ≠ some '*'
  eq : s.head? ≠ some '='

theorem Fresh.drop {s : List Char} (h : Fresh s) : s.dropWhile isWs = s := by
  cases s with
  | nil => rfl
  | cons c s => simp [h.ws c (by simp)]

theorem Fresh.leads {s : List Char} (h : Fresh s) : leads s = false := by
  unfold Spice.leads
  split
  · exact absurd rfl h.star
  · exact h.com

theorem nl_ws {c : Char} (h : isNl c = true) : isWs c = true := by
  simp only [isNl, Bool.or_eq_true, beq_iff_eq] at h
  rcases h with rfl | rfl <;> decide

theorem annotation_none {a s : List Char} (ha : ∀ c ∈ a, isWs c = true) (h : Fresh s) : annotation (a ++ s) = none := by
  unfold annotation
  rw [(takeWhile_app ha h.ws).2]
  simp [h.leads]

theorem comment_none {a s : List Char} (ha : ∀ c ∈ a, isWs c = true) (h : Fresh s) : comment (a ++ s) = none := by
  unfold comment
  rw [(takeWhile_app ha h.ws).2]
  simp [h.com]

theorem equals_none {a s : List Char} (ha : ∀ c ∈ a, isWs c = true) (h : Fresh s) : equals (a ++ s) = none := by
  unfold equals
  rw [(takeWhile_app ha h.ws).2]
  split
  · exact absurd rfl h.eq
  · rfl

theorem atLine_none {b : Bool} {c d : Char} {s : List Char} (hd : isNl d = false) (h : b = false ∨ d ≠ c) : atLine b c (d :: s) = none := by
  unfold atLine
  simp only [List.dropWhile_cons, hd, Bool.false_eq_true, if_false]
  rw [if_neg]
  rintro ⟨rfl, h'⟩
  rcases h' with rfl | h'
  · rcases h with h | h
    · exact absurd h (by decide)
    · exact h rfl
  · simp [hd] at h'

/-- A word begins: only the last alternatives can match. -/
theorem step_word (expr : List Char → Option (List Char)) {b : Bool} {c : Char} {s : List Char} (h : Fresh (c :: s))
    (hb : b = false ∨ c ≠ '+') (hs : c ≠ '\\') : step expr b (c :: s) = wordStep expr (c :: s) := by
  have hws := h.ws c (by simp)
  have hnl : isNl c = false := by
    cases hc : isNl c with
    | false => rfl
    | true => rw [nl_ws hc] at hws; simp at hws
  have h1 := annotation_none (a := []) (by simp) h
  have h2 := comment_none (a := []) (by simp) h
  have h3 := equals_none (a := []) (by simp) h
  have h4 : backslash (c :: s) = none := by
    unfold backslash
    split
    · rename_i heq
      simp only [List.cons.injEq] at heq
      exact absurd heq.1 hs
    · rfl
  have h5 : atLine b '*' (c :: s) = none := atLine_none hnl (Or.inr (fun e => h.star (by simp [e])))
  have h6 : atLine b '+' (c :: s) = none := atLine_none hnl hb
  simp only [List.nil_append] at h1 h2 h3
  unfold step
  simp [h1, h2, h3, h4, h5, h6, hnl]

/-- Blanks that do not begin with a line break. -/
theorem step_blank {expr : List Char → Option (List Char)} (hE : ExprOK expr) {b : Bool} {c : Char} {a s : List Char}
    (hc : isWs c = true) (hn : isNl c = false) (ha : ∀ x ∈ a, isWs x = true) (h : Fresh s) : step expr b (c :: (a ++ s)) = some (none, s) := by
  have hca : ∀ x ∈ c :: a, isWs x = true := by
    intro x hx
    rcases List.mem_cons.1 hx with rfl | hx
    · exact hc
    · exact ha x hx
  have h1 := annotation_none hca h
  have h2 := comment_none hca h
  have h3 := equals_none hca h
  have hd := takeWhile_app hca h.ws
  simp only [List.cons_append] at h1 h2 h3 hd
  have hch : c ≠ '*' ∧ c ≠ '+' ∧ c ≠ '\\' ∧ c ≠ '.' ∧ c ≠ '-' ∧ isDig c = false ∧ isId c = false ∧ c ≠ '\'' ∧ c ≠ '"' ∧ c ≠ '{' := by
    have hid : isId c = false := by simp [isId, hc]
    simp only [isWs, List.contains_eq_mem, List.mem_cons, List.not_mem_nil, or_false, decide_eq_true_eq] at hc
    rcases hc with rfl | rfl | rfl | rfl | rfl | rfl <;> simp_all <;> decide
  obtain ⟨e1, e2, e3, e4, e5, e6, e7, e8, e9, e10⟩ := hch
  have h4 : backslash (c :: (a ++ s)) = none := by
    unfold backslash
    split
    · rename_i heq
      simp only [List.cons.injEq] at heq
      exact absurd heq.1 e3
    · rfl
  have h5 : atLine b '*' (c :: (a ++ s)) = none := atLine_none hn (Or.inr e1)
  have h6 : atLine b '+' (c :: (a ++ s)) = none := atLine_none hn (Or.inr e2)
  have h7 : expr (c :: (a ++ s)) = none := by
    cases hx : expr (c :: (a ++ s)) with
    | none => rfl
    | some r =>
      obtain ⟨⟨d, hd, hd'⟩, -⟩ := hE _ _ hx
      simp only [List.head?_cons, Option.mem_def, Option.some.injEq] at hd
      subst hd
      tauto
  have h8 : number (c :: (a ++ s)) = none := by
    have hs : dropSign (c :: (a ++ s)) = c :: (a ++ s) := by
      unfold dropSign
      split
      · rename_i heq
        simp only [List.cons.injEq] at heq
        exact absurd heq.1 e2
      · rename_i heq
        simp only [List.cons.injEq] at heq
        exact absurd heq.1 e5
      · rfl
    unfold number
    rw [hs]
    have : c ≠ '0' := by
      rintro rfl
      exact absurd e6 (by decide)
    simp [intPart, this, e6]
  unfold step wordStep
  simp [h1, h2, h3, h4, h5, h6, h7, h8, hn, e4, e7, hd, hc]

/-- Line breaks. -/
theorem step_newl {expr : List Char → Option (List Char)} {b : Bool} {c : Char} {a i s : List Char}
    (hc : isNl c = true) (ha : ∀ x ∈ a, isNl x = true) (hi : ∀ x ∈ i, isWs x = true ∧ isNl x = false) (h : Fresh s)
    (hp : i ≠ [] ∨ s.head? ≠ some '+') :
    step expr b (c :: (a ++ (i ++ s))) = some (some ⟨.newl, c :: a⟩, i ++ s) := by
  have hca : ∀ x ∈ c :: a, isNl x = true := by
    intro x hx
    rcases List.mem_cons.1 hx with rfl | hx
    · exact hc
    · exact ha x hx
  have hall : ∀ x ∈ (c :: a) ++ i, isWs x = true := by
    intro x hx
    rcases List.mem_append.1 hx with hx | hx
    · exact nl_ws (hca x hx)
    · exact (hi x hx).1
  have h1 := annotation_none hall h
  have h2 := comment_none hall h
  have hd := takeWhile_app (p := isNl) (a := c :: a) (r := i ++ s) hca (by
    intro x hx
    cases i with
    | nil =>
      have := h.ws x (by simpa using hx)
      cases hn : isNl x with
      | false => rfl
      | true => rw [nl_ws hn] at this; simp at this
    | cons y i =>
      simp only [List.cons_append, List.head?_cons, Option.mem_def, Option.some.injEq] at hx
      rw [← hx]
      exact (hi y (by simp)).2)
  simp only [List.cons_append, List.append_assoc] at h1 h2 hd
  have hline : ∀ d, (d = '*' ∨ d = '+') → atLine b d (c :: (a ++ (i ++ s))) = none := by
    intro d hdd
    unfold atLine
    rw [hd.2]
    split
    · rename_i x r hx
      rw [if_neg]
      rintro ⟨rfl, -⟩
      cases i with
      | nil =>
        simp only [List.nil_append] at hx
        rcases hdd with rfl | rfl
        · exact h.star (by simp [hx])
        · rcases hp with hp | hp
          · exact hp rfl
          · exact hp (by simp [hx])
      | cons y i =>
        simp only [List.cons_append, List.cons.injEq] at hx
        have := (hi y (by simp)).1
        rw [hx.1] at this
        rcases hdd with rfl | rfl
        · exact absurd this (by decide)
        · exact absurd this (by decide)
    · rfl
  have h4 : backslash (c :: (a ++ (i ++ s))) = none := by
    unfold backslash
    split
    · rename_i heq
      simp only [List.cons.injEq] at heq
      rw [heq.1] at hc
      exact absurd hc (by decide)
    · rfl
  unfold step
  simp [h1, h2, hline '*' (Or.inl rfl), hline '+' (Or.inr rfl), h4, hc, hd]

/-- A continued line. -/
theorem step_continue {expr : List Char → Option (List Char)} {b : Bool} {s : List Char} :
    step expr b ('\n' :: '+' :: s) = some (none, s) := by
  have hf : Fresh ('+' :: s) := ⟨by simp; decide, by simp [comments], by simp, by simp⟩
  have h1 := annotation_none (a := ['\n']) (by decide) hf
  have h2 := comment_none (a := ['\n']) (by decide) hf
  simp only [List.cons_append, List.nil_append] at h1 h2
  have e1 : isNl '\n' = true := by decide
  have e2 : isNl '+' = false := by decide
  have h3 : atLine b '*' ('\n' :: '+' :: s) = none := by
    unfold atLine
    simp [e1, e2]
  have h4 : atLine b '+' ('\n' :: '+' :: s) = some s := by
    unfold atLine
    simp [e1, e2]
  unfold step
  simp [h1, h2, h3, h4]

theorem not_annotation {s : List Char} (h : ((dropLeaders (s.dropWhile isWs)).dropWhile isWs).head? ≠ some '@') : annotation s = none := by
  unfold annotation
  dsimp only
  split
  · split
    · rename_i heq
      rw [heq] at h
      simp at h
    · rfl
  · rfl

/-- Removing leaders and blanks from a comment without `@` and the rest of the text. -/
theorem quiet {t r : List Char} (ht : '@' ∉ t) (hr : ((dropLeaders r).dropWhile isWs).head? ≠ some '@')
    (hr' : (r.dropWhile isWs).head? ≠ some '@') (hs : ∀ q, r ≠ '/' :: q) :
    ((dropLeaders (t ++ r)).dropWhile isWs).head? ≠ some '@' := by
  have hblank : ∀ t : List Char, '@' ∉ t → ((t ++ r).dropWhile isWs).head? ≠ some '@' := by
    intro t ht
    induction t with
    | nil => exact hr'
    | cons c t ih =>
      simp only [List.mem_cons, not_or] at ht
      rw [List.cons_append, List.dropWhile_cons]
      split
      · exact ih ht.2
      · simp only [List.head?_cons, ne_eq, Option.some.injEq]
        exact fun e => ht.1 e.symm
  fun_induction dropLeaders t with
  | case1 t ih => simpa [dropLeaders] using ih (by simpa using ht)
  | case2 t ih => simpa [dropLeaders] using ih (by simpa using ht)
  | case3 t ih => simpa [dropLeaders] using ih (by simpa using ht)
  | case4 t ih => simpa [dropLeaders] using ih (by simpa using ht)
  | case5 t h1 h2 h3 h4 =>
    cases t with
    | nil => exact hr
    | cons c t =>
      have : dropLeaders (c :: t ++ r) = c :: t ++ r := by
        rw [List.cons_append]
        unfold dropLeaders
        split
        · rename_i heq; simp only [List.cons.injEq] at heq; exact absurd (by rw [heq.1]) (h1 t)
        · rename_i heq; simp only [List.cons.injEq] at heq; exact absurd (by rw [heq.1]) (h2 t)
        · rename_i heq; simp only [List.cons.injEq] at heq; exact absurd (by rw [heq.1]) (h3 t)
        · rename_i q heq
          simp only [List.cons.injEq] at heq
          cases t with
          | nil => exact absurd heq.2 (hs q)
          | cons d t =>
            simp only [List.cons_append, List.cons.injEq] at heq
            exact absurd (by rw [heq.1, heq.2.1]) (h4 t)
        · rfl
      rw [this]
      exact hblank _ ht

end Verif.Spice
